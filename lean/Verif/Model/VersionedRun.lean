import Verif.Model.Tracer
/-!
A versioned storage in use: the code changes, contexts are entered and left, ops are called in them, versions and calls are dropped.
This puts together the tracer (`Tracer`), the versioner (`VSt`) and the recorded results.

* A call is identified by the hash of the op and of its inputs (`pre_call_uid`), and a recorded call by this and the semantic version
  (storage.py lines 639-695).
* What an op does is given by `Ops`: depending on the source code, what the tracer sees of an execution, and its result. Ops do not raise.
* One storage object. The versioner is always the same object (storage.py lines 942-946 take it from the cache of `sources`, which nothing
  removes it from but `clear_cache`), so that entering a context again does not lose anything.
* Keys of dependencies are pairs in the tracer and strings in the versioner; `enc` gives the string.
-/
namespace Verif

/-- The python code and the global variables, as they are at some time -/
abbrev Source := DepKey → Option TNode

/-- The runtime description (bytecode) of a component -/
def Source.runtime (src : Source) (k : DepKey) : String :=
  match src k with
  | some (.callable _ rt) => rt
  | _ => ""

/-- The ops: the function of the op of a call, what an execution does as far as the tracer is concerned, and what it returns -/
structure Ops (V : Type) where
  key : String → DKey
  acts : Source → String → List Act
  value : Source → String → V

/-- The function of the op, as it is in the source -/
def Ops.fn {V : Type} (ops : Ops V) (enc : DKey → DepKey) (src : Source) (uid : String) : Fn :=
  ⟨(ops.key uid).1, (ops.key uid).2, src.runtime (enc (ops.key uid))⟩

/-- The storage (versioner, code state of the context, recorded calls), the code, the length of `_mode_stack`, and whether
`cached_versioner` is set; `log` has the executions of op bodies, latest first, and is nothing the code knows of. -/
structure VRun (V : Type) where
  st : VSt
  calls : Dict (String × String) V
  src : Source
  depth : Nat
  cached : Bool
  log : List String

namespace VRun

variable {V : Type} (H : Val → String) (enc : DKey → DepKey) (ops : Ops V)

/-- a new storage -/
def new (strict : Bool) (src : Source) : VRun V := ⟨⟨.empty strict, []⟩, [], src, 0, false, []⟩

/-- storage.py lines 836-936 and `save_call` (lines 334-350): run the op under the tracer, check and register the trace, record the
call unless it is there already -/
def execute (s : VRun V) (uid : String) : Res (VRun V) V :=
  match Tracer.traceOp (ops.fn enc s.src uid) (ops.acts s.src uid) with
  | .error e => (.error e, { s with log := uid :: s.log })
  | .ok t =>
    match s.st.executed H uid (t.roots.map enc) (t.nodes.map fun p => (enc p.1, p.2)) (t.edges.map fun e => (enc e.1, enc e.2)) with
    | (.error e, st') => (.error e, { s with st := st', log := uid :: s.log })
    | (.ok v, st') =>
      let r := ops.value s.src uid
      (.ok r, { s with st := st', log := uid :: s.log, calls := if s.calls.has (uid, v.semanticVersion) then s.calls else s.calls.set (uid, v.semanticVersion) r })

/-- `Op.__call__` (model.py lines 244-249): outside of contexts the function itself. Otherwise `call_internal` (storage.py lines
800-936), which fails when there is no versioner (line 801). -/
def call (s : VRun V) (uid : String) : Res (VRun V) V :=
  if s.depth = 0 then (.ok (ops.value s.src uid), { s with log := uid :: s.log })
  else if s.cached = false then (.error .attributeError, s)
  else
    match s.st.versioner.lookupCall H (enc (ops.key uid)) uid s.st.codeState with
    | .error e => (.error e, s)
    | .ok none => execute H enc ops s uid
    | .ok (some (_, sv)) =>
      match s.calls.get? (uid, sv) with
      | some r => (.ok r, s)
      | none => execute H enc ops s uid

/-- `__enter__` (storage.py lines 1209-1216) with the code state that `guess_code_state` finds and the answers of the user: the
context and the mode are set before `sync_code` can fail -/
def enter (s : VRun V) (cs : CodeState) (answer : DepKey → Answer) : Res (VRun V) Unit :=
  match s.st.versioner.syncCodebase H cs answer with
  | (.error e, v) => (.error e, { s with st := ⟨v, s.st.codeState⟩, depth := s.depth + 1 })
  | (.ok (), v) => (.ok (), { s with st := ⟨v, cs⟩, depth := s.depth + 1, cached := true })

/-- `__exit__` (storage.py lines 1235-1257) -/
def exit (s : VRun V) : VRun V := { s with depth := s.depth - 1, cached := if s.depth = 1 then false else s.cached }

/-- `drop_calls` (storage.py lines 403-434), given the calls and their dependents -/
def dropCalls (s : VRun V) (l : List (String × String)) : VRun V := { s with calls := s.calls.filter fun p => p.1 ∉ l }

/-- `drop_version` (storage.py lines 1116-1133), given the dependents of the calls of this version -/
def dropVersion (s : VRun V) (sv : String) (dependents : List (String × String)) : VRun V :=
  { s with st := ⟨s.st.versioner.dropSemanticVersion sv, s.st.codeState⟩
           calls := s.calls.filter fun p => p.1.2 ≠ sv ∧ p.1 ∉ dependents }

/-- What happens. -/
inductive Cmd
  /-- the code, or the value of a global variable, changes -/
  | change (src : Source)
  | enter (cs : CodeState) (answer : DepKey → Answer)
  | exit
  | call (uid : String)
  | dropCalls (l : List (String × String))
  | dropVersion (sv : String) (dependents : List (String × String))

def step (s : VRun V) : Cmd → VRun V
  | .change src => { s with src := src }
  | .enter cs answer => (enter H s cs answer).2
  | .exit => s.exit
  | .call uid => (call H enc ops s uid).2
  | .dropCalls l => s.dropCalls l
  | .dropVersion sv dependents => s.dropVersion sv dependents

def run (s : VRun V) (cmds : List Cmd) : VRun V := cmds.foldl (step H enc ops) s

end VRun
end Verif
