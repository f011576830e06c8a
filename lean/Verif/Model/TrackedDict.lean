import Verif.Model.Tracer
/-!
What `@track` does to a function: `track`, `make_tracked_copy` and `TrackedDict` (deps/tracers/dec_impl.py lines 42-165), `is_global_val`
(deps/utils.py lines 56-86).

A tracked function is a copy whose `__globals__` is a `TrackedDict`. Names of the module are looked up through its `__getitem__`, which
reads the dictionary of the module; python stores them (`global x; x = ...`) into the `TrackedDict` itself, which nobody reads
(python 3.8-3.12, `LOAD_GLOBAL` and `STORE_GLOBAL` on a subclass of `dict`). Functions that are defined in a tracked function have the same
`__globals__`, but calls of them are not registered.

Code is a tree of what it does: read and write names of its module, read attributes of modules, call functions, return or raise. Objects do
not change; calls of classes, ops and other callable objects are left out (`unmodelled`); errors of the tracer are not caught by the code.
-/
namespace Verif
namespace Track

abbrev Obj := Nat

/-- A function: where it is from, whether its `__globals__` is a `TrackedDict`, whether calls of it are registered (it is the wrapper that
`track` returns), whether `TracerState.is_tracked` holds for it (lines 36-39), and whether it has closure variables -/
structure FnObj where
  modul : String
  qualname : String
  dict : Bool
  wrapper : Bool
  registered : Bool
  closure : Bool
  deriving DecidableEq

/-- The kinds of objects that `TrackedDict` and `is_global_val` tell apart -/
inductive GKind
  /-- a function, or something with a function inside (`unwrap_decorators`) -/
  | function (f : FnObj)
  /-- a class, of this module, and whether it is tracked -/
  | cls (modul : String) (registered : Bool)
  | modul
  | op
  /-- anything else -/
  | value
  deriving DecidableEq

/-- The objects: what they are, their content hash if there is one, `repr`; and whether a module is among those that are traced
(`is_owned_obj`, lines 194-196) -/
structure Objects where
  kind : Obj → GKind
  hash : Obj → Option String
  repr : Obj → String
  owned : String → Bool

/-- What code does. Names that do not exist give `none`; a call gives what is returned or the exception. -/
inductive Code
  | ret (v : Obj)
  | exc (e : Nat)
  | load (name : String) (next : Option Obj → Code)
  | attr (modul name : String) (next : Option Obj → Code)
  | store (name : String) (v : Obj) (next : Code)
  | call (f arg : Obj) (next : Except Nat Obj → Code)

/-- The functions of the program: what they do with an argument, and the description of their bytecode -/
structure Prog where
  body : Obj → Obj → Code
  runtime : Obj → String

/-- The names of the modules -/
abbrev Env := String → String → Option Obj

def Env.set (g : Env) (m x : String) (v : Obj) : Env := fun m' x' => if m' = m ∧ x' = x then some v else g m' x'

/-- Settings of the tracer -/
structure Cfg where
  strict : Bool
  skipUnhashable : Bool
  trackGlobals : Bool
  deriving DecidableEq

/-- What the tracer does not see; nothing the code knows of -/
inductive Unseen
  /-- what a name stands for, if not a value -/
  | binding (m x : String)
  /-- a value that cannot be hashed -/
  | unhashable (m x : String)
  /-- a name of another module than the one of the function that is running according to the tracer -/
  | foreign (m x : String)
  /-- a name read by a function that is not tracked -/
  | untracked (m x : String)
  /-- an attribute of a module -/
  | attr (m x : String)
  /-- a variable, as variables are not tracked -/
  | off (m x : String)
  /-- a call of a function whose calls are not registered -/
  | call (f : Obj)
  /-- a name that was written by a tracked function -/
  | lost (m x : String)
  /-- a name that was written by another function -/
  | stored (m x : String)
  deriving DecidableEq

structure Out where
  res : Except Err (Except Nat Obj)
  env : Env
  acts : List Act
  unseen : List Unseen

def Out.after (a : List Act) (u : List Unseen) (o : Out) : Out := { o with acts := a ++ o.acts, unseen := u ++ o.unseen }

/-- `TrackedDict.__getitem__`, lines 53-91, with `register_global_access` (lines 261-271) and `GlobalVarNode.from_obj`: what the name gives,
what the tracer is told, what it does not see. `top` is the function on top of `call_stack`. -/
def getitem (o : Objects) (cfg : Cfg) (top : Fn) (m x : String) (g : Env) : Except Err (Option Obj × List Act × List Unseen) :=
  match g m x with
  | none => .ok (none, [], [.binding m x])
  | some a =>
    match o.kind a with
    | .function f => if o.owned f.modul && !f.registered then .error .valueError else .ok (some a, [], [.binding m x])
    | .cls cm _ => if o.owned cm then .error .valueError else .ok (some a, [], [.binding m x])
    | .modul => .ok (some a, [], [.binding m x])
    | .op => .ok (some a, [], [.binding m x])
    | .value =>
      if cfg.trackGlobals then
        match o.hash a with
        | some h => .ok (some a, [.glob x h (o.repr a)], if m = top.modul then [] else [.foreign m x])
        | none => if cfg.skipUnhashable then .ok (some a, [.glob x "UNKNOWN_GLOBAL_VAR" (o.repr a)], [.unhashable m x]) else .error .runtimeError
      else .ok (some a, [], [.off m x])

variable (o : Objects) (cfg : Cfg) (p : Prog)

/-- Run code under the tracer: `wrapper` (lines 142-151) around tracked functions. `m` is the module of the code, `dict` whether its
`__globals__` is a `TrackedDict`. The number bounds the depth of calls. -/
def exec : Nat → Fn → String → Bool → Code → Env → Out
  | 0, _, _, _, _, g => ⟨.error .recursionError, g, [], []⟩
  | _ + 1, _, _, _, .ret v, g => ⟨.ok (.ok v), g, [], []⟩
  | _ + 1, _, _, _, .exc e, g => ⟨.ok (.error e), g, [], []⟩
  | n + 1, top, m, true, .load x next, g =>
    match getitem o cfg top m x g with
    | .error e => ⟨.error e, g, [], []⟩
    | .ok (v, a, u) => (exec n top m true (next v) g).after a u
  | n + 1, top, m, false, .load x next, g => (exec n top m false (next (g m x)) g).after [] [.untracked m x]
  | n + 1, top, m, d, .attr m' x next, g => (exec n top m d (next (g m' x)) g).after [] [.attr m' x]
  | n + 1, top, m, true, .store x _ next, g => (exec n top m true next g).after [] [.lost m x]
  | n + 1, top, m, false, .store x v next, g => (exec n top m false next (g.set m x v)).after [] [.stored m x]
  | n + 1, top, m, d, .call f arg next, g =>
    match o.kind f with
    | .function fo =>
      if fo.wrapper then
        if cfg.strict && fo.closure then ⟨.error .runtimeError, g, [], []⟩
        else
          let fn : Fn := ⟨fo.modul, fo.qualname, p.runtime f⟩
          let b := exec n fn fo.modul true (p.body f arg) g
          match b.res with
          | .error e => ⟨.error e, b.env, [.call fn b.acts true], b.unseen⟩
          | .ok r => (exec n top m d (next r) b.env).after [.call fn b.acts (match r with | .ok _ => false | .error _ => true)] b.unseen
      else
        let b := exec n top fo.modul fo.dict (p.body f arg) g
        match b.res with
        | .error e => ⟨.error e, b.env, b.acts, .call f :: b.unseen⟩
        | .ok r => (exec n top m d (next r) b.env).after b.acts (.call f :: b.unseen)
    | _ => ⟨.error .unmodelled, g, [], []⟩

/-- Run an op (storage.py lines 872-879): its function is tracked, see `traceOp` -/
def execOp (n : Nat) (f arg : Obj) (fo : FnObj) (g : Env) : Out := exec o cfg p n ⟨fo.modul, fo.qualname, p.runtime f⟩ fo.modul true (p.body f arg) g

end Track
end Verif
