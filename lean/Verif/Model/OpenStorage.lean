import Verif.Model.Versioner
/-!
Opening a storage with versions, and bringing one component up to date by hand: `Storage.__init__` (storage.py lines 72-123),
`get_versioner`, `save_versioner` and `sync_component` (lines 942-991), `dump_config` (lines 132-147), `commit` (lines 209-217),
`Versioner.__init__` and `sync_component` (deps/versioner.py lines 50-88 and 297-311).

* The versioner is one python object in the cache of the table `sources` (a `CachedDictStorage`, storage_utils.py lines 266-322). It is
  changed in place, and every key of that cache is bound to this object; so the cache is the object and the keys that are to be written.
* A process has its own storage object, and several processes may use the database. A process may end at any time. Writing the table
  fails as a whole or not at all; a failed commit is no command here.
* Of contexts there is only the outermost one: nested ones neither commit nor reset anything (lines 1209-1257).
* `Path.absolute().resolve()` is a function `resolve`, the tracer is known by its name.
-/
namespace Verif

/-- `Versioner.sync_component`, deps/versioner.py lines 297-311: in place, in the history of the component -/
def Versioner.syncComponent (H : Val → String) (s : Versioner) (k : DepKey) (isSemanticChange : Option Bool) (cs : CodeState) (answer : Answer) :
    Res Versioner String :=
  match s.dags.get? k with
  | none => (.error .keyError, s)
  | some d =>
    match cs.get? k with
    | none => (.error .keyError, s)
    | some n =>
      match n.content with
      | none => (.error .attributeError, s)
      | some c =>
        match d.sync (Content.hash H) c isSemanticChange answer with
        | .error e => (.error e, s)
        | .ok r => (.ok r.2, { s with dags := s.dags.set k r.1 })

namespace Opening

/-- The options a versioner is made with, deps/versioner.py lines 50-77 -/
structure Options where
  paths : List String
  tracer : String
  strict : Bool
  trackGlobals : Bool
  skipUnhashableGlobals : Bool
  skipGlobalsSilently : Bool
  skipMissingDeps : Bool
  skipMissingSilently : Bool
  package : Option String
  deriving DecidableEq

/-- The arguments of `Storage(...)` that are about versions, storage.py lines 27-44 -/
structure Given where
  depsPath : Option String
  tracer : Option String
  strict : Bool
  trackGlobals : Bool
  skipUnhashableGlobals : Bool
  skipGlobalsSilently : Bool
  skipMissingDeps : Bool
  skipMissingSilently : Bool
  package : Option String
  deriving DecidableEq

/-- The versioner object -/
abbrev Obj := Options × Versioner

/-- The table `sources` -/
abbrev Table := Dict String Obj

/-- A storage object: the arguments (lines 80-88), `_versioned`, the versioner and the keys that are to be written, and `code_state` -/
structure Proc where
  given : Given
  versioned : Bool
  cache : Option Obj
  dirty : List String
  codeState : Option CodeState

structure World where
  table : Table
  procs : Nat → Option Proc

variable (H : Val → String) (resolve : String → String)

/-- Line 95 -/
def roots (p : String) : List String := if p = "__main__" then [] else [resolve p]

/-- Lines 104-115 -/
def newVersioner (g : Given) (p : String) : Obj :=
  (⟨roots resolve p, g.tracer.getD "DecTracer", g.strict, g.trackGlobals, g.skipUnhashableGlobals, g.skipGlobalsSilently, g.skipMissingDeps,
    g.skipMissingSilently, g.package⟩, .empty g.strict)

/-- `Storage.__init__`, lines 72-123 -/
def openStorage (t : Table) (g : Given) : Except Err Proc :=
  let current := t.get? "versioner"
  match g.depsPath with
  | none => .ok ⟨g, false, current, [], none⟩
  | some p =>
    match current with
    | some o => if o.1.paths ≠ roots resolve p then .error .valueError else .ok ⟨g, true, some o, [], none⟩
    | none => .ok ⟨g, true, some (newVersioner resolve g p), ["versioner"], none⟩

/-- `dump_config`, lines 132-147 -/
def dumpConfig (p : Proc) : Given := p.given

/-- `get_versioner`, lines 942-946, with `CachedDictStorage.get`: it stays in the cache -/
def getVersioner (t : Table) (p : Proc) : Except Err (Obj × Proc) :=
  match p.cache with
  | some o => .ok (o, p)
  | none =>
    match t.get? "versioner" with
    | some o => .ok (o, { p with cache := some o })
    | none => .error .keyError

/-- `save_versioner`, lines 949-951, with `CachedDictStorage.commit` -/
def saveVersioner (t : Table) (p : Proc) (o : Obj) : Table × Proc :=
  ((p.dirty ++ ["versioner"]).foldl (fun t key => t.set key o) t, { p with cache := some o, dirty := [] })

/-- `commit`, lines 209-217, as far as the table is concerned: it writes the cached versioner if the storage is versioned -/
def commit (t : Table) (p : Proc) : Except Err Table :=
  if p.versioned then
    match p.cache with
    | some o => .ok (t.set "versioner" o)
    | none => .error .keyError
  else .ok t

/-- `sync_component`, lines 974-991 -/
def syncComponent (t : Table) (p : Proc) (k : DepKey) (isSemanticChange : Option Bool) (cs : CodeState) (answer : Answer) : Res Proc String :=
  match getVersioner t p with
  | .error e => (.error e, p)
  | .ok (o, p) =>
    match o.2.syncComponent H k isSemanticChange cs answer with
    | (.error e, v) => (.error e, { p with cache := some (o.1, v) })
    | (.ok h, v) => (.ok h, { p with cache := some (o.1, v), dirty := p.dirty ++ ["versioned"] })

/-- `__enter__`, lines 1209-1216 -/
def enter (t : Table) (p : Proc) (cs : CodeState) (answer : DepKey → Answer) : Res Proc Unit :=
  if p.versioned then
    match getVersioner t p with
    | .error e => (.error e, p)
    | .ok (o, p) =>
      match o.2.syncCodebase H cs answer with
      | (.error e, v) => (.error e, { p with cache := some (o.1, v) })
      | (.ok (), v) => (.ok (), { p with cache := some (o.1, v), codeState := some cs })
  else (.ok (), p)

/-- An op has been executed in a context of a versioned storage, lines 881-898 -/
def executed (p : Proc) (uid : String) (roots : List DepKey) (trace : Dict DepKey TNode) (edges : List (DepKey × DepKey)) : Res Proc Unit :=
  match p.cache, p.codeState with
  | some o, some cs =>
    match (⟨o.2, cs⟩ : VSt).executed H uid roots trace edges with
    | (.error e, st) => (.error e, { p with cache := some (o.1, st.versioner), codeState := some st.codeState })
    | (.ok _, st) => (.ok (), { p with cache := some (o.1, st.versioner), codeState := some st.codeState })
  | _, _ => (.error .attributeError, p)

/-- `drop_version`, lines 1130-1133 -/
def dropVersion (t : Table) (p : Proc) (sv : String) : Except Err (Table × Proc) :=
  match getVersioner t p with
  | .error e => .error e
  | .ok (o, p) => .ok (saveVersioner t p (o.1, o.2.dropSemanticVersion sv))

/-- What happens. -/
inductive Cmd
  | opens (pid : Nat) (g : Given)
  /-- the process ends, or is killed -/
  | ends (pid : Nat)
  | enter (pid : Nat) (cs : CodeState) (answer : DepKey → Answer)
  | executed (pid : Nat) (uid : String) (roots : List DepKey) (trace : Dict DepKey TNode) (edges : List (DepKey × DepKey))
  /-- `__exit__`, lines 1235-1257 -/
  | exit (pid : Nat)
  | commit (pid : Nat)
  | sync (pid : Nat) (k : DepKey) (isSemanticChange : Option Bool) (cs : CodeState) (answer : Answer)
  | dropVersion (pid : Nat) (sv : String)

namespace World

/-- a new database -/
def new : World := ⟨[], fun _ => none⟩

def setProc (w : World) (pid : Nat) (p : Option Proc) : World := { w with procs := fun q => if q = pid then p else w.procs q }

def step (w : World) : Cmd → World
  | .opens pid g => w.setProc pid (openStorage resolve w.table g).toOption
  | .ends pid => w.setProc pid none
  | .enter pid cs answer =>
    match w.procs pid with
    | none => w
    | some p => w.setProc pid (some (Opening.enter H w.table p cs answer).2)
  | .executed pid uid roots trace edges =>
    match w.procs pid with
    | none => w
    | some p => w.setProc pid (some (Opening.executed H p uid roots trace edges).2)
  | .exit pid =>
    match w.procs pid with
    | none => w
    | some p =>
      match Opening.commit w.table p with
      | .error _ => w.setProc pid (some { p with codeState := none })
      | .ok t => { w with table := t }.setProc pid (some { p with codeState := none })
  | .commit pid =>
    match w.procs pid with
    | none => w
    | some p =>
      match Opening.commit w.table p with
      | .error _ => w
      | .ok t => { w with table := t }
  | .sync pid k b cs answer =>
    match w.procs pid with
    | none => w
    | some p => w.setProc pid (some (syncComponent H w.table p k b cs answer).2)
  | .dropVersion pid sv =>
    match w.procs pid with
    | none => w
    | some p =>
      match Opening.dropVersion w.table p sv with
      | .error _ => w
      | .ok (t, p) => { w with table := t }.setProc pid (some p)

def run (w : World) (cmds : List Cmd) : World := cmds.foldl (step H resolve) w

end World
end Opening
end Verif
