import Verif.Model.VersionedRun
/-!
Several processes with one versioned database, one after the other or at the same time. Each has its own storage object and its own code.

* A process reads the versioner when it opens the database (storage.py lines 75-78) and never again; it reads recorded calls from its cache
  and then from the database (storage_utils.py lines 730-750).
* `commit` (storage.py lines 209-217) writes the whole versioner and the calls that are marked as dirty in one transaction; inserting a call
  that is already there violates the primary key of the table (storage_utils.py lines 540-559). References, shapes and ops are left out.
* A process may end at any time; what it has not committed is lost.
-/
namespace Verif

/-- A process: its storage (`calls` is the cache) and its code, and the calls that are to be written. -/
structure VProc (V : Type) where
  run : VRun V
  dirty : List (String × String)

/-- The database: table `sources`, table `calls` -/
structure VDisk (V : Type) where
  versioner : Option Versioner
  calls : Dict (String × String) V

structure VWorld (V : Type) where
  disk : VDisk V
  procs : Nat → Option (VProc V)

namespace VWorld

variable {V : Type} (H : Val → String) (enc : DKey → DepKey) (ops : Ops V)

/-- a new database -/
def new : VWorld V := ⟨⟨none, []⟩, fun _ => none⟩

def setProc (w : VWorld V) (pid : Nat) (p : Option (VProc V)) : VWorld V := { w with procs := fun q => if q = pid then p else w.procs q }

/-- `Storage.__init__` (storage.py lines 72-123) -/
def opened (d : VDisk V) (strict : Bool) (src : Source) : VProc V :=
  ⟨{ VRun.new strict src with st := ⟨d.versioner.getD (.empty strict), []⟩ }, []⟩

/-- What the process can read -/
def view (d : VDisk V) (p : VProc V) : VRun V := { p.run with calls := p.run.calls ++ d.calls }

/-- `Storage.call`, with `save_call` (storage.py lines 334-350) writing to the cache -/
def call (d : VDisk V) (p : VProc V) (uid : String) : Except Err V × VProc V :=
  match VRun.call H enc ops (view d p) uid with
  | (r, s') =>
    let added := s'.calls.drop (view d p).calls.length
    (r, ⟨{ s' with calls := p.run.calls ++ added }, p.dirty ++ added.map (·.1)⟩)

/-- `Storage.commit` (storage.py lines 209-217) -/
def commit (d : VDisk V) (p : VProc V) : Except Err Unit × VDisk V × VProc V :=
  if p.dirty.any fun k => !p.run.calls.has k then (.error .keyError, d, p)
  else if p.dirty.any fun k => d.calls.has k then (.error .integrityError, d, p)
  else (.ok (), ⟨some p.run.st.versioner, d.calls ++ p.run.calls.filter fun q => q.1 ∈ p.dirty⟩, { p with dirty := [] })

/-- `__exit__` (storage.py lines 1235-1257) -/
def exit (d : VDisk V) (p : VProc V) : Except Err Unit × VDisk V × VProc V :=
  if p.run.depth = 1 then
    match commit d p with
    | (r, d, p) => (r, d, { p with run := p.run.exit })
  else (.ok (), d, { p with run := p.run.exit })

/-- `drop_version` (storage.py lines 1116-1133) and `drop_calls` (lines 403-434), given the dependents of the calls of this version: the
calls are looked for in the database; the versioner is written at once (lines 949-951) -/
def dropVersion (d : VDisk V) (p : VProc V) (sv : String) (dependents : List (String × String)) : VDisk V × VProc V :=
  let l := (d.calls.filter fun q => q.1.2 = sv).map (·.1) ++ dependents
  let v := p.run.st.versioner.dropSemanticVersion sv
  (⟨some v, d.calls.filter fun q => q.1 ∉ l⟩,
   { p with run := { p.run with st := ⟨v, p.run.st.codeState⟩, calls := p.run.calls.filter fun q => q.1 ∉ l } })

/-- What happens. -/
inductive Cmd
  | opens (pid : Nat) (strict : Bool) (src : Source)
  /-- the process ends, or is killed -/
  | ends (pid : Nat)
  | change (pid : Nat) (src : Source)
  | enter (pid : Nat) (cs : CodeState) (answer : DepKey → Answer)
  | exit (pid : Nat)
  | call (pid : Nat) (uid : String)
  | dropVersion (pid : Nat) (sv : String) (dependents : List (String × String))

def step (w : VWorld V) : Cmd → VWorld V
  | .opens pid strict src => w.setProc pid (some (opened w.disk strict src))
  | .ends pid => w.setProc pid none
  | .change pid src =>
    match w.procs pid with
    | none => w
    | some p => w.setProc pid (some { p with run := { p.run with src := src } })
  | .enter pid cs answer =>
    match w.procs pid with
    | none => w
    | some p => w.setProc pid (some { p with run := (VRun.enter H p.run cs answer).2 })
  | .exit pid =>
    match w.procs pid with
    | none => w
    | some p =>
      match exit w.disk p with
      | (_, d, p) => { w with disk := d }.setProc pid (some p)
  | .call pid uid =>
    match w.procs pid with
    | none => w
    | some p => w.setProc pid (some (call H enc ops w.disk p uid).2)
  | .dropVersion pid sv dependents =>
    match w.procs pid with
    | none => w
    | some p =>
      match dropVersion w.disk p sv dependents with
      | (d, p) => { w with disk := d }.setProc pid (some p)

def run (w : VWorld V) (cmds : List Cmd) : VWorld V := cmds.foldl (step H enc ops) w

end VWorld
end Verif
