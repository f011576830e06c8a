import Verif.Model.Storage
import Verif.Model.Versioner
/-!
`drop_version` (storage.py lines 1115-1133) on the calls table, the cache and the versioner together.
-/
namespace Verif

/-- A versioned `Storage`: tables and caches; the versioner with the code state (`sources.cache`, `cached_versioner`); the versioner in the
database (table `sources`) -/
structure VStorage where
  s : St
  st : VSt
  saved : Versioner

/-- `save_call` (storage.py:334-350) of a call with versions -/
def saveCallV (c : CallObj) (sv cv : Option String) : M Unit := do
  if ← M.read (fun s => s.calls.exists_ c.hid) then M.pure ()
  else
    (do if ← M.read (fun s => s.ops.exists_ c.op) then M.pure () else opsSet c.op)
    saveRefs (c.inputs.map (·.2) ++ c.outputs.map (·.2))
    (fun s => (.ok (), { s with calls := s.calls.save { c.toRec with semVer := sv, contVer := cv } }) : M Unit)

namespace VStorage

/-- storage.py:1126-1128: the calls of the version, looked for in the database -/
def versionHids (rows : List Row) (sv : String) : List String := (rows.filter fun r => r.semVer = some sv).map (·.callHid)

/-- `drop_version`, storage.py:1116-1133; the versioner is written at once (lines 949-951) -/
def dropVersion (v : VStorage) (sv : String) : Res VStorage Unit :=
  match dropCalls (versionHids v.s.calls.pers sv) true v.s with
  | (.error e, s) => (.error e, { v with s := s })
  | (.ok _, s) => (.ok (), ⟨s, ⟨v.st.versioner.dropSemanticVersion sv, v.st.codeState⟩, v.st.versioner.dropSemanticVersion sv⟩)

/-- What happens to a versioned storage. -/
inductive Cmd
  /-- entering a context -/
  | enter (cs : CodeState) (answer : DepKey → Answer)
  /-- an op is executed (storage.py:836-936) and the call is saved together with those that build its collections (lines 1187-1190); its ids
  depend on the semantic version (lines 908-911) -/
  | record (uid : String) (roots : List DepKey) (trace : Dict DepKey TNode) (edges : List (DepKey × DepKey)) (c : String → CallObj)
      (structural : String → List CallObj)
  /-- a call with known contents and a new history (lines 677-693): it has the versions of the known one -/
  | again (c : CallObj) (known : String)
  | commit
  | dropCalls (hids : List String) (deleteDependents : Bool)
  | dropVersion (sv : String)
  | cleanupRefs
  | preload
  /-- the process ends, another one opens the database -/
  | reopen

variable (H : Val → String) (cfg : Cfg)

/-- A statement on the tables and caches -/
def onStore (v : VStorage) (m : M Unit) : Res VStorage Unit := ((m v.s).1, { v with s := (m v.s).2 })

def step (v : VStorage) : Cmd → Res VStorage Unit
  | .enter cs answer => (.ok (), { v with st := v.st.step H (.enter cs answer) })
  | .record uid roots trace edges c structural =>
    match v.st.executed H uid roots trace edges with
    | (.error e, st) => (.error e, { v with st := st })
    | (.ok w, st) =>
      ({ v with st := st }).onStore do
        saveCallV (c w.semanticVersion) (some w.semanticVersion) (some w.contentVersion)
        M.forM' (fun c => saveCallV c none none) (structural w.semanticVersion)
  | .again c known =>
    match v.s.calls.getData known with
    | .error e => (.error e, v)
    | .ok d => v.onStore (saveCallV c d.semVer d.contVer)
  | .commit =>
    match Verif.commit cfg v.s with
    | (.error e, s) => (.error e, { v with s := s })
    | (.ok _, s) => (.ok (), ⟨s, v.st, v.st.versioner⟩)
  | .dropCalls hids b => v.onStore (Verif.dropCalls hids b)
  | .dropVersion sv => v.dropVersion sv
  | .cleanupRefs => v.onStore Verif.cleanupRefs
  | .preload => v.onStore Verif.preload
  | .reopen => (.ok (), ⟨(Verif.reopen v.s).2, ⟨v.saved, []⟩, v.saved⟩)

/-- All statements are run, whether or not earlier ones raise -/
def run (v : VStorage) (cmds : List Cmd) : VStorage := cmds.foldl (fun v c => (v.step H cfg c).2) v

/-- A new storage on an empty database -/
def fresh (strict : Bool) (thr : Nat) : VStorage := ⟨.fresh none thr, ⟨.empty strict, []⟩, .empty strict⟩

end VStorage
end Verif
