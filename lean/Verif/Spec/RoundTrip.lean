import Verif.Spec.Total
/-!
Storing values and getting them back, now or in a later process.
-/
namespace Verif

/-- Some processes work on the database one after the other, and then one more, so far with the statements `p`. -/
structure RunOK (W : World) (s0 : St) (ps : List (List Cmd × End)) (p : List Cmd) : Prop where
  before : SessionsOK W s0 ps
  stmts : ∀ c ∈ p, CmdOK W c ∧ c.InSession
  commits : commitsDone p (runProg W.cfg [] (runSessions W.cfg s0 ps) p).1

/-- The observations, the results and the storage of the last process. -/
def runLast (cfg : Cfg) (s0 : St) (ps : List (List Cmd × End)) (p : List Cmd) : List Obs × List Ref × St :=
  runProg cfg [] (runSessions cfg s0 ps) p

/-- `storage.unwrap(storage.load_ref(h))` (storage.py:269-293, 514-523). -/
def loadValue (cfg : Cfg) (h : String) (inMemory : Bool) : M Val := do
  let r ← loadRef cfg.fuel h inMemory
  unwrapRef cfg r

/-- `ref, _ = storage.construct(tp, v); storage.save_ref(ref); ref.hid` (storage.py:574-591, 245-267). -/
def storeValue (cfg : Cfg) (ty : Ty) (v : Val) : M String := do
  let p ← construct cfg ty (.val v)
  saveRef p.1
  M.pure p.1.hid

/-- `v` can be loaded from the storage under `h`; and, once a commit went through, at any point of any later process. -/
def Loads (W : World) (h : String) (v : Val) (s : St) : Prop :=
  (∀ b, (loadValue W.cfg h b s).1 = .ok v) ∧
  ∀ s1, commit W.cfg s = (.ok (), s1) → ∀ e qs q, RunOK W (endSession W.cfg e s1) qs q →
    ∀ b, (loadValue W.cfg h b (runLast W.cfg (endSession W.cfg e s1) qs q).2.2).1 = .ok v

end Verif
