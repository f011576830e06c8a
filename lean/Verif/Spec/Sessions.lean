import Verif.Spec.ProgramOK
/-!
Sequences of processes working on one database, each of which may be killed at any point.
-/
namespace Verif

/-- Statements of an ordinary session: calls, unwraps, commits, drops of calls, clearing the cache (unless asked to lose
uncommitted data), forbidding and allowing new calls. -/
def Cmd.InSession : Cmd → Prop
  | .clearCache b => b = false
  | .cleanupRefs => False
  | .preload => False
  | .reopen => False
  | _ => True

/-- No statement follows a failed commit. -/
def commitsGo : List Cmd → List Obs → Prop
  | .commit :: c :: cs, o :: os => o = .done ∧ commitsGo (c :: cs) os
  | .commit :: [], _ => True
  | _ :: cs, _ :: os => commitsGo cs os
  | _, _ => True

/-- How a process ends. -/
inductive End
  /-- between two statements -/
  | between
  /-- during a commit: the tables are as before (an sqlite transaction), the overflow files of these values may
  have been written -/
  | inCommit (written : List String)

/-- The process ends and the database is opened again (storage.py:42-130). -/
def endSession (cfg : Cfg) : End → St → St
  | .between, s => (reopen s).2
  | .inCommit ks, s => (reopen { s with atoms := { s.atoms with pers := { s.atoms.pers with
      overflow := (CachedDict.flush cfg.sizeA s.atoms.cache ks s.atoms.pers).2.overflow } } }).2

/-- A sequence of processes. -/
def runSessions (cfg : Cfg) : St → List (List Cmd × End) → St
  | s, [] => s
  | s, (p, e) :: ps => runSessions cfg (endSession cfg e (runProg cfg [] s p).2.2) ps

/-- Every session consists of ordinary statements, none of which follows a failed commit. -/
def SessionsOK (W : World) : St → List (List Cmd × End) → Prop
  | _, [] => True
  | s, (p, e) :: ps => (∀ c ∈ p, CmdOK W c ∧ c.InSession) ∧ commitsGo p (runProg W.cfg [] s p).1 ∧
    SessionsOK W (endSession W.cfg e (runProg W.cfg [] s p).2.2) ps

/-- Nothing in the database refers to something that is not there: inputs, outputs and ops of calls have records; so have
elements of collections; atoms have their values. -/
structure Intact (H : Val → String) (s : St) : Prop where
  rows : ∀ r ∈ s.calls.pers, ∃ rec, s.shapes.pers.get r.refHid = .ok rec ∧ rec.hid = r.refHid ∧ rec.cid = r.refCid
  ops : ∀ r ∈ s.calls.pers, ∃ o, s.ops.pers.get r.op = .ok o
  atoms : ∀ h c h' o, s.shapes.pers.get h = .ok (.atom c h' o) → ∃ v, s.atoms.pers.get c = .ok v ∧ c = H v
  elts : ∀ h k c h' m ks es, s.shapes.pers.get h = .ok (.coll k c h' m ks es) → m = true ∧
    c = H (collPre k ks (es.map Ref.cid)) ∧
    ∀ e ∈ es, ∃ rec, s.shapes.pers.get e.hid = .ok rec ∧ rec.hid = e.hid ∧ rec.cid = e.cid

end Verif
