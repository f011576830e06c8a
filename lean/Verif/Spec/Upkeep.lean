import Verif.Spec.Cleanup
import Verif.Spec.RoundTrip
/-!
Sessions with `preload` and `cleanup_refs`, where these do no harm.
-/
namespace Verif

/-- Nothing is waiting to be committed. -/
structure Committed (s : St) : Prop where
  atoms : s.atoms.dirty = []
  shapes : s.shapes.dirty = []
  ops : s.ops.dirty = []
  calls : s.calls.dirty = []

/-- The refs of cached calls, the elements of collections used by calls in the database, and the refs the program holds are used by calls in the
database. -/
structure AllUsed (env : List Ref) (s : St) : Prop where
  cached : ∀ r ∈ s.calls.cache.df, UsedHid s r.refHid
  elts : EltsUsed s
  held : ∀ r ∈ env, UsedHid s r.hid ∧ Nested (UsedHid s) r

/-- Statements of a session that may be run now: `preload` when nothing is uncommitted, `cleanup_refs` when besides nothing that is needed counts as
garbage. -/
def Cmd.AllowedAt (env : List Ref) (s : St) : Cmd → Prop
  | .clearCache b => b = false
  | .cleanupRefs => Committed s ∧ AllUsed env s
  | .preload => Committed s
  | .reopen => False
  | _ => True

/-- All statements are allowed when they are run; commits go through, except perhaps (unless `all`) the last one if the session ends with it. -/
def Orderly (W : World) (all : Bool) : List Ref → St → List Cmd → Prop
  | _, _, [] => True
  | env, s, c :: cs => CmdOK W c ∧ c.AllowedAt env s ∧ (c = .commit → all = true ∨ cs ≠ [] → (c.run W.cfg env s).1 = .done) ∧
    Orderly W all (c.run W.cfg env s).2.1 (c.run W.cfg env s).2.2 cs

/-- Every session is. -/
def AllOrderly (W : World) : St → List (List Cmd × End) → Prop
  | _, [] => True
  | s, (p, e) :: ps => Orderly W false [] s p ∧ AllOrderly W (endSession W.cfg e (runProg W.cfg [] s p).2.2) ps

/-- Some processes work on the database one after the other, and then one more, so far with the statements `p`. -/
structure KeptOK (W : World) (s0 : St) (ps : List (List Cmd × End)) (p : List Cmd) : Prop where
  before : AllOrderly W s0 ps
  stmts : Orderly W true [] (runSessions W.cfg s0 ps) p

/-- Whenever `cleanup_refs` is run, a call in the database uses the ref `h`. -/
def Spared (W : World) (h : String) : List Ref → St → List Cmd → Prop
  | _, _, [] => True
  | env, s, c :: cs => (c = .cleanupRefs → UsedHid s h) ∧ Spared W h (c.run W.cfg env s).2.1 (c.run W.cfg env s).2.2 cs

/-- in every session -/
def SparedIn (W : World) (h : String) : St → List (List Cmd × End) → Prop
  | _, [] => True
  | s, (p, e) :: ps => Spared W h [] s p ∧ SparedIn W h (endSession W.cfg e (runProg W.cfg [] s p).2.2) ps

/-- Loading the ref gives the value, now and, after a commit, at any point of any later process, as long as a call uses the ref whenever
`cleanup_refs` is run. -/
def LoadsOn (W : World) (h : String) (v : Val) (s : St) : Prop :=
  (∀ b, (loadValue W.cfg h b s).1 = .ok v) ∧
  ∀ s1, commit W.cfg s = (.ok (), s1) → ∀ e qs q, KeptOK W (endSession W.cfg e s1) qs q → SparedIn W h (endSession W.cfg e s1) qs →
    Spared W h [] (runSessions W.cfg (endSession W.cfg e s1) qs) q → ∀ b, (loadValue W.cfg h b (runLast W.cfg (endSession W.cfg e s1) qs q).2.2).1 = .ok v

end Verif
