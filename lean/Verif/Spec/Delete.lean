import Verif.Spec.Upkeep
import Verif.Spec.Flow
import Verif.Model.CFrameTable
/-!
Deleting calls together with everything that was computed from them.
-/
namespace Verif

/-- `s'` is `s` without the given calls and the calls that depend on them, and nothing else is different. -/
structure DeletedExactly (s s' : St) (hids : List String) : Prop where
  calls : ∀ h, s'.calls.exists_ h = true ↔ s.calls.exists_ h = true ∧ ¬ Dependent s.calls.pers [] hids (.call h)
  rows : ∀ h, s'.calls.exists_ h = true → rowsOf s'.calls.pers h = rowsOf s.calls.pers h
  /-- no call is left that uses an output of a deleted call -/
  closed : ∀ r ∈ s.calls.pers, s'.calls.exists_ r.callHid = false → r.dir = .out → ∀ r' ∈ s'.calls.pers, r'.dir = .in_ → r'.refHid ≠ r.refHid
  values : s'.atoms = s.atoms ∧ s'.shapes = s.shapes ∧ s'.ops = s.ops
  silent : s'.log = s.log

/-- The call is in some cell of the table, alone or with others. -/
def CFrame.Shown (f : CFrame) (t : Table) (h : String) : Prop :=
  h ∈ f.calls.keys ∧ ∃ row ∈ t.rows, ∃ col ∈ t.cols, ∃ ids, row.get? col = some ids ∧ h ∈ ids

end Verif
