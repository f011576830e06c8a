import Verif.Spec.StorageFrame
import Verif.Spec.FrameTable
/-!
What a row of a history table is to say, read off the table of calls.
-/
namespace Verif

/-- The row of the value `x`: together, the cells of the variables have exactly the values from which `x` was computed, directly or not, and `x` itself; those of the
functions exactly the calls that took part, if calls are asked for, and nothing otherwise. What is in the cell of a node is in this node of the frame. -/
structure RowHistory (rows : List Row) (g : CFrame) (inc : Bool) (x : String) (r : TRow) : Prop where
  values : ∀ y, (∃ v s, g.IsVar v ∧ r.get? v = some s ∧ y ∈ s) ↔ From rows x y
  calls : ∀ c, (∃ n s, g.IsFunc n ∧ r.get? n = some s ∧ c ∈ s) ↔ inc = true ∧ History rows x c
  placed : ∀ k s y, r.get? k = some s → y ∈ s → g.HasRef k y ∨ g.HasCall k y

end Verif
