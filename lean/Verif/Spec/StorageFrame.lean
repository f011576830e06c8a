import Verif.Spec.Queries
import Verif.Spec.FrameExpand
/-!
The history of a value, read off the table of calls.
-/
namespace Verif

/-- The table has `x` as an output (`.out`) or input (`.in_`) of the call. -/
def HasIO (rows : List Row) (dir : Dir) (call x : String) : Prop := ∃ r ∈ rows, r.callHid = call ∧ r.dir = dir ∧ r.refHid = x

/-- `y` is `x`, or was used, directly or not, to compute it. -/
inductive From (rows : List Row) (x : String) : String → Prop
  | here : From rows x x
  | step {y c z : String} : From rows x y → HasIO rows .out c y → HasIO rows .in_ c z → From rows x z

/-- The call took part in computing `x`. -/
def History (rows : List Row) (x c : String) : Prop := ∃ y, From rows x y ∧ HasIO rows .out c y

open CFrame in
/-- The names that frames make up for the ops of the table (`F`), and those which they make up for arguments and outputs (`V`), are kept apart. -/
structure TableNames (rows : List Row) (F V : String → Prop) : Prop where
  apart : ∀ n, F n → ¬ V n
  op : ∀ r ∈ rows, F r.op ∧ ∀ i, F (idxName r.op i)
  arg : ∀ r ∈ rows, (numbered (nameProj r.op r.name) = none → V (nameProj r.op r.name)) ∧ ∀ i, V (idxName (stem (nameProj r.op r.name)) i)

end Verif
