import Verif.Model.CFrame
/-!
The union and the intersection of any number of computation frames: `ComputationFrame.union(*cfs)` and
`ComputationFrame.intersection(*cfs)`, cf.py lines 879-889.

Simplified: with a single frame the code returns that very object and no copy of it; the model has values, not objects.
-/
namespace Verif.CFrame

/-- cf.py lines 879-883 `union`: `functools.reduce` raises `TypeError` for no frames, else folds `_binary_union` from the left -/
def unionAll : List CFrame → Except Err CFrame
  | [] => .error .typeError
  | a :: cfs => cfs.foldlM union a

/-- cf.py lines 885-889 `intersection` -/
def interAll : List CFrame → Except Err CFrame
  | [] => .error .typeError
  | a :: cfs => .ok (cfs.foldl inter a)

end Verif.CFrame
