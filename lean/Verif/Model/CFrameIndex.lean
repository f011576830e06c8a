import Verif.Model.CFrame
/-!
Indexing a frame with names of nodes: `ComputationFrame.__getitem__` (cf.py lines 1730-1738).
-/
namespace Verif

/-- What stands between the brackets of `cf[…]`; an element of an iterable that is not a string is kept as `none`. -/
inductive Indexer
  | name (n : String)
  | frame
  | iter (l : List (Option String))

namespace CFrame

/-- `isinstance(k, str)` for all elements, cf.py line 1737: the names, if all are -/
def asNames : List (Option String) → Option (List String)
  | [] => some []
  | none :: _ => none
  | some n :: l => (asNames l).map (n :: ·)

/-- `list(sorted(indexer))`, cf.py line 1738 -/
def sortedNames (l : List String) : List String := l.mergeSort fun a b => decide (a ≤ b)

/-- `ComputationFrame.__getitem__`, cf.py lines 1730-1738; `none` is the `None` returned when no branch is taken -/
def getItem (f : CFrame) : Indexer → Except Err (Option CFrame)
  | .name n => (f.selectNodes [n]).map some
  | .frame => .error .notImplemented
  | .iter l =>
    match asNames l with
    | some ns => (f.selectNodes (sortedNames ns)).map some
    | none => .ok none

end CFrame
end Verif
