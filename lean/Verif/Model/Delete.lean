import Verif.Model.Storage
import Verif.Model.CFrameTable
/-!
Deleting calls: what `drop_calls` makes of its argument, and the deletion of the calls of a frame or of a table.
-/
namespace Verif

/-- The argument `calls_or_hids` of `drop_calls` (storage.py:403-411): an iterable of `Call` objects (`calls`) or of history ids,
that can be iterated over more than once (`repeats`: lists, sets, …) or only once (generators, `map`, …). `ids` are the history ids
in the order of the iteration. Not modelled: iterables with both. -/
structure Iter where
  calls : Bool
  repeats : Bool
  ids : List String

/-- storage.py:412-416. `all(isinstance(c, Call) for c in calls_or_hids)` goes through the calls until the first thing that is not a
call; what can be iterated over only once then goes on after that. -/
def Iter.taken (g : Iter) : List String :=
  if g.repeats then g.ids
  else if g.calls then []
  else g.ids.tail

/-- `drop_calls` (storage.py:403-434) with any argument -/
def dropIter (g : Iter) (deleteDependents : Bool) : M Unit := dropCalls g.taken deleteDependents

namespace CFrame

/-- cf.py:2138-2143 `delete_calls`: a set of ids is given -/
def deleteCalls (f : CFrame) : M Unit := dropIter ⟨false, true, PySet.ofList f.calls.keys⟩ true

/-- cf.py:2150: the ids of the cells of a column that are `Call` objects. A cell with one id is a ref if the frame has such a ref and
otherwise a call (cf.py:1643-1644); a cell with more is a `CallCollection` or `RefCollection` (or a python set, cf.py:1566-1572). -/
def callCells (f : CFrame) (t : Table) (col : String) : List String :=
  t.rows.filterMap fun row => match row.get? col with
    | some [h] => if h ∈ f.refs.keys then none else if h ∈ f.calls.keys then some h else none
    | _ => none

/-- cf.py:2145-2152 `delete_calls_from_df`, on a table of this frame -/
def deleteCallsFrom (f : CFrame) (t : Table) : M Unit := dropIter ⟨false, true, PySet.ofList (t.cols.flatMap (f.callCells t))⟩ true

end CFrame

end Verif
