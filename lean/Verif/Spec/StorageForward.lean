import Verif.Spec.StorageFrame
/-!
What was computed from a value, read off the table of calls.
-/
namespace Verif

/-- `y` is `x`, or was computed from it, directly or not. -/
inductive Into (rows : List Row) (x : String) : String → Prop
  | here : Into rows x x
  | step {y c z : String} : Into rows x y → HasIO rows .in_ c y → HasIO rows .out c z → Into rows x z

/-- The call used `x`, or something computed from it. -/
def Later (rows : List Row) (x c : String) : Prop := ∃ y, Into rows x y ∧ HasIO rows .in_ c y

/-- If the call makes a list, the list has at most one element. -/
def OneElement (rows : List Row) (c : String) : Prop := ∀ r ∈ rows, ∀ r' ∈ rows, r.callHid = c → r'.callHid = c → r.dir = .in_ → r'.dir = .in_ →
  r.op = makeListName → r.name = r'.name

end Verif
