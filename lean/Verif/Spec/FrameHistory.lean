import Verif.Spec.FrameReach
import Verif.Basic.Star
/-!
Where the values of a frame come from.
-/
namespace Verif

/-- No value is (transitively) an input of the call that created it: there is a time at which each came into being. -/
def Acyclic (R : FCall → Prop) : Prop :=
  ∃ rank : String → Nat, ∀ c, R c → ∀ p ∈ c.inputs, ∀ q ∈ c.outputs, rank p.2.hid < rank q.2.hid

namespace CFrame

/-- The frame knows the call `c` as the one that created the value `h` of the variable `v`, and has it in the function `n` from
which there is an edge to `v`. -/
def MadeBy (f : CFrame) (v h n : String) (c : FCall) : Prop :=
  f.creator.get? h = some c.hid ∧ f.calls.get? c.hid = some c ∧ f.HasCall n c.hid ∧ ∃ l, f.HasEdge n v l

/-- One step back from the value `a.2` of the variable `a.1`: to an input of the call that made it, in the variable from which
there is an edge for this input; and to the call itself, if calls are asked for. -/
inductive MadeFrom (f : CFrame) (inc : Bool) : String × String → String × String → Prop
  | input {v h n c w p} : f.MadeBy v h n c → p ∈ c.inputs → f.HasEdge w n (nameProj c.op p.1) → MadeFrom f inc (v, h) (w, p.2.hid)
  | call {v h n c} : f.MadeBy v h n c → inc = true → MadeFrom f inc (v, h) (n, c.hid)

end CFrame
end Verif
