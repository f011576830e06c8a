import Verif.Model.CFrameReach
import Verif.Spec.CFrame
/-!
Specification of reachability between elements (values and calls) of a computation frame, as sets of pairs (node, element).
-/
namespace Verif

open Props

namespace CFrame

/-- `n` and `v` are joined by an edge with label `l` that leads from `v` to `n` when going in the direction. -/
def Joined (f : CFrame) (dir : Side) (v n l : String) : Prop :=
  match dir with
  | .forward => f.HasEdge v n l
  | .back => f.HasEdge n v l

/-- Going in the direction along an edge with label `l` from `a` to `b`, the element `x` of `a` leads to the element `y` of `b`:
forward, a value leads to the calls which use it as an argument belonging to `l`, a call to its outputs belonging to `l`; back, a
value leads to the call that the frame knows as its creator, a call to its inputs belonging to `l`. -/
def LeadsTo (f : CFrame) (dir : Side) (l a x b y : String) : Prop :=
  match dir with
  | .forward =>
    (f.IsVar a ∧ f.HasCall b y ∧ ∃ c, f.calls.get? y = some c ∧ ∃ p ∈ c.inputs, nameProj c.op p.1 = l ∧ p.2.hid = x) ∨
    (f.IsFunc a ∧ f.HasRef b y ∧ ∃ c, f.calls.get? x = some c ∧ ∃ p ∈ c.outputs, nameProj c.op p.1 = l ∧ p.2.hid = y)
  | .back =>
    (f.IsVar a ∧ f.HasCall b y ∧ f.creator.get? x = some y) ∨
    (f.IsFunc a ∧ f.HasRef b y ∧ ∃ c, f.calls.get? x = some c ∧ ∃ p ∈ c.inputs, nameProj c.op p.1 = l ∧ p.2.hid = y)

/-- The same along any edge. -/
def Linked (f : CFrame) (dir : Side) (a x b y : String) : Prop := ∃ l, Joined f dir a b l ∧ LeadsTo f dir l a x b y

/-- Going forward (back), all inputs (outputs) of the call for which the function has an edge are in the set, in some variable
at the other end of such an edge; and there is such an input (output). -/
def CallReady (f : CFrame) (dir : Side) (P : String → String → Prop) (n : String) (c : FCall) : Prop :=
  (∃ p ∈ ioRefs dir c, ∃ v, Joined f dir v n (nameProj c.op p.1)) ∧
  ∀ p ∈ ioRefs dir c, (∃ v, Joined f dir v n (nameProj c.op p.1)) → ∃ v, Joined f dir v n (nameProj c.op p.1) ∧ P v p.2.hid

/-- A set of elements that contains the start and is closed. Values are reached from any call. Calls are reached from any
value (weak), or once all the values they need are reached (strong). -/
structure ReachClosed (f : CFrame) (dir : Side) (how : How) (init : SetDict) (P : String → String → Prop) : Prop where
  start : ∀ n x, InSet init n x → P n x
  values : ∀ a x v y, P a x → Linked f dir a x v y → f.IsVar v → P v y
  weak : how = .weak → ∀ a x n y, P a x → Linked f dir a x n y → f.IsFunc n → P n y
  strong : how = .strong → ∀ n c, f.HasCall n c.hid → f.calls.get? c.hid = some c → CallReady f dir P n c → P n c.hid

/-- The start consists of elements of the frame. -/
def Inside (f : CFrame) (r : SetDict) : Prop := ∀ n x, InSet r n x → f.HasRef n x ∨ f.HasCall n x

/-- The labels of edges at the function that builds lists are never names of single elements. -/
def LabelsOk (f : CFrame) : Prop := ∀ s n l h c, f.HasEdge s n l → f.HasCall n h → f.calls.get? h = some c → c.op = makeListName → isElt l = false

end CFrame
end Verif
