import Verif.Model.CFrameFilter
import Verif.Spec.FrameReach
/-!
What filtering a frame by values should give.
-/
namespace Verif

namespace CFrame

/-- The call `h` of the function `n` has the value `x` of the variable `v` as an input or output, and the frame has an edge for it. -/
def UsedAt (f : CFrame) (v x n h : String) : Prop :=
  f.HasCall n h ∧ ∃ c, f.calls.get? h = some c ∧
    ((∃ p ∈ c.inputs, f.HasEdge v n (nameProj c.op p.1) ∧ p.2.hid = x) ∨ ∃ p ∈ c.outputs, f.HasEdge n v (nameProj c.op p.1) ∧ p.2.hid = x)

/-- The call `h` of the function `n` has the value `x` of the variable `v` as an input or output, and the frame has some edge between the two. -/
def Meets (f : CFrame) (v x n h : String) : Prop :=
  f.HasCall n h ∧ ∃ c, f.calls.get? h = some c ∧
    ((∃ p ∈ c.inputs, (∃ l, f.HasEdge v n l) ∧ p.2.hid = x) ∨ ∃ p ∈ c.outputs, (∃ l, f.HasEdge n v l) ∧ p.2.hid = x)

/-- The value `x` of the variable `v` passes the test. -/
def Matches (f : CFrame) (test : FRef → Except Err Bool) (v x : String) : Prop :=
  f.HasRef v x ∧ ∃ r, f.refs.get? x = some r ∧ test r = .ok true

/-- A variable and a function are joined by one edge at most. -/
def SingleEdges (f : CFrame) : Prop :=
  ∀ v n l l', (f.HasEdge v n l → f.HasEdge v n l' → l = l') ∧ (f.HasEdge v n l → ¬ f.HasEdge n v l')

/-- Every function has an edge. -/
def NoLoneFunction (f : CFrame) : Prop := ∀ n, f.IsFunc n → ∃ v l, f.HasEdge v n l ∨ f.HasEdge n v l

/-- The test can be made for all values. -/
def Testable (f : CFrame) (test : FRef → Except Err Bool) : Prop := ∀ v x r, f.HasRef v x → f.refs.get? x = some r → ∃ b, test r = .ok b

end CFrame
end Verif
