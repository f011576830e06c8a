import Verif.Model.CFrameShow
import Verif.Spec.FrameTable
import Verif.Spec.Order
/-!
What the printed graph of a frame has to show.
-/
namespace Verif

/-- The printed line says that there is this edge. -/
def ShownCall.Edge (c : ShownCall) (a b l : String) : Prop :=
  (a = c.func ∧ ∃ vs, (l, vs) ∈ c.outs ∧ b ∈ vs) ∨ (b = c.func ∧ ∃ vs, (l, vs) ∈ c.ins ∧ a ∈ vs)

/-- The printed lines say that there is this edge. -/
def Shown.Edge (s : Shown) (a b l : String) : Prop := ∃ c ∈ s.calls, c.Edge a b l

/-- The output called `l` is the `i`-th: by the names given to the outputs, or by its own number (`output_i`). -/
def Ordinal (names : Option (List String)) (l : String) (i : Nat) : Prop :=
  match names with
  | some ns => ns[i]? = some l
  | none => ∃ a, '_' ∉ a.toList ∧ l = idxName a i

namespace CFrame

/-- Every function has calls. -/
def NoEmptyFunc (f : CFrame) : Prop := ∀ n, f.IsFunc n → ∃ h, f.HasCall n h

/-- The outputs of the functions are outputs of the ops of their calls. -/
def Ordered (names : String → Option (List String)) (f : CFrame) : Prop :=
  ∀ n h c o l, f.HasCall n h → f.calls.get? h = some c → f.out.get? n = some o → l ∈ Dict.keys o → ∃ i, Ordinal (names c.op) l i

/-- The frame is shown. -/
structure ShownAs (names : String → Option (List String)) (f : CFrame) (s : Shown) : Prop where
  once : (s.calls.map (·.func)).Nodup
  funcs : ∀ n, n ∈ s.calls.map (·.func) ↔ f.IsFunc n
  edges : ∀ a b l, s.Edge a b l ↔ f.HasEdge a b l
  alone : ∀ v, v ∈ s.isolated ↔ f.IsVar v ∧ ∀ m, ¬ f.Next v m ∧ ¬ f.Next m v
  order : ∀ n m, f.IsFunc n → f.IsFunc m → Star f.Next n m → ¬ Star f.Next m n → Before (s.calls.map (·.func)) n m
  outs : ∀ c ∈ s.calls, ∃ h k, f.HasCall c.func h ∧ f.calls.get? h = some k ∧
    (c.outs.map (·.1)).Pairwise fun a b => ∀ i j, Ordinal (names k.op) a i → Ordinal (names k.op) b j → i ≤ j

end CFrame
end Verif
