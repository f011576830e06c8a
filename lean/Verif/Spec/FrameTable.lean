import Verif.Spec.FrameHistory
import Verif.Model.CFrameTable
import Verif.Basic.ListRel
/-!
What the rows of tables of values and calls stand for.
-/
namespace Verif

/-- Python visits every element of a set once, in some order. -/
structure PyOrd.Ok (po : PyOrd) : Prop where
  dict : ∀ d k, k ∈ po.dict d ↔ k ∈ d.keys
  set : ∀ l, (po.set l).Perm l

/-- The cell for the elements with `P`: empty if there are none, otherwise all of them, each once and in order. -/
def IsCell (P : String → Prop) : Option (List String) → Prop
  | none => ∀ x, ¬ P x
  | some s => (∃ x, P x) ∧ s.Nodup ∧ s.Pairwise (· ≤ ·) ∧ ∀ x, x ∈ s ↔ P x

namespace CFrame

/-- The element `x` of the node `k` is in the history of the value `h` of the variable `v`: it is the value itself, or one (or a
call) from which it was made, in any number of steps. -/
def Past (f : CFrame) (inc : Bool) (v h k x : String) : Prop := Star (f.MadeFrom inc) (v, h) (k, x)

/-- The node `k` has something from the history of some value of `v`. -/
def PastNode (f : CFrame) (inc : Bool) (v k : String) : Prop := ∃ h x, f.HasRef v h ∧ f.Past inc v h k x

/-- The row for the history of the value `h` of the variable `v`. -/
def IsRowOf (f : CFrame) (inc : Bool) (v h : String) (r : TRow) : Prop := ∀ k, IsCell (f.Past inc v h k) (r.get? k)

/-- The row contains the history of the value `h` of `v`: in each node with history of values of `v`, the cell of this value. -/
def Shows (f : CFrame) (inc : Bool) (v h : String) (r : TRow) : Prop :=
  ∀ k, f.PastNode inc v k → IsCell (f.Past inc v h k) (r.get? k)

/-- There is an edge between the nodes. -/
def Next (f : CFrame) (a b : String) : Prop := ∃ l, f.HasEdge a b l

/-- The node is on a path between two of the nodes. -/
def Between (f : CFrame) (ns : List String) (n : String) : Prop :=
  ∃ a ∈ ns, ∃ b ∈ ns, a ≠ b ∧ Star f.Next a n ∧ Star f.Next n b

/-- No node of the frame can be reached from itself. -/
def NoCycle (f : CFrame) : Prop := ∀ a b, f.Next a b → ¬ Star f.Next b a

/-- Every node has an edge. -/
def NoIsolated (f : CFrame) : Prop := ∀ n, f.IsVar n ∨ f.IsFunc n → ∃ m, f.Next n m ∨ f.Next m n

/-- Every call has an output in some variable. -/
def OutputsShown (f : CFrame) : Prop :=
  ∀ n c, f.HasCall n c.hid → f.calls.get? c.hid = some c → ∃ p ∈ c.outputs, ∃ w, f.HasEdge n w (nameProj c.op p.1)

/-- The value `x` of the variable `v` is not an input of any call at the end of an edge from the variable. -/
def Unused (f : CFrame) (v x : String) : Prop :=
  f.HasRef v x ∧ ∀ n c p, p ∈ c.inputs → f.HasCall n c.hid → f.calls.get? c.hid = some c → f.HasEdge v n (nameProj c.op p.1) → p.2.hid ≠ x

/-- What the joint table of the histories of the variables `vars` is to be.

* `cols`: there is a column for each node in the history of some value of these variables;
* `distinct`: no row is there twice;
* `sound`: every row consists of the complete histories of some values of these variables - with `inner`, of one of each variable;
* `outer`: with `outer`, every value of these variables is in some row, together with its complete history;
* `inner`: values of the variables whose histories agree wherever they have nodes in common are together in some row. -/
structure JointOf (f : CFrame) (inc : Bool) (how : Join) (vars : List String) (t : Table) : Prop where
  cols : t.cols.Nodup ∧ ∀ k, k ∈ t.cols ↔ ∃ v ∈ vars, f.PastNode inc v k
  distinct : t.rows.Pairwise fun a b => ∃ k ∈ t.cols, a.get? k ≠ b.get? k
  sound : ∀ row ∈ t.rows, ∃ chosen : List (String × String), chosen ≠ [] ∧
    (∀ p ∈ chosen, p.1 ∈ vars ∧ f.HasRef p.1 p.2 ∧ f.Shows inc p.1 p.2 row) ∧
    (∀ k, row.get? k ≠ none → ∃ p ∈ chosen, f.PastNode inc p.1 k) ∧ (how = .inner → ∀ v ∈ vars, ∃ p ∈ chosen, p.1 = v)
  outer : how = .outer → ∀ v ∈ vars, ∀ h, f.HasRef v h → ∃ row ∈ t.rows, f.Shows inc v h row
  inner : ∀ of : String → String, (∀ v ∈ vars, f.HasRef v (of v)) →
    (∀ v ∈ vars, ∀ w ∈ vars, ∀ k, f.PastNode inc v k → f.PastNode inc w k → ∀ x, f.Past inc v (of v) k x ↔ f.Past inc w (of w) k x) →
    ∃ row ∈ t.rows, ∀ v ∈ vars, f.Shows inc v (of v) row

/-- The table `t'` is `t` with the columns of the nodes `ns` only, and without those of functions unless calls are asked for. -/
def ColsOf (g : CFrame) (inc : Bool) (ns : List String) (t t' : Table) : Prop :=
  t'.cols.Nodup ∧ (∀ k, k ∈ t'.cols ↔ k ∈ ns ∧ k ∈ t.cols ∧ (inc = true ∨ ¬ g.IsFunc k)) ∧
    All2 (fun (r r' : TRow) => ∀ k, r'.get? k = if k ∈ t'.cols then r.get? k else none) t.rows t'.rows

end CFrame
end Verif
