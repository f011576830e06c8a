import Verif.Basic.Star
/-!
Specification of orderings and paths in graphs given by their edge relation.
-/
namespace Verif

/-- `a` occurs before `b` in the list. -/
def Before {α : Type} (l : List α) (a b : α) : Prop := ∃ l1 l2 l3, l = l1 ++ a :: l2 ++ b :: l3

/-- What an ordering of the nodes "modulo strongly connected components" has to satisfy: it has exactly the nodes; an edge
whose target does not lead back to its source goes forward; the nodes that reach each other form a contiguous block. -/
structure AlmostSorted {K : Type} (nodes : List K) (E : K → K → Prop) (l : List K) : Prop where
  perm : l.Perm nodes
  order : ∀ a b, E a b → ¬ Star E b a → Before l a b
  block : ∀ x ∈ nodes, ∃ l1 c l2, l = l1 ++ c ++ l2 ∧ ∀ y, y ∈ c ↔ Star E x y ∧ Star E y x

/-- A walk from `a` to `b` as its list of edges. -/
inductive Walk {K : Type} (E : K → K → Prop) : K → List (K × K) → K → Prop
  | nil {a : K} : Walk E a [] a
  | cons {a b c : K} {q : List (K × K)} : E a b → Walk E b q c → Walk E a ((a, b) :: q) c

/-- A simple path: a walk without repeated nodes. -/
def SimplePath {K : Type} (E : K → K → Prop) (a : K) (q : List (K × K)) (b : K) : Prop :=
  Walk E a q b ∧ (a :: q.map (·.2)).Nodup

end Verif
