import Verif.Proofs.Kahn
/-!
C46: the order of the nodes of a computation frame.

Specification (`AlmostSorted`, `Before`, `Star` in Verif/Spec/Order.lean and Verif/Basic/Star.lean): the list has
exactly the nodes, each once (`perm`); an edge whose target does not lead back to its source goes forward (`order`); the
nodes that reach each other form a contiguous block (`block`).
-/
namespace Verif.Props

open Verif

/-- C46. For every frame whose edges connect its nodes, whatever the iteration orders: the node order exists (the
algorithms terminate), lists every node once, keeps strongly connected components together, and puts the source of an edge
between different components before its target. -/
theorem C46_node_order (le : String → String → Bool) (leL : List String → List String → Bool) (nodes : List String) (out : Adj)
    (hnod : nodes.Nodup) (hout : out.keys.Nodup) (hsrc : ∀ n ∈ out.keys, n ∈ nodes) (hdst : ∀ e ∈ allEdges out, e.2 ∈ nodes) :
    ∃ l, topsortModuloSccs le leL nodes out = some l ∧ AlmostSorted nodes (fun a b => (a, b) ∈ allEdges out) l :=
  topsort_spec le leL hnod hout hsrc hdst

/-- C46, acyclic frames: every edge goes forward. -/
theorem C46_acyclic_topological (le : String → String → Bool) (leL : List String → List String → Bool) (nodes : List String) (out : Adj)
    (hnod : nodes.Nodup) (hout : out.keys.Nodup) (hsrc : ∀ n ∈ out.keys, n ∈ nodes) (hdst : ∀ e ∈ allEdges out, e.2 ∈ nodes)
    (hac : ∀ a b, (a, b) ∈ allEdges out → ¬ Star (fun a b => (a, b) ∈ allEdges out) b a) :
    ∃ l, topsortModuloSccs le leL nodes out = some l ∧ l.Perm nodes ∧ ∀ a b, (a, b) ∈ allEdges out → Before l a b := by
  obtain ⟨l, h1, h2⟩ := topsort_spec le leL hnod hout hsrc hdst
  exact ⟨l, h1, h2.perm, fun a b hab => h2.order a b hab (hac a b hab)⟩

/-- C46, sorting some of the nodes (`sort_nodes`): exactly those that are nodes of the frame, in the order of the frame. -/
theorem C46_sort_nodes (le : String → String → Bool) (leL : List String → List String → Bool) (nodes : List String) (out : Adj)
    (hnod : nodes.Nodup) (hout : out.keys.Nodup) (hsrc : ∀ n ∈ out.keys, n ∈ nodes) (hdst : ∀ e ∈ allEdges out, e.2 ∈ nodes)
    (which : List String) : ∃ l l', topsortModuloSccs le leL nodes out = some l ∧ sortNodes le leL nodes out which = some l' ∧
      l'.Sublist l ∧ l'.Nodup ∧ ∀ x, x ∈ l' ↔ x ∈ nodes ∧ x ∈ which := by
  obtain ⟨l, h1, h2⟩ := topsort_spec le leL hnod hout hsrc hdst
  refine ⟨l, l.filter (· ∈ which), h1, by unfold sortNodes; rw [h1]; rfl, List.filter_sublist,
    (h2.perm.nodup_iff.2 hnod).filter _, fun x => ?_⟩
  rw [List.mem_filter, h2.perm.mem_iff]
  simp

/-- An acyclic frame: `x → f → y → g`, `x → g`. -/
def dagOut : Adj := [("x", [("a", ["f", "g"])]), ("f", [("output_0", ["y"])]), ("y", [("b", ["g"])])]

example : topsortModuloSccs (fun a b => decide (a ≤ b)) (fun _ _ => true) ["g", "y", "f", "x"] dagOut = some ["x", "f", "y", "g"] := by
  decide +kernel

/-- A cyclic frame: `s → f`, `x → f → x`, `x → g → y`; the hypotheses hold and the fallback is used. -/
def cycOut : Adj := [("s", [("i", ["f"])]), ("x", [("a", ["f", "g"])]), ("f", [("output_0", ["x"])]), ("g", [("output_0", ["y"])])]

example : ∃ l, topsortModuloSccs (fun a b => decide (a ≤ b)) (fun _ _ => true) ["g", "y", "f", "x", "s"] cycOut = some l ∧
    AlmostSorted ["g", "y", "f", "x", "s"] (fun a b => (a, b) ∈ allEdges cycOut) l :=
  C46_node_order _ _ _ _ (by decide) (by decide) (by decide) (by decide)

end Verif.Props
