import Verif.Proofs.CFrameGraph
import Verif.Proofs.CFrameDfs
import Verif.Props.Frame
/-!
C44, C52: the graph of a computation frame.
-/
namespace Verif.Props

open Verif CFrame Ex

/-! ### C52 -/

/-- Names for new nodes are new. -/
def FOp.NewNames (f : CFrame) : FOp → Prop
  | .addVar v => v ∉ f.nodes
  | .addFunc n => n ∉ f.nodes
  | .renameVar _ w => w ∉ f.nodes
  | _ => True

/-- The frames that can be made: by any operations that succeed (here nothing is required of values and calls, and the frames
may be inconsistent), unions, and intersections of frames that agree on what are variables and what functions. -/
inductive Made : CFrame → Prop
  | empty : Made {}
  | op {f g : CFrame} {o : FOp} : Made f → o.NewNames f → o.apply f = .ok g → Made g
  | dropEdge {f g : CFrame} {s d l : String} : Made f → f.dropEdge s d l = .ok g → Made g
  | union {a b g : CFrame} : Made a → Made b → a.union b = .ok g → Made g
  | inter {a b : CFrame} : Made a → Made b → (∀ n, ¬ (a.IsVar n ∧ b.IsFunc n) ∧ ¬ (a.IsFunc n ∧ b.IsVar n)) → Made (a.inter b)

theorem symm_made {f : CFrame} (h : Made f) : Symm f := by
  induction h with
  | empty => exact (wf_empty (R := fun _ => True)).graph.symm
  | @op f g o _ hn h ih =>
    cases o with
    | addVar v => cases h; exact symm_addVar ih hn
    | addFunc n => cases h; exact symm_addFunc ih hn
    | addEdge s d l => exact symm_addEdge ih h
    | addRef v r => exact (sameGraph_addRef h).symm ih
    | addCall n c => exact (sameGraph_addCall h).symm ih
    | dropRef v x => exact (sameGraph_dropRef h).symm ih
    | dropCall n x => exact (sameGraph_dropCall h).symm ih
    | dropVar v => exact symm_dropVar ih h
    | dropFunc n => exact symm_dropFunc ih h
    | dropNode n => exact symm_dropNode ih h
    | renameVar v w => exact symm_renameVar ih hn h
    | selectNodes ns => exact symm_selectNodes h
    | selectSubsets elts => exact symm_selectSubsets ih h
  | dropEdge _ h ih => exact symm_dropEdge ih h
  | @union a b g _ _ h iha ihb =>
    unfold CFrame.union at h
    split at h
    · cases h; exact symm_unionRaw iha ihb
    · cases h
  | @inter a b _ _ hk iha ihb =>
    have V := fun n => (C55_setdict_union_intersection a.vs b.vs).2.2.2.2.1 n
    have F := fun n => (C55_setdict_union_intersection a.fs b.fs).2.2.2.2.1 n
    have I := C55_adjacency_union_intersection a.inp b.inp
    have O := C55_adjacency_union_intersection a.out b.out
    have key : ∀ n, (a.IsVar n ∨ a.IsFunc n) → (b.IsVar n ∨ b.IsFunc n) → (a.IsVar n ∧ b.IsVar n) ∨ (a.IsFunc n ∧ b.IsFunc n) := by
      rintro n (h1 | h1) (h2 | h2)
      · exact .inl ⟨h1, h2⟩
      · exact absurd ⟨h1, h2⟩ (hk n).1
      · exact absurd ⟨h1, h2⟩ (hk n).2
      · exact .inr ⟨h1, h2⟩
    refine ⟨?_, ?_, ?_⟩
    · intro s d l
      simp only [CFrame.inter]
      rw [I.2.2.1, O.2.2.1, iha.sym, ihb.sym]
    · intro n hn
      simp only [CFrame.inter, IsVar, IsFunc] at hn ⊢
      rw [I.2.2.2] at hn
      rw [V, F]
      exact key n (iha.inpKey n hn.1) (ihb.inpKey n hn.2)
    · intro n hn
      simp only [CFrame.inter, IsVar, IsFunc] at hn ⊢
      rw [O.2.2.2] at hn
      rw [V, F]
      exact key n (iha.outKey n hn.1) (ihb.outKey n hn.2)

/-- C52 (partial: new nodes need new names, see the refutation): an edge is recorded at its source iff it is recorded at its
target. -/
theorem C52_edges_both_ways_partial {f : CFrame} (h : Made f) (s d l : String) : InAdj f.out s l d ↔ InAdj f.inp d l s :=
  (symm_made h).sym s d l

/-- C52 in terms of what the frame tells: `d` is an out-neighbour of `s` iff `s` is an in-neighbour of `d`, and an edge is among
the edges out of its source iff it is among the edges into its target, iff it is an edge. -/
theorem C52_neighbors_partial {f : CFrame} (h : Made f) :
    (∀ s d, (∃ ns, f.outNeighbors s = .ok ns ∧ d ∈ ns) ↔ ∃ ns, f.inNeighbors d = .ok ns ∧ s ∈ ns) ∧
    ∀ s d l, ((s, d, l) ∈ f.outEdges s ↔ (s, d, l) ∈ f.edges) ∧ ((s, d, l) ∈ f.inEdges d ↔ (s, d, l) ∈ f.edges) ∧
      ((s, d, l) ∈ f.edges ↔ InAdj f.inp d l s) := by
  refine ⟨fun s d => ?_, fun s d l => ⟨?_, ?_, ?_⟩⟩
  · have h1 := nbr_forward (f := f) (a := s) (b := d)
    have h2 := nbr_back (f := f) (a := d) (b := s)
    unfold Nbr neighborsIn at h1 h2
    simp only at h1 h2
    rw [h1, h2]
    simp only [(symm_made h).sym]
  · rw [outEdges, PySet.mem_ofList, List.mem_filter]
    simp
  · rw [inEdges, PySet.mem_ofList, List.mem_filter]
    simp
  · rw [mem_edges]
    exact (symm_made h).sym s d l

/-- Every frame of C39 is one of these. -/
theorem made_of_builds {R : FCall → Prop} {os : List FOp} : ∀ {f g : CFrame}, Made f → Builds R f os g → Made g := by
  induction os with
  | nil => intro f g h hb; cases hb; exact h
  | cons o os ih =>
    intro f g h hb
    obtain ⟨k, hf, hk, hb⟩ := hb
    refine ih (.op h ?_ hk) hb
    cases o <;> first | exact hf | trivial

example : Made frameFG := made_of_builds .empty builds_frameFG

/-- Refutation without fresh names: renaming a variable onto another one forgets the edges of the latter at one end only.
`var_0` still has the edge from `f`, but `f` is now recorded as the target of `a`'s edge only. -/
theorem C52_refuted_rename : ∃ g, frameF.renameVar "var_0" "a" = .ok g ∧ InAdj g.inp "f" "a" "a" ∧ ¬ InAdj g.out "a" "a" "f" := by
  refine ⟨((frameF.renameVar "var_0" "a").toOption).getD {}, by decide +kernel, ?_, ?_⟩
  · rw [← inAdj_getOr, ← mem_getOr]; decide +kernel
  · rw [← inAdj_getOr, ← mem_getOr]; decide +kernel

/-! ### C44 -/

/-- C44: the nodes reachable from given nodes along (against) the edges are exactly those at the end of a path from one of
these. -/
theorem C44_reachable_nodes {f : CFrame} (G : GraphWf f) {ns : List String} (hns : ∀ n ∈ ns, f.IsVar n ∨ f.IsFunc n) :
    (∃ vis, f.reachableNodes ns .forward = .ok vis ∧ ∀ x, x ∈ vis ↔ ∃ n ∈ ns, Star (fun a b => ∃ l, f.HasEdge a b l) n x) ∧
    ∃ vis, f.reachableNodes ns .back = .ok vis ∧ ∀ x, x ∈ vis ↔ ∃ n ∈ ns, Star (fun a b => ∃ l, f.HasEdge a b l) x n := by
  have h : ∀ n ∈ ns, n ∈ f.nodes := fun n hn => mem_nodes.2 (hns n hn)
  refine ⟨reachableNodes_spec G h .forward, ?_⟩
  obtain ⟨vis, hv, hs⟩ := reachableNodes_spec G h .back
  refine ⟨vis, hv, fun x => (hs x).trans ?_⟩
  constructor
  · rintro ⟨n, hn, hst⟩
    exact ⟨n, hn, hst.swap⟩
  · rintro ⟨n, hn, hst⟩
    exact ⟨n, hn, Star.swap (R := fun a b => ∃ l, f.HasEdge a b l) hst⟩

/-- C44: hence upstream and downstream are converse to each other. -/
theorem C44_upstream_downstream {f : CFrame} (G : GraphWf f) {a b : String} (ha : f.IsVar a ∨ f.IsFunc a) (hb : f.IsVar b ∨ f.IsFunc b) :
    (∃ vis, f.reachableNodes [a] .forward = .ok vis ∧ b ∈ vis) ↔ ∃ vis, f.reachableNodes [b] .back = .ok vis ∧ a ∈ vis := by
  obtain ⟨v1, h1, s1⟩ := (C44_reachable_nodes G (ns := [a]) (by simpa using ha)).1
  obtain ⟨v2, h2, s2⟩ := (C44_reachable_nodes G (ns := [b]) (by simpa using hb)).2
  constructor
  · rintro ⟨vis, hv, hm⟩
    rw [h1] at hv; cases hv
    refine ⟨v2, h2, ?_⟩
    obtain ⟨n, hn, hst⟩ := (s1 b).1 hm
    rw [List.mem_singleton.1 hn] at hst
    exact (s2 a).2 ⟨b, by simp, hst⟩
  · rintro ⟨vis, hv, hm⟩
    rw [h2] at hv; cases hv
    refine ⟨v1, h1, ?_⟩
    obtain ⟨n, hn, hst⟩ := (s2 a).1 hm
    rw [List.mem_singleton.1 hn] at hst
    exact (s1 b).2 ⟨a, by simp, hst⟩

example : GraphWf frameFG := wf_frameFG.graph
example : frameFG.reachableNodes ["f"] .forward = .ok ["f", "var_0"] := by decide +kernel
example : frameFG.reachableNodes ["o"] .back = .ok ["o", "g", "a"] := by decide +kernel

end Verif.Props
