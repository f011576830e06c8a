import Verif.Proofs.CFrameDropFunc
import Verif.Proofs.CFrameRename
import Verif.Proofs.CFrameSubsets
/-!
The graph of a frame alone: edges are recorded at both of their ends, whatever happens to values and calls.
-/
namespace Verif

open Props

namespace CFrame

variable {f g : CFrame}

/-- Edges are recorded at both ends and adjacency lists belong to nodes. -/
structure Symm (f : CFrame) : Prop where
  sym : ∀ s d l, InAdj f.out s l d ↔ InAdj f.inp d l s
  inpKey : ∀ n, n ∈ f.inp.keys → f.IsVar n ∨ f.IsFunc n
  outKey : ∀ n, n ∈ f.out.keys → f.IsVar n ∨ f.IsFunc n

theorem GraphWf.symm (h : GraphWf f) : Symm f := ⟨h.sym, fun n => (h.inpKey n).1, fun n => (h.outKey n).1⟩

/-- `g` has the nodes and edges of `f`. -/
structure SameGraph (f g : CFrame) : Prop where
  inp : g.inp = f.inp
  out : g.out = f.out
  vs : ∀ n, g.IsVar n ↔ f.IsVar n
  fs : ∀ n, g.IsFunc n ↔ f.IsFunc n

theorem SameGraph.refl (f : CFrame) : SameGraph f f := ⟨rfl, rfl, fun _ => Iff.rfl, fun _ => Iff.rfl⟩

theorem SameGraph.trans {f g k : CFrame} (h : SameGraph f g) (h' : SameGraph g k) : SameGraph f k :=
  ⟨h'.inp.trans h.inp, h'.out.trans h.out, fun n => (h'.vs n).trans (h.vs n), fun n => (h'.fs n).trans (h.fs n)⟩

theorem SameGraph.symm (h : SameGraph f g) (H : Symm f) : Symm g := by
  refine ⟨?_, ?_, ?_⟩
  · rw [h.inp, h.out]; exact H.sym
  · intro n hn; rw [h.vs, h.fs]; rw [h.inp] at hn; exact H.inpKey n hn
  · intro n hn; rw [h.vs, h.fs]; rw [h.out] at hn; exact H.outKey n hn

theorem sameGraph_foldlM {α : Type} {F : CFrame → α → Except Err CFrame} (hF : ∀ f a g, F f a = .ok g → SameGraph f g) {as : List α} :
    ∀ {f g : CFrame}, as.foldlM F f = .ok g → SameGraph f g := by
  induction as with
  | nil => intro f g h; cases h; exact .refl _
  | cons a as ih =>
    intro f g h
    rw [List.foldlM_cons, exBind_ok] at h
    obtain ⟨k, hk, h⟩ := h
    exact (hF _ _ _ hk).trans (ih h)

theorem keys_set_same {V : Type} {d : Dict String V} {k : String} {v w : V} (h : d.get? k = some v) (n : String) :
    n ∈ (d.set k w).keys ↔ n ∈ d.keys := by
  rw [Dict.mem_keys_set]
  constructor
  · rintro (rfl | h')
    · exact Dict.mem_keys.2 ⟨v, h⟩
    · exact h'
  · exact .inr

theorem sameGraph_addRef {v : String} {r : FRef} {a : Bool} (h : f.addRef v r a = .ok g) : SameGraph f g := by
  unfold addRef at h
  rw [exBind_ok] at h
  obtain ⟨s, hs, h⟩ := h
  rw [getE_ok] at hs
  split at h
  · split at h
    · cases h; exact .refl _
    · cases h
  · cases h
    exact ⟨rfl, rfl, keys_set_same hs, fun _ => Iff.rfl⟩

theorem sameGraph_addInput {n : String} {c : FCall} {p : String × FRef} (h : addInput n c f p = .ok g) : SameGraph f g := by
  unfold addInput at h
  rw [exBind_ok] at h
  obtain ⟨i, _, h⟩ := h
  split at h
  · cases h; exact .refl _
  · refine SameGraph.trans (g := { f with consumers := f.consumers.set p.2.hid (PySet.add (getOr f.consumers p.2.hid) c.hid) }) ⟨rfl, rfl, fun _ => Iff.rfl, fun _ => Iff.rfl⟩ ?_
    exact sameGraph_foldlM (fun _ _ _ => sameGraph_addRef) h

theorem sameGraph_addOutput {n : String} {c : FCall} {p : String × FRef} (h : addOutput n c f p = .ok g) : SameGraph f g := by
  unfold addOutput at h
  rw [exBind_ok] at h
  obtain ⟨i, _, h⟩ := h
  split at h
  · cases h; exact .refl _
  · refine SameGraph.trans (g := { f with creator := f.creator.set p.2.hid c.hid }) ⟨rfl, rfl, fun _ => Iff.rfl, fun _ => Iff.rfl⟩ ?_
    exact sameGraph_foldlM (fun _ _ _ => sameGraph_addRef) h

theorem sameGraph_addCall {n : String} {c : FCall} {w a : Bool} (h : f.addCall n c w a = .ok g) : SameGraph f g := by
  unfold addCall at h
  rw [exBind_ok] at h
  obtain ⟨s, hs, h⟩ := h
  rw [getE_ok] at hs
  split at h
  · split at h
    · cases h; exact .refl _
    · cases h
  · have h1 : SameGraph f { f with
      calls := f.calls.set c.hid c
      fs := f.fs.set n (PySet.add s c.hid)
      callinv := f.callinv.set c.hid (PySet.add (getOr f.callinv c.hid) n) } := ⟨rfl, rfl, fun _ => Iff.rfl, keys_set_same hs⟩
    dsimp only at h
    split at h
    · rw [exBind_ok] at h
      obtain ⟨f2, h2, h⟩ := h
      exact h1.trans ((sameGraph_foldlM (fun _ _ _ => sameGraph_addInput) h2).trans (sameGraph_foldlM (fun _ _ _ => sameGraph_addOutput) h))
    · cases h
      exact h1

theorem sameGraph_dropRef {v x : String} (h : f.dropRef v x = .ok g) : SameGraph f g := by
  unfold dropRef at h
  simp only [exBind_ok, getE_ok] at h
  obtain ⟨s, hs, s', _, iv, _, h⟩ := h
  split at h
  · rw [exBind_ok] at h
    obtain ⟨refs, _, h⟩ := h
    cases h
    exact ⟨rfl, rfl, keys_set_same hs, fun _ => Iff.rfl⟩
  · split at h
    · cases h
      exact ⟨rfl, rfl, keys_set_same hs, fun _ => Iff.rfl⟩
    · cases h
      exact ⟨rfl, rfl, keys_set_same hs, fun _ => Iff.rfl⟩

theorem sameGraph_dropCall {n x : String} (h : f.dropCall n x = .ok g) : SameGraph f g := by
  unfold dropCall at h
  rw [exBind_ok] at h
  obtain ⟨iv, _, h⟩ := h
  split at h
  · simp only [exBind_ok] at h
    obtain ⟨c, _, cr, _, co, _, h⟩ := h
    cases h
    exact ⟨rfl, rfl, fun _ => Iff.rfl, fun _ => Iff.rfl⟩
  · rw [exBind_ok] at h
    obtain ⟨iv', _, h⟩ := h
    cases h
    exact ⟨rfl, rfl, fun _ => Iff.rfl, fun _ => Iff.rfl⟩

/-! ### operations on the graph -/

theorem not_adj_of_not_node {n : String} (H : Symm f) (hn : n ∉ f.nodes) :
    (∀ l d, ¬ InAdj f.out n l d) ∧ (∀ l d, ¬ InAdj f.inp n l d) ∧ (∀ s l, ¬ InAdj f.out s l n) ∧ ∀ s l, ¬ InAdj f.inp s l n := by
  have h1 : ∀ l d, ¬ InAdj f.out n l d := fun l d h => hn (mem_nodes.2 (H.outKey n (inAdj_key h)))
  have h2 : ∀ l d, ¬ InAdj f.inp n l d := fun l d h => hn (mem_nodes.2 (H.inpKey n (inAdj_key h)))
  exact ⟨h1, h2, fun s l h => h2 l s ((H.sym _ _ _).1 h), fun s l h => h1 l s ((H.sym _ _ _).2 h)⟩

theorem inAdj_reset {d : Adj} {n k l m : String} : InAdj (d.set n []) k l m ↔ k ≠ n ∧ InAdj d k l m := by
  rw [inAdj_set]
  by_cases h : n = k
  · subst h
    simp [InSet]
  · simp [h, Ne.symm h]

theorem symm_addVar (H : Symm f) {v : String} (hv : v ∉ f.nodes) : Symm (f.addVar v) := by
  obtain ⟨h1, h2, h3, h4⟩ := not_adj_of_not_node H hv
  refine ⟨?_, ?_, ?_⟩
  · intro s d l
    simp only [addVar, inAdj_reset]
    rw [H.sym]
    exact ⟨fun h => ⟨fun e => h2 l s (e ▸ h.2), h.2⟩, fun h => ⟨fun e => h4 d l (e ▸ h.2), h.2⟩⟩
  · intro n hn
    simp only [addVar, IsVar, Dict.mem_keys_set] at hn ⊢
    rcases hn with rfl | hn
    · exact .inl (.inl rfl)
    · exact (H.inpKey n hn).imp .inr id
  · intro n hn
    simp only [addVar, IsVar, Dict.mem_keys_set] at hn ⊢
    rcases hn with rfl | hn
    · exact .inl (.inl rfl)
    · exact (H.outKey n hn).imp .inr id

theorem symm_addFunc (H : Symm f) {v : String} (hv : v ∉ f.nodes) : Symm (f.addFunc v) := by
  obtain ⟨h1, h2, h3, h4⟩ := not_adj_of_not_node H hv
  refine ⟨?_, ?_, ?_⟩
  · intro s d l
    simp only [addFunc, inAdj_reset]
    rw [H.sym]
    exact ⟨fun h => ⟨fun e => h2 l s (e ▸ h.2), h.2⟩, fun h => ⟨fun e => h4 d l (e ▸ h.2), h.2⟩⟩
  · intro n hn
    simp only [addFunc, IsFunc, Dict.mem_keys_set] at hn ⊢
    rcases hn with rfl | hn
    · exact .inr (.inl rfl)
    · exact (H.inpKey n hn).imp id .inr
  · intro n hn
    simp only [addFunc, IsFunc, Dict.mem_keys_set] at hn ⊢
    rcases hn with rfl | hn
    · exact .inr (.inl rfl)
    · exact (H.outKey n hn).imp id .inr

theorem symm_addEdge (H : Symm f) {s d l : String} {a : Bool} (h : f.addEdge s d l a = .ok g) : Symm g := by
  rcases addEdge_ok h with ⟨rfl, _⟩ | ⟨_, hs, hd, rfl⟩
  · exact H
  · refine ⟨?_, ?_, ?_⟩
    · intro s' d' l'
      rw [inAdj_add, inAdj_add, H.sym]
      constructor
      · rintro (h | ⟨h1, h2, h3⟩)
        · exact .inl h
        · exact .inr ⟨h3, h2, h1⟩
      · rintro (h | ⟨h1, h2, h3⟩)
        · exact .inl h
        · exact .inr ⟨h3, h2, h1⟩
    · intro n hn
      rcases mem_keys_adjAdd.1 hn with rfl | hn
      · exact H.inpKey _ hd
      · exact H.inpKey n hn
    · intro n hn
      rcases mem_keys_adjAdd.1 hn with rfl | hn
      · exact H.outKey _ hs
      · exact H.outKey n hn

theorem symm_dropEdge (H : Symm f) {s d l : String} (h : f.dropEdge s d l = .ok g) : Symm g := by
  have C := dropEdge_spec h
  have e1 : g.vs = f.vs := by rw [C.rest]
  have e2 : g.fs = f.fs := by rw [C.rest]
  refine ⟨?_, ?_, ?_⟩
  · intro s d l; rw [C.out, C.inp, H.sym]
  · intro n hn; rw [IsVar, IsFunc, e1, e2]; exact H.inpKey n ((C.inpKey n).1 hn)
  · intro n hn; rw [IsVar, IsFunc, e1, e2]; exact H.outKey n ((C.outKey n).1 hn)

/-- After the edges at `n` are gone, forgetting the adjacency lists of `n` changes no edge. -/
theorem symm_erase (H : Symm f) {n : String} (h : f.dropEdgesAt n = .ok g) {k : CFrame} (hi : k.inp = g.inp.erase n) (ho : k.out = g.out.erase n)
    (hn : ∀ m, m ≠ n → (f.IsVar m ∨ f.IsFunc m) → k.IsVar m ∨ k.IsFunc m) : Symm k := by
  have C := dropEdges_spec h
  have key : ∀ {s d l}, InAdj g.out s l d → s ≠ n ∧ d ≠ n := by
    intro s d l he
    rw [C.out] at he
    obtain ⟨h1, h2⟩ := he
    rw [List.mem_filter] at h2
    constructor <;> rintro rfl <;> exact h2 ⟨mem_edges.2 h1, by simp⟩
  have sym : ∀ s d l, InAdj g.out s l d ↔ InAdj g.inp d l s := by
    intro s d l; rw [C.out, C.inp, H.sym]
  refine ⟨?_, ?_, ?_⟩
  · intro s d l
    rw [hi, ho, inAdj_erase, inAdj_erase, sym]
    constructor
    · exact fun h => ⟨(key ((sym _ _ _).2 h.2)).2.symm, h.2⟩
    · exact fun h => ⟨(key ((sym _ _ _).2 h.2)).1.symm, h.2⟩
  · intro m hm
    rw [hi, Dict.mem_keys_erase] at hm
    exact hn m hm.1 (H.inpKey m ((C.inpKey m).1 hm.2))
  · intro m hm
    rw [ho, Dict.mem_keys_erase] at hm
    exact hn m hm.1 (H.outKey m ((C.outKey m).1 hm.2))

theorem symm_dropVar (H : Symm f) {v : String} (h : f.dropVar v = .ok g) : Symm g := by
  unfold dropVar at h
  simp only [exBind_ok, getE_ok, delE_ok] at h
  obtain ⟨f1, h1, s, hs, f2, h2, vs, ⟨_, rfl⟩, inp, ⟨_, rfl⟩, out, ⟨_, rfl⟩, h⟩ := h
  cases h
  have S := sameGraph_foldlM (fun _ _ _ => sameGraph_dropRef) h2
  have C := dropEdges_spec h1
  refine symm_erase H h1 (by rw [← S.inp]) (by rw [← S.out]) ?_
  intro m hm
  simp only [IsVar, IsFunc, Dict.mem_keys_erase]
  refine Or.imp (fun h => ⟨hm, (S.vs m).2 ?_⟩) (fun h => (S.fs m).2 ?_)
  · rw [IsVar, show f1.vs = f.vs by rw [C.rest]]; exact h
  · rw [IsFunc, show f1.fs = f.fs by rw [C.rest]]; exact h

theorem symm_dropFunc (H : Symm f) {v : String} (h : f.dropFunc v = .ok g) : Symm g := by
  unfold dropFunc at h
  simp only [exBind_ok, getE_ok, delE_ok] at h
  obtain ⟨f1, h1, s, hs, f2, h2, vs, ⟨_, rfl⟩, inp, ⟨_, rfl⟩, out, ⟨_, rfl⟩, h⟩ := h
  cases h
  have S := sameGraph_foldlM (fun _ _ _ => sameGraph_dropCall) h2
  have C := dropEdges_spec h1
  refine symm_erase H h1 (by rw [← S.inp]) (by rw [← S.out]) ?_
  intro m hm
  simp only [IsVar, IsFunc, Dict.mem_keys_erase]
  refine Or.imp (fun h => (S.vs m).2 ?_) (fun h => ⟨hm, (S.fs m).2 ?_⟩)
  · rw [IsVar, show f1.vs = f.vs by rw [C.rest]]; exact h
  · rw [IsFunc, show f1.fs = f.fs by rw [C.rest]]; exact h

theorem symm_dropNode (H : Symm f) {v : String} (h : f.dropNode v = .ok g) : Symm g := by
  unfold dropNode at h
  split at h
  · exact symm_dropVar H h
  · split at h
    · exact symm_dropFunc H h
    · cases h

theorem symm_renameVar (H : Symm f) {v w : String} (hw : w ∉ f.nodes) (h : f.renameVar v w = .ok g) : Symm g := by
  obtain ⟨h1, h2, h3, h4⟩ := not_adj_of_not_node H hw
  unfold renameVar at h
  simp only [exBind_ok, getE_ok] at h
  obtain ⟨s, hs, i, hi, o, ho, h⟩ := h
  have hvw : v ≠ w := by rintro rfl; exact hw (mem_nodes.2 (.inl (Dict.mem_keys.2 ⟨_, hs⟩)))
  split at h
  · simp only [exBind_ok] at h
    obtain ⟨s', _, ri, _, h⟩ := h
    cases h
    have hnode : ∀ n, n ≠ v → (n = w ∨ f.IsVar n ∨ f.IsFunc n) → n ∈ Dict.keys ((f.vs.set w s).erase v) ∨ n ∈ f.fs.keys := by
      intro n hn h
      rw [Dict.mem_keys_erase, Dict.mem_keys_set]
      rcases h with h | h | h
      · exact .inl ⟨hn, .inl h⟩
      · exact .inl ⟨hn, .inr h⟩
      · exact .inr h
    have kin : ∀ n, n ∈ Dict.keys ((f.inp.set w i).erase v) → n ∈ Dict.keys ((f.vs.set w s).erase v) ∨ n ∈ f.fs.keys := by
      intro n hn
      rw [Dict.mem_keys_erase, Dict.mem_keys_set] at hn
      exact hnode n hn.1 (hn.2.imp id (H.inpKey n))
    have kout : ∀ n, n ∈ Dict.keys ((f.out.set w o).erase v) → n ∈ Dict.keys ((f.vs.set w s).erase v) ∨ n ∈ f.fs.keys := by
      intro n hn
      rw [Dict.mem_keys_erase, Dict.mem_keys_set] at hn
      exact hnode n hn.1 (hn.2.imp id (H.outKey n))
    refine ⟨?_, ?_, ?_⟩
    · intro s' d l
      dsimp only
      rw [renamed_adj ho hvw (fun n hn => mem_nodes.2 (kout n hn)) h3, renamed_adj hi hvw (fun n hn => mem_nodes.2 (kin n hn)) h4, H.sym]
      exact ⟨fun h => ⟨h.2.1, h.1, h.2.2⟩, fun h => ⟨h.2.1, h.1, h.2.2⟩⟩
    · intro n hn
      exact kin n (keys_rename.1 hn)
    · intro n hn
      exact kout n (keys_rename.1 hn)
  · cases h

theorem symm_selectNodes {ns : List String} (h : f.selectNodes ns = .ok g) : Symm g := by
  obtain ⟨hns, S⟩ := selectNodes_ok h
  have key : ∀ n, n ∈ ns → g.IsVar n ∨ g.IsFunc n := by
    intro n hn
    rw [IsVar, S.vsKey, IsFunc, S.fsKey]
    exact (mem_nodes.1 (hns n hn)).imp (fun h => ⟨h, hn⟩) fun h => ⟨h, hn⟩
  refine ⟨fun s d l => by rw [S.out, S.inp], ?_, ?_⟩
  · intro n hn
    exact key n ((S.inpKey n).1 hn)
  · intro n hn
    exact key n ((S.outKey n).1 hn)

theorem symm_selectSubsets (H : Symm f) {elts : SetDict} (h : f.selectSubsets elts = .ok g) : Symm g := by
  obtain ⟨_, S⟩ := selectSubsets_ok h
  exact SameGraph.symm ⟨S.inp, S.out, S.vsKey, S.fsKey⟩ H

theorem symm_unionRaw {a b : CFrame} (ha : Symm a) (hb : Symm b) : Symm (unionRaw a b) := by
  have V := fun n => (C55_setdict_union_intersection a.vs b.vs).2.1 n
  have F := fun n => (C55_setdict_union_intersection a.fs b.fs).2.1 n
  have I := C55_adjacency_union_intersection a.inp b.inp
  have O := C55_adjacency_union_intersection a.out b.out
  refine ⟨?_, ?_, ?_⟩
  · intro s d l
    simp only [unionRaw]
    rw [I.1, O.1, ha.sym, hb.sym]
  · intro n hn
    simp only [unionRaw, IsVar, IsFunc] at hn ⊢
    rw [I.2.1] at hn
    rw [V, F]
    rcases hn with hn | hn
    · exact (ha.inpKey n hn).imp .inl .inl
    · exact (hb.inpKey n hn).imp .inr .inr
  · intro n hn
    simp only [unionRaw, IsVar, IsFunc] at hn ⊢
    rw [O.2.1] at hn
    rw [V, F]
    rcases hn with hn | hn
    · exact (ha.outKey n hn).imp .inl .inl
    · exact (hb.outKey n hn).imp .inr .inr

end CFrame
end Verif
