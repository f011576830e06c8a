import Verif.Proofs.CFrameDrop
import Verif.Model.CFrameObj
/-!
Merging a variable into another one.
-/
namespace Verif

open Props

namespace CFrame

variable {R : FCall → Prop} {f : CFrame}

/-! ### edges -/

/-- `g` has the edges of `f` except `E`, and `N`; nothing else differs. -/
structure Rewires (f g : CFrame) (E N : String × String × String → Prop) : Prop where
  rest : g = { f with inp := g.inp, out := g.out }
  inpKey : ∀ n, n ∈ g.inp.keys ↔ n ∈ f.inp.keys
  outKey : ∀ n, n ∈ g.out.keys ↔ n ∈ f.out.keys
  out : ∀ s d l, InAdj g.out s l d ↔ (InAdj f.out s l d ∧ ¬ E (s, d, l)) ∨ N (s, d, l)
  inp : ∀ s d l, InAdj g.inp d l s ↔ (InAdj f.inp d l s ∧ ¬ E (s, d, l)) ∨ N (s, d, l)

theorem rewire_one {e n : String × String × String} (h1 : InAdj f.out e.1 e.2.2 e.2.1) (h2 : InAdj f.inp e.2.1 e.2.2 e.1)
    (hsym : ∀ s d l, InAdj f.out s l d ↔ InAdj f.inp d l s)
    (hn1 : n.1 ∈ f.out.keys) (hn2 : n.2.1 ∈ f.inp.keys) : ∃ g, (do
      let k ← f.dropEdge e.1 e.2.1 e.2.2
      k.addEdge n.1 n.2.1 n.2.2 true) = .ok g ∧ Rewires f g (· = e) (· = n) := by
  obtain ⟨k, hk⟩ := dropEdge_total h1 h2
  have C := dropEdge_spec hk
  simp only [hk, bind, Except.bind]
  unfold addEdge
  by_cases hm : (n.1, n.2.1, n.2.2) ∈ k.edges
  · rw [if_pos hm, if_pos rfl]
    have ho := mem_edges.1 hm
    have hi : InAdj k.inp n.2.1 n.2.2 n.1 := by
      rw [HasEdge, C.out] at ho
      rw [C.inp, ← hsym]
      exact ho
    refine ⟨k, rfl, C.rest, C.inpKey, C.outKey, fun s d l => ?_, fun s d l => ?_⟩
    · rw [C.out]
      refine ⟨.inl, ?_⟩
      rintro (h | rfl)
      · exact h
      · exact (C.out _ _ _).1 ho
    · rw [C.inp]
      refine ⟨.inl, ?_⟩
      rintro (h | rfl)
      · exact h
      · exact (C.inp _ _ _).1 hi
  · rw [if_neg hm, if_pos (by
      rw [Bool.and_eq_true, Dict.has_iff, Dict.has_iff]
      exact ⟨(C.outKey _).2 hn1, (C.inpKey _).2 hn2⟩)]
    refine ⟨_, rfl, by rw [C.rest], ?_, ?_, fun s d l => ?_, fun s d l => ?_⟩
    · intro m
      rw [mem_keys_adjAdd, C.inpKey]
      exact ⟨fun h => h.elim (fun e => e ▸ hn2) id, .inr⟩
    · intro m
      rw [mem_keys_adjAdd, C.outKey]
      exact ⟨fun h => h.elim (fun e => e ▸ hn1) id, .inr⟩
    · simp only
      rw [inAdj_add, C.out]
      refine or_congr Iff.rfl ?_
      constructor
      · rintro ⟨rfl, rfl, rfl⟩; rfl
      · rintro rfl; exact ⟨rfl, rfl, rfl⟩
    · simp only
      rw [inAdj_add, C.inp]
      refine or_congr Iff.rfl ?_
      constructor
      · rintro ⟨rfl, rfl, rfl⟩; rfl
      · rintro rfl; exact ⟨rfl, rfl, rfl⟩

theorem rewires {nw : String × String × String → String × String × String} {es : List (String × String × String)} : ∀ {f : CFrame}, es.Nodup →
    (∀ s d l, InAdj f.out s l d ↔ InAdj f.inp d l s) → (∀ e ∈ es, InAdj f.out e.1 e.2.2 e.2.1) → (∀ e ∈ es, ∀ e' ∈ es, nw e ≠ e') →
    (∀ e ∈ es, (nw e).1 ∈ f.out.keys ∧ (nw e).2.1 ∈ f.inp.keys) →
    ∃ g, es.foldlM (fun f e => do
      let f ← f.dropEdge e.1 e.2.1 e.2.2
      f.addEdge (nw e).1 (nw e).2.1 (nw e).2.2 true) f = .ok g ∧ Rewires f g (· ∈ es) (fun x => ∃ e ∈ es, x = nw e) := by
  induction es with
  | nil =>
    intro f _ _ _ _ _
    exact ⟨f, rfl, rfl, fun _ => Iff.rfl, fun _ => Iff.rfl, by simp, by simp⟩
  | cons e es ih =>
    intro f hnd hsym he hne hk
    obtain ⟨hnn, hnd⟩ := List.nodup_cons.1 hnd
    obtain ⟨k, h1, W⟩ := rewire_one (he e (by simp)) ((hsym _ _ _).1 (he e (by simp))) hsym (hk e (by simp)).1 (hk e (by simp)).2
    obtain ⟨g, h2, V⟩ := ih (f := k) hnd
      (fun s d l => by rw [W.out, W.inp, hsym])
      (fun e' he' => (W.out _ _ _).2 (.inl ⟨he e' (by simp [he']), fun hc => hnn (hc ▸ he')⟩))
      (fun a ha b hb => hne a (by simp [ha]) b (by simp [hb]))
      (fun a ha => ⟨(W.outKey _).2 (hk a (by simp [ha])).1, (W.inpKey _).2 (hk a (by simp [ha])).2⟩)
    refine ⟨g, by rw [List.foldlM_cons, h1]; exact h2, by rw [V.rest, W.rest], fun n => (V.inpKey n).trans (W.inpKey n),
      fun n => (V.outKey n).trans (W.outKey n), fun s d l => ?_, fun s d l => ?_⟩
    · rw [V.out, W.out]
      constructor
      · rintro (⟨⟨h, h1⟩ | h, h2⟩ | ⟨e', h, h'⟩)
        · exact .inl ⟨h, fun hc => (List.mem_cons.1 hc).elim h1 h2⟩
        · exact .inr ⟨e, by simp, h⟩
        · exact .inr ⟨e', by simp [h], h'⟩
      · rintro (⟨h, h1⟩ | ⟨e', h, h'⟩)
        · exact .inl ⟨.inl ⟨h, fun hc => h1 (by simp [hc])⟩, fun hc => h1 (by simp [hc])⟩
        · rcases List.mem_cons.1 h with rfl | h
          · exact .inl ⟨.inr h', fun hc => hne e' (by simp) _ (List.mem_cons_of_mem _ hc) h'.symm⟩
          · exact .inr ⟨e', h, h'⟩
    · rw [V.inp, W.inp]
      constructor
      · rintro (⟨⟨h, h1⟩ | h, h2⟩ | ⟨e', h, h'⟩)
        · exact .inl ⟨h, fun hc => (List.mem_cons.1 hc).elim h1 h2⟩
        · exact .inr ⟨e, by simp, h⟩
        · exact .inr ⟨e', by simp [h], h'⟩
      · rintro (⟨h, h1⟩ | ⟨e', h, h'⟩)
        · exact .inl ⟨.inl ⟨h, fun hc => h1 (by simp [hc])⟩, fun hc => h1 (by simp [hc])⟩
        · rcases List.mem_cons.1 h with rfl | h
          · exact .inl ⟨.inr h', fun hc => hne e' (by simp) _ (List.mem_cons_of_mem _ hc) h'.symm⟩
          · exact .inr ⟨e', h, h'⟩

/-- All edges at the variable `a` become edges at the variable `b`. -/
theorem redirect_spec (G : GraphWf f) {a b : String} (ha : f.IsVar a) (hb : f.IsVar b) (hab : a ≠ b) :
    ∃ g, redirect a b f = .ok g ∧ g = { f with inp := g.inp, out := g.out } ∧ GraphWf g ∧
      ∀ s d l, g.HasEdge s d l ↔ (f.HasEdge s d l ∧ s ≠ a ∧ d ≠ a) ∨ (d = b ∧ f.HasEdge s a l) ∨ (s = b ∧ f.HasEdge a d l) := by
  have nva : ¬ f.IsFunc a := G.disj a ha
  have nvb : ¬ f.IsFunc b := G.disj b hb
  have mIn : ∀ {k : CFrame} {e}, e ∈ k.inEdges a ↔ k.HasEdge e.1 e.2.1 e.2.2 ∧ e.2.1 = a := by
    intro k e; rw [inEdges, PySet.mem_ofList, List.mem_filter, mem_edges', decide_eq_true_eq]
  have mOut : ∀ {k : CFrame} {e}, e ∈ k.outEdges a ↔ k.HasEdge e.1 e.2.1 e.2.2 ∧ e.1 = a := by
    intro k e; rw [outEdges, PySet.mem_ofList, List.mem_filter, mem_edges', decide_eq_true_eq]
  have inb := (G.inpKey b).2 (.inl hb)
  have outb := (G.outKey b).2 (.inl hb)
  obtain ⟨k, h1, W⟩ := rewires (f := f) (es := f.inEdges a) (nw := fun e => (e.1, b, e.2.2)) (PySet.nodup_ofList _) G.sym
    (fun e he => (mIn.1 he).1) (fun e _ e' he' hc => hab (by rw [← (mIn.1 he').2, ← hc])) (fun e he => ⟨inAdj_key (mIn.1 he).1, inb⟩)
  have kE : ∀ s d l, k.HasEdge s d l ↔ (f.HasEdge s d l ∧ d ≠ a) ∨ (d = b ∧ f.HasEdge s a l) := by
    intro s d l
    rw [HasEdge, W.out]
    refine or_congr ?_ ?_
    · rw [mIn]
      exact ⟨fun h => ⟨h.1, fun e => h.2 ⟨h.1, e⟩⟩, fun h => ⟨h.1, fun e => h.2 e.2⟩⟩
    · constructor
      · rintro ⟨e, he, hh⟩
        obtain ⟨h1, h2⟩ := mIn.1 he
        cases hh
        refine ⟨rfl, ?_⟩
        rw [← h2]; exact h1
      · rintro ⟨rfl, h⟩
        exact ⟨(s, a, l), mIn.2 ⟨h, rfl⟩, rfl⟩
  have ksym : ∀ s d l, InAdj k.out s l d ↔ InAdj k.inp d l s := fun s d l => by rw [W.out, W.inp, G.sym]
  have ksrc : ∀ d l, k.HasEdge a d l ↔ f.HasEdge a d l := by
    intro d l
    rw [kE]
    constructor
    · rintro (h | ⟨rfl, h⟩)
      · exact h.1
      · rcases G.bip _ _ _ h with h' | h'
        · exact absurd h'.2 nva
        · exact absurd h'.1 nva
    · intro h
      refine .inl ⟨h, ?_⟩
      rintro rfl
      rcases G.bip _ _ _ h with h' | h'
      · exact absurd h'.2 nva
      · exact absurd h'.1 nva
  obtain ⟨g, h2, V⟩ := rewires (f := k) (es := k.outEdges a) (nw := fun e => (b, e.2.1, e.2.2)) (PySet.nodup_ofList _) ksym
    (fun e he => (mOut.1 he).1) (fun e _ e' he' hc => hab (by rw [← (mOut.1 he').2, ← hc]))
    (fun e he => ⟨(W.outKey b).2 outb, inAdj_key ((ksym _ _ _).1 (mOut.1 he).1)⟩)
  have gE : ∀ s d l, g.HasEdge s d l ↔ (f.HasEdge s d l ∧ s ≠ a ∧ d ≠ a) ∨ (d = b ∧ f.HasEdge s a l) ∨ (s = b ∧ f.HasEdge a d l) := by
    intro s d l
    rw [HasEdge, V.out, mOut]
    constructor
    · rintro (⟨h, hn⟩ | ⟨e, he, hh⟩)
      · have hsa : s ≠ a := fun e => hn ⟨h, e⟩
        rcases (kE _ _ _).1 h with h | h
        · exact .inl ⟨h.1, hsa, h.2⟩
        · exact .inr (.inl h)
      · obtain ⟨h1, h2⟩ := mOut.1 he
        cases hh
        rw [h2] at h1
        exact .inr (.inr ⟨rfl, (ksrc _ _).1 h1⟩)
    · rintro (h | ⟨rfl, h⟩ | ⟨rfl, h⟩)
      · exact .inl ⟨(kE _ _ _).2 (.inl ⟨h.1, h.2.2⟩), fun e => h.2.1 e.2⟩
      · refine .inl ⟨(kE _ _ _).2 (.inr ⟨rfl, h⟩), ?_⟩
        rintro ⟨_, rfl⟩
        rcases G.bip _ _ _ h with h' | h'
        · exact absurd h'.2 nva
        · exact absurd h'.1 nva
      · exact .inr ⟨(a, d, l), mOut.2 ⟨(ksrc _ _).2 h, rfl⟩, rfl⟩
  have rest : g = { f with inp := g.inp, out := g.out } := by rw [V.rest, W.rest]
  have e1 : g.vs = f.vs := by rw [rest]
  have e2 : g.fs = f.fs := by rw [rest]
  refine ⟨g, ?_, rest, ?_, gE⟩
  · unfold redirect redirectIn
    rw [h1]
    exact h2
  · constructor <;> try simp only [IsVar, IsFunc, e1, e2]
    · exact G.disj
    · exact fun n => ((V.inpKey n).trans (W.inpKey n)).trans (G.inpKey n)
    · exact fun n => ((V.outKey n).trans (W.outKey n)).trans (G.outKey n)
    · intro s d l; rw [V.out, V.inp, ksym]
    · intro s d l h
      rcases (gE s d l).1 h with h | ⟨rfl, h⟩ | ⟨rfl, h⟩
      · exact G.bip _ _ _ h.1
      · rcases G.bip _ _ _ h with h' | h'
        · exact absurd h'.2 nva
        · exact .inr ⟨h'.1, hb⟩
      · rcases G.bip _ _ _ h with h' | h'
        · exact .inl ⟨hb, h'.2⟩
        · exact absurd h'.1 nva

/-! ### values -/

/-- `g` is `f` with the values `hs` of `a` moved to `b`. -/
structure Moves (f g : CFrame) (a b : String) (hs : List String) : Prop where
  rest : g = { f with vs := g.vs, refinv := g.refinv }
  keys : ∀ v, g.IsVar v ↔ f.IsVar v
  vs : ∀ v h, g.HasRef v h ↔ (f.HasRef v h ∧ ¬ (v = a ∧ h ∈ hs)) ∨ (v = b ∧ h ∈ hs)
  ref : RefWf g

theorem moveRef_spec (H : RefWf f) {a b h : String} (ha : f.HasRef a h) (hb : f.IsVar b) (hab : a ≠ b) :
    ∃ g, moveRef a b h f = .ok g ∧ Moves f g a b [h] := by
  obtain ⟨s, hs, hh⟩ := ha
  obtain ⟨t, ht⟩ := Dict.mem_keys.1 hb
  obtain ⟨iv, hiv⟩ := Dict.mem_keys.1 ((H.refinvKey h).2 ⟨a, s, hs, hh⟩)
  have hain : a ∈ iv := (inSet_iff_mem hiv).1 ((H.refinv h a).2 ⟨s, hs, hh⟩)
  have ht' : (f.vs.set a (PySet.remove s h)).get? b = some t := by
    rw [Dict.get?_set, if_neg hab, ht]
  have hvs : ∀ v x, InSet ((f.vs.set a (PySet.remove s h)).set b (PySet.add t h)) v x ↔ (f.HasRef v x ∧ ¬ (v = a ∧ x ∈ [h])) ∨ (v = b ∧ x ∈ [h]) := by
    intro v x
    rw [inSet_set]
    by_cases e : b = v
    · subst e
      rw [if_pos rfl, PySet.mem_add, HasRef, inSet_iff_mem ht]
      simp [Ne.symm hab, or_comm]
    · rw [if_neg e, vs_shed hs]
      simp [Ne.symm e, HasRef]
  have hinv : ∀ x v, InSet (f.refinv.set h (PySet.add (PySet.remove iv a) b)) x v ↔ (InSet f.refinv x v ∧ ¬ (v = a ∧ x ∈ [h])) ∨ (v = b ∧ x ∈ [h]) := by
    intro x v
    rw [inSet_set]
    by_cases e : h = x
    · subst e
      rw [if_pos rfl, PySet.mem_add, PySet.mem_remove, inSet_iff_mem hiv]
      simp [or_comm]
    · rw [if_neg e]
      simp [Ne.symm e]
  have hex : ∀ x, (∃ v, (f.HasRef v x ∧ ¬ (v = a ∧ x ∈ [h])) ∨ (v = b ∧ x ∈ [h])) ↔ ∃ v, f.HasRef v x := by
    intro x
    constructor
    · rintro ⟨v, h' | ⟨rfl, h'⟩⟩
      · exact ⟨v, h'.1⟩
      · rw [List.mem_singleton.1 h']; exact ⟨a, s, hs, hh⟩
    · rintro ⟨v, h'⟩
      by_cases e : x = h
      · exact ⟨b, .inr ⟨rfl, by simp [e]⟩⟩
      · exact ⟨v, .inl ⟨h', fun hc => e (List.mem_singleton.1 hc.2)⟩⟩
  refine ⟨{ f with vs := (f.vs.set a (PySet.remove s h)).set b (PySet.add t h), refinv := f.refinv.set h (PySet.add (PySet.remove iv a) b) }, ?_, ?_⟩
  · have e1 : getE f.vs a = .ok s := getE_ok.2 hs
    have e2 : getE (f.vs.set a (PySet.remove s h)) b = .ok t := getE_ok.2 ht'
    have e3 : getE f.refinv h = .ok iv := getE_ok.2 hiv
    have e4 : removeE iv a = .ok (PySet.remove iv a) := removeE_ok.2 ⟨hain, rfl⟩
    unfold moveRef moveRefVs moveRefInv
    simp only [e1, e2, e3, e4, bind, Except.bind, hh, not_true_eq_false, if_false]
  · refine ⟨rfl, ?_, hvs, ?_, ?_, ?_, ?_⟩
    · intro v
      simp only [IsVar]
      rw [keys_shed ht', keys_shed hs]
    · intro x v
      simp only [HasRef]
      rw [hinv, hvs, H.refinv]
    · intro x
      simp only [HasRef]
      rw [keys_shed hiv, H.refinvKey]
      exact ((exists_congr fun v => hvs v x).trans (hex x)).symm
    · intro x
      simp only [HasRef]
      rw [H.refs]
      exact ((exists_congr fun v => hvs v x).trans (hex x)).symm
    · exact H.refHid

theorem moves_spec {a b : String} (hab : a ≠ b) {hs : List String} : ∀ {f : CFrame}, RefWf f → f.IsVar b → hs.Nodup → (∀ h ∈ hs, f.HasRef a h) →
    ∃ g, hs.foldlM (fun f h => moveRef a b h f) f = .ok g ∧ Moves f g a b hs := by
  induction hs with
  | nil =>
    intro f H _ _ _
    exact ⟨f, rfl, rfl, fun _ => Iff.rfl, by simp, H⟩
  | cons h hs ih =>
    intro f H hb hnd ha
    obtain ⟨hnn, hnd⟩ := List.nodup_cons.1 hnd
    obtain ⟨k, h1, M⟩ := moveRef_spec H (ha h (by simp)) hb hab
    obtain ⟨g, h2, N⟩ := ih (f := k) M.ref ((M.keys b).2 hb) hnd (fun x hx => (M.vs a x).2 (.inl ⟨ha x (by simp [hx]), fun hc => hnn (List.mem_singleton.1 hc.2 ▸ hx)⟩))
    refine ⟨g, by rw [List.foldlM_cons, h1]; exact h2, by rw [N.rest, M.rest], fun v => (N.keys v).trans (M.keys v), fun v x => ?_, N.ref⟩
    rw [N.vs, M.vs]
    simp only [List.mem_cons, List.not_mem_nil, or_false]
    constructor
    · rintro (⟨⟨h1, h2⟩ | ⟨h1, h2⟩, h3⟩ | ⟨h1, h2⟩)
      · exact .inl ⟨h1, fun hc => hc.2.elim (fun e => h2 ⟨hc.1, e⟩) (fun e => h3 ⟨hc.1, e⟩)⟩
      · exact .inr ⟨h1, .inl h2⟩
      · exact .inr ⟨h1, .inr h2⟩
    · rintro (⟨h1, h2⟩ | ⟨h1, h2 | h2⟩)
      · exact .inl ⟨.inl ⟨h1, fun hc => h2 ⟨hc.1, .inl hc.2⟩⟩, fun hc => h2 ⟨hc.1, .inr hc.2⟩⟩
      · refine .inl ⟨.inr ⟨h1, h2⟩, fun hc => hab (hc.1.symm.trans h1)⟩
      · exact .inr ⟨h1, h2⟩

/-! ### merging -/

theorem mergeInto_spec (H : Wf R f) {a b : String} (ha : f.IsVar a) (hb : f.IsVar b) (hab : a ≠ b) :
    ∃ g, mergeInto a b f = .ok g ∧ Wf R g ∧ (∀ v, g.IsVar v ↔ f.IsVar v ∧ v ≠ a) ∧ (∀ n, g.IsFunc n ↔ f.IsFunc n) ∧
      (∀ v h, g.HasRef v h ↔ v ≠ a ∧ (f.HasRef v h ∨ (v = b ∧ f.HasRef a h))) ∧ (∀ n h, g.HasCall n h ↔ f.HasCall n h) ∧
      (∀ s d l, g.HasEdge s d l ↔ (f.HasEdge s d l ∧ s ≠ a ∧ d ≠ a) ∨ (d = b ∧ f.HasEdge s a l) ∨ (s = b ∧ f.HasEdge a d l)) ∧
      g.calls = f.calls := by
  obtain ⟨sa, hsa⟩ := Dict.mem_keys.1 ha
  obtain ⟨sb, hsb⟩ := Dict.mem_keys.1 hb
  have ea : f.setE a = .ok sa := by
    unfold setE setOf
    rw [hsa, Dict.get?_eq_none.2 (H.graph.disj a ha)]; rfl
  have eb : f.setE b = .ok sb := by
    unfold setE setOf
    rw [hsb, Dict.get?_eq_none.2 (H.graph.disj b hb)]; rfl
  obtain ⟨f1, h1, M⟩ := moves_spec hab (f := f) (hs := PySet.diff (PySet.ofList sa) sb) H.ref hb (PySet.nodup_diff (PySet.nodup_ofList sa) sb)
    (fun h hh => ⟨sa, hsa, PySet.mem_ofList.1 (PySet.mem_diff.1 hh).1⟩)
  have hmv : ∀ h, h ∈ PySet.diff (PySet.ofList sa) sb ↔ f.HasRef a h ∧ ¬ f.HasRef b h := by
    intro h
    rw [PySet.mem_diff, PySet.mem_ofList, HasRef, HasRef, inSet_iff_mem hsa, inSet_iff_mem hsb]
  have m1 : f1.inp = f.inp := by rw [M.rest]
  have m2 : f1.out = f.out := by rw [M.rest]
  have m3 : f1.fs = f.fs := by rw [M.rest]
  have m4 : f1.refs = f.refs := by rw [M.rest]
  have m5 : f1.calls = f.calls := by rw [M.rest]
  have m6 : f1.callinv = f.callinv := by rw [M.rest]
  have m7 : f1.creator = f.creator := by rw [M.rest]
  have m8 : f1.consumers = f.consumers := by rw [M.rest]
  have G1 : GraphWf f1 := by
    constructor <;> simp only [M.keys, IsFunc, m1, m2, m3]
    · exact H.graph.disj
    · exact H.graph.inpKey
    · exact H.graph.outKey
    · exact H.graph.sym
    · exact H.graph.bip
  obtain ⟨f2, h2, rest, G2, E⟩ := redirect_spec G1 ((M.keys a).2 ha) ((M.keys b).2 hb) hab
  have n1 : f2.vs = f1.vs := by rw [rest]
  have n2 : f2.refinv = f1.refinv := by rw [rest]
  have n3 : f2.fs = f.fs := by rw [rest]; exact m3
  have n4 : f2.refs = f1.refs := by rw [rest]
  have n5 : f2.calls = f.calls := by rw [rest]; exact m5
  have n6 : f2.callinv = f.callinv := by rw [rest]; exact m6
  have n7 : f2.creator = f.creator := by rw [rest]; exact m7
  have n8 : f2.consumers = f.consumers := by rw [rest]; exact m8
  have hR2 : ∀ v h, f2.HasRef v h ↔ (f.HasRef v h ∧ ¬ (v = a ∧ ¬ f.HasRef b h)) ∨ (v = b ∧ f.HasRef a h) := by
    intro v h
    rw [HasRef, n1]
    refine (M.vs v h).trans ?_
    rw [hmv]
    constructor
    · rintro (⟨h1, h2⟩ | ⟨h1, h2⟩)
      · exact .inl ⟨h1, fun hc => h2 ⟨hc.1, hc.1 ▸ h1, hc.2⟩⟩
      · exact .inr ⟨h1, h2.1⟩
    · rintro (⟨h1, h2⟩ | ⟨rfl, hx⟩)
      · exact .inl ⟨h1, fun hc => h2 ⟨hc.1, hc.2.2⟩⟩
      · by_cases hc : f.HasRef v h
        · exact .inl ⟨hc, fun hh => hh.2.2 hc⟩
        · exact .inr ⟨rfl, hx, hc⟩
  have inB : ∀ v h, f.HasRef v h → ∃ w, f2.HasRef w h := by
    intro v h hv
    by_cases e : v = a
    · exact ⟨b, (hR2 b h).2 (.inr ⟨rfl, e ▸ hv⟩)⟩
    · exact ⟨v, (hR2 v h).2 (.inl ⟨hv, fun hc => e hc.1⟩)⟩
  have edge1 : ∀ n l v, InAdj f2.inp n l v → f2.HasEdge v n l := fun n l v h => (G2.sym v n l).2 h
  have E' : ∀ s d l, f2.HasEdge s d l ↔ (f.HasEdge s d l ∧ s ≠ a ∧ d ≠ a) ∨ (d = b ∧ f.HasEdge s a l) ∨ (s = b ∧ f.HasEdge a d l) := by
    intro s d l; rw [E]; simp only [HasEdge, m2]
  have H2 : Wf R f2 := by
    constructor
    · exact G2
    · exact M.ref.congr n1 n2 n4
    · constructor <;> simp only [HasCall, n3, n5, n6]
      · exact H.call.callinv
      · exact H.call.callinvKey
      · exact H.call.calls
      · exact H.call.callOk
    · intro n c p v hp ht
      simp only [Tracks, HasCall, n3, n5] at ht
      obtain ⟨t1, t2, t3⟩ := ht
      have hfn : f.IsFunc n := InSet.key t1
      rw [n8]
      rcases (E' v n _).1 (edge1 _ _ _ t3) with ⟨h, hva, _⟩ | ⟨rfl, h⟩ | ⟨rfl, h⟩
      · have := H.ins n c p v hp ⟨t1, t2, (H.graph.sym _ _ _).1 h⟩
        exact ⟨(hR2 v _).2 (.inl ⟨this.1, fun hc => hva hc.1⟩), this.2⟩
      · exact absurd hfn (H.graph.disj _ hb)
      · have := H.ins n c p a hp ⟨t1, t2, (H.graph.sym _ _ _).1 h⟩
        exact ⟨(hR2 v _).2 (.inr ⟨rfl, this.1⟩), this.2⟩
    · intro n c p v hp ht
      simp only [Tracks, HasCall, n3, n5] at ht
      obtain ⟨t1, t2, t3⟩ := ht
      have hfn : f.IsFunc n := InSet.key t1
      rw [n7]
      rcases (E' n v _).1 t3 with ⟨h, _, hva⟩ | ⟨rfl, h⟩ | ⟨rfl, h⟩
      · have := H.outs n c p v hp ⟨t1, t2, h⟩
        exact ⟨(hR2 v _).2 (.inl ⟨this.1, fun hc => hva hc.1⟩), this.2⟩
      · have := H.outs n c p a hp ⟨t1, t2, h⟩
        exact ⟨(hR2 v _).2 (.inr ⟨rfl, this.1⟩), this.2⟩
      · exact absurd hfn (H.graph.disj _ hb)
    · intro h c hc
      rw [n7] at hc
      obtain ⟨⟨v, hv⟩, h2⟩ := H.creator h c hc
      exact ⟨inB v h hv, by rw [n5]; exact h2⟩
    · intro h hh
      rw [n8] at hh
      obtain ⟨v, hv⟩ := H.consumersKey h hh
      exact inB v h hv
    · intro h c hc
      rw [n8] at hc
      rw [n5]
      exact H.consumers h c hc
  have hv2 : ∀ v, f2.IsVar v ↔ f.IsVar v := fun v => by rw [IsVar, n1]; exact M.keys v
  obtain ⟨g, g1, g2, g3, g4, g5, g6, g7, g8⟩ := dropVar_spec H2 ((hv2 a).2 ha)
  refine ⟨g, ?_, g2, ?_, ?_, ?_, ?_, ?_, by rw [g8, n5]⟩
  · unfold mergeInto
    simp only [ea, eb, bind, Except.bind, h1, h2]
    unfold dropNode
    rw [if_pos (Dict.has_iff.2 ((hv2 a).2 ha))]
    exact g1
  · intro v; rw [g3, hv2]
  · intro n; rw [g4, IsFunc, n3]
  · intro v h
    rw [g5, hR2]
    constructor
    · rintro ⟨h1 | h1, h2⟩
      · exact ⟨h2, .inl h1.1⟩
      · exact ⟨h2, .inr h1⟩
    · rintro ⟨h2, h1 | h1⟩
      · exact ⟨.inl ⟨h1, fun hc => h2 hc.1⟩, h2⟩
      · exact ⟨.inr h1, h2⟩
  · intro n h; rw [g6, HasCall, n3]
  · intro s d l
    rw [g7, E']
    constructor
    · exact fun h => h.1
    · intro h
      refine ⟨h, ?_⟩
      rcases h with h | ⟨rfl, h⟩ | ⟨rfl, h⟩
      · exact h.2
      · refine ⟨?_, Ne.symm hab⟩
        rintro rfl
        rcases H.graph.bip _ _ _ h with h' | h'
        · exact H.graph.disj _ ha h'.2
        · exact H.graph.disj _ ha h'.1
      · refine ⟨Ne.symm hab, ?_⟩
        rintro rfl
        rcases H.graph.bip _ _ _ h with h' | h'
        · exact H.graph.disj _ ha h'.2
        · exact H.graph.disj _ ha h'.1

end CFrame
end Verif
