import Verif.Proofs.CFrameAdd
/-!
Removing edges, refs, variables, calls and functions keeps a frame well-formed.
-/
namespace Verif

open Props

theorem setLen_one {s : List String} : setLen s = 1 ↔ ∃ x, ∀ y, y ∈ s ↔ y = x := by
  unfold setLen
  have hn := PySet.nodup_ofList s
  have hm : ∀ y, y ∈ PySet.ofList s ↔ y ∈ s := fun y => PySet.mem_ofList
  constructor
  · intro h
    obtain ⟨x, hx⟩ := List.length_eq_one_iff.1 h
    refine ⟨x, fun y => ?_⟩
    rw [← hm, hx, List.mem_singleton]
  · rintro ⟨x, hx⟩
    have hx' : ∀ y, y ∈ PySet.ofList s ↔ y = x := fun y => (hm y).trans (hx y)
    revert hn hx'
    generalize PySet.ofList s = t
    intro hn ht
    match t, hn, ht with
    | [], _, ht => exact absurd ((ht x).2 rfl) (by simp)
    | [_], _, _ => rfl
    | a :: b :: t, hn, ht =>
      have ha := (ht a).1 (by simp)
      have hb := (ht b).1 (by simp)
      simp [ha, hb] at hn

namespace CFrame

variable {R : FCall → Prop} {f : CFrame}

/-! ### edges -/

/-- `g` is `f` without the edges `E`. -/
structure Cuts (f g : CFrame) (E : String × String × String → Prop) : Prop where
  rest : g = { f with inp := g.inp, out := g.out }
  inpKey : ∀ n, n ∈ g.inp.keys ↔ n ∈ f.inp.keys
  outKey : ∀ n, n ∈ g.out.keys ↔ n ∈ f.out.keys
  out : ∀ s d l, InAdj g.out s l d ↔ InAdj f.out s l d ∧ ¬ E (s, d, l)
  inp : ∀ s d l, InAdj g.inp d l s ↔ InAdj f.inp d l s ∧ ¬ E (s, d, l)

theorem inAdj_cut {d : Adj} {n l m : String} {o : SetDict} {ds : List String} (ho : d.get? n = some o) (hl : Dict.get? o l = some ds)
    {n' l' m' : String} : InAdj (d.set n (Dict.set o l (PySet.remove ds m))) n' l' m' ↔ InAdj d n' l' m' ∧ ¬ (n' = n ∧ l' = l ∧ m' = m) := by
  rw [inAdj_set]
  by_cases hn : n = n'
  · subst hn
    rw [if_pos rfl, inAdj_of_get ho, inSet_set]
    by_cases hl' : l = l'
    · subst hl'
      rw [if_pos rfl, PySet.mem_remove, inSet_iff_mem hl]
      simp
    · rw [if_neg hl']
      simp [Ne.symm hl']
  · rw [if_neg hn]
    simp [Ne.symm hn]

theorem keys_cut {d : Adj} {n : String} {o o' : SetDict} (ho : d.get? n = some o) (k : String) :
    k ∈ (Dict.set d n o').keys ↔ k ∈ d.keys := by
  rw [Dict.mem_keys_set]
  constructor
  · rintro (rfl | h)
    · exact Dict.mem_keys.2 ⟨o, ho⟩
    · exact h
  · exact .inr

theorem dropEdge_spec {s d l : String} {g : CFrame} (h : f.dropEdge s d l = .ok g) : Cuts f g (fun e => e = (s, d, l)) := by
  unfold dropEdge at h
  simp only [exBind_ok, getE_ok, removeE_ok] at h
  obtain ⟨o, ho, ds, hds, ds', ⟨_, rfl⟩, i, hi, ss, hss, ss', ⟨_, rfl⟩, h⟩ := h
  cases h
  refine ⟨rfl, keys_cut hi, keys_cut ho, ?_, ?_⟩
  · intro s' d' l'
    rw [inAdj_cut ho hds]
    simp only [Prod.mk.injEq]
    constructor <;> rintro ⟨h1, h2⟩ <;> exact ⟨h1, fun h3 => h2 ⟨h3.1, h3.2.2, h3.2.1⟩⟩
  · intro s' d' l'
    rw [inAdj_cut hi hss]
    simp only [Prod.mk.injEq]
    constructor
    · rintro ⟨h1, h2⟩; exact ⟨h1, fun h3 => h2 ⟨h3.2.1, h3.2.2, h3.1⟩⟩
    · rintro ⟨h1, h2⟩; exact ⟨h1, fun h3 => h2 ⟨h3.2.2, h3.1, h3.2.1⟩⟩

theorem dropEdge_total {s d l : String} (h1 : InAdj f.out s l d) (h2 : InAdj f.inp d l s) : ∃ g, f.dropEdge s d l = .ok g := by
  obtain ⟨o, ho, ds, hds, hd⟩ := h1
  obtain ⟨i, hi, ss, hss, hs⟩ := h2
  unfold dropEdge
  simp only [getE_ok.2 ho, getE_ok.2 hds, removeE_ok.2 ⟨hd, rfl⟩, getE_ok.2 hi, getE_ok.2 hss, removeE_ok.2 ⟨hs, rfl⟩, bind, Except.bind]
  exact ⟨_, rfl⟩

theorem Cuts.trans {f g k : CFrame} {E F : String × String × String → Prop} (h : Cuts f g E) (h' : Cuts g k F) :
    Cuts f k (fun e => E e ∨ F e) := by
  refine ⟨by rw [h'.rest, h.rest], fun n => (h'.inpKey n).trans (h.inpKey n), fun n => (h'.outKey n).trans (h.outKey n), ?_, ?_⟩
  · intro s d l; rw [h'.out, h.out, and_assoc, not_or]
  · intro s d l; rw [h'.inp, h.inp, and_assoc, not_or]

theorem dropEdges_spec {es : List (String × String × String)} : ∀ {f : CFrame} {g : CFrame},
    es.foldlM (fun f e => f.dropEdge e.1 e.2.1 e.2.2) f = .ok g → Cuts f g (fun e => e ∈ es) := by
  induction es with
  | nil =>
    intro f g h
    cases h
    exact ⟨rfl, fun _ => Iff.rfl, fun _ => Iff.rfl, by simp, by simp⟩
  | cons e es ih =>
    intro f g h
    rw [List.foldlM_cons, exBind_ok] at h
    obtain ⟨k, hk, h⟩ := h
    have := (dropEdge_spec hk).trans (ih h)
    refine ⟨this.rest, this.inpKey, this.outKey, ?_, ?_⟩
    · intro s d l; rw [this.out, List.mem_cons]
    · intro s d l; rw [this.inp, List.mem_cons]

theorem dropEdges_total {es : List (String × String × String)} : ∀ {f : CFrame}, es.Nodup →
    (∀ e ∈ es, InAdj f.out e.1 e.2.2 e.2.1 ∧ InAdj f.inp e.2.1 e.2.2 e.1) →
    ∃ g, es.foldlM (fun f e => f.dropEdge e.1 e.2.1 e.2.2) f = .ok g := by
  induction es with
  | nil => intro f _ _; exact ⟨f, rfl⟩
  | cons e es ih =>
    intro f hn he
    obtain ⟨k, hk⟩ := dropEdge_total (he e (by simp)).1 (he e (by simp)).2
    have hc := dropEdge_spec hk
    rw [List.nodup_cons] at hn
    obtain ⟨g, hg⟩ := ih (f := k) hn.2 (by
      intro e' he'
      have hne : e' ≠ e := by rintro rfl; exact hn.1 he'
      rw [hc.out, hc.inp]
      exact ⟨⟨(he e' (by simp [he'])).1, hne⟩, (he e' (by simp [he'])).2, hne⟩)
    exact ⟨g, by rw [List.foldlM_cons, hk]; exact hg⟩

/-- The edges at `n`. -/
def At (n : String) (e : String × String × String) : Prop := e.1 = n ∨ e.2.1 = n

theorem dropEdgesAt_spec (H : GraphWf f) {n : String} {g : CFrame} (h : f.dropEdgesAt n = .ok g) : Cuts f g (At n) := by
  have hc := dropEdges_spec h
  have hmem : ∀ s d l, InAdj f.out s l d → (¬ (s, d, l) ∈ f.edges.filter (fun e => decide (e.1 = n ∨ e.2.1 = n)) ↔ ¬ At n (s, d, l)) := by
    intro s d l he
    rw [List.mem_filter, decide_eq_true_eq, mem_edges]
    simp [At, HasEdge, he]
  refine ⟨hc.rest, hc.inpKey, hc.outKey, ?_, ?_⟩
  · intro s d l
    rw [hc.out]
    exact ⟨fun h => ⟨h.1, (hmem s d l h.1).1 h.2⟩, fun h => ⟨h.1, (hmem s d l h.1).2 h.2⟩⟩
  · intro s d l
    rw [hc.inp]
    exact ⟨fun h => ⟨h.1, (hmem s d l ((H.sym s d l).2 h.1)).1 h.2⟩, fun h => ⟨h.1, (hmem s d l ((H.sym s d l).2 h.1)).2 h.2⟩⟩

theorem nodup_edges : f.edges.Nodup := PySet.nodup_ofList _

theorem dropEdgesAt_total (H : GraphWf f) (n : String) : ∃ g, f.dropEdgesAt n = .ok g := by
  apply dropEdges_total (nodup_edges.filter _)
  intro e he
  have := mem_edges'.1 (List.mem_filter.1 he).1
  exact ⟨this, (H.sym _ _ _).1 this⟩

theorem Wf.cuts (H : Wf R f) {g : CFrame} {E : String × String × String → Prop} (h : Cuts f g E) : Wf R g := by
  obtain ⟨rest, ik, ok, ho, hi⟩ := h
  have e1 : g.vs = f.vs := by rw [rest]
  have e2 : g.refs = f.refs := by rw [rest]
  have e3 : g.fs = f.fs := by rw [rest]
  have e4 : g.calls = f.calls := by rw [rest]
  have e5 : g.callinv = f.callinv := by rw [rest]
  have e6 : g.creator = f.creator := by rw [rest]
  have e7 : g.consumers = f.consumers := by rw [rest]
  have e8 : g.refinv = f.refinv := by rw [rest]
  constructor
  · constructor <;> simp only [IsVar, IsFunc, e1, e3, ik, ok, ho, hi]
    · exact H.graph.disj
    · exact H.graph.inpKey
    · exact H.graph.outKey
    · intro s d l; rw [H.graph.sym]
    · intro s d l h; exact H.graph.bip s d l h.1
  · exact H.ref.congr e1 e8 e2
  · constructor <;> simp only [HasCall, e3, e4, e5]
    · exact H.call.callinv
    · exact H.call.callinvKey
    · exact H.call.calls
    · exact H.call.callOk
  · simp only [Tracks, HasCall, HasRef, hi, e1, e3, e4, e7]
    exact fun n c p v hp ht => H.ins n c p v hp ⟨ht.1, ht.2.1, ht.2.2.1⟩
  · simp only [Tracks, HasCall, HasRef, ho, e1, e3, e4, e6]
    exact fun n c p v hp ht => H.outs n c p v hp ⟨ht.1, ht.2.1, ht.2.2.1⟩
  · simp only [HasRef, e1, e4, e6]; exact H.creator
  · simp only [HasRef, e1, e7]; exact H.consumersKey
  · simp only [e4, e7]; exact H.consumers

/-! ### refs -/

/-- No call keeps the value `h` in the variable `v`. -/
def Loose (f : CFrame) (v h : String) : Prop :=
  (∀ n c p, p ∈ c.inputs → Tracks f.inp f n c p v → p.2.hid ≠ h) ∧ (∀ n c p, p ∈ c.outputs → Tracks f.out f n c p v → p.2.hid ≠ h)

/-- `g` is `f` without the value `h` in `v`; graph and calls are untouched. -/
structure Sheds (f g : CFrame) (v h : String) : Prop where
  inp : g.inp = f.inp
  out : g.out = f.out
  fs : g.fs = f.fs
  calls : g.calls = f.calls
  callinv : g.callinv = f.callinv
  keys : ∀ w, g.IsVar w ↔ f.IsVar w
  vs : ∀ w x, g.HasRef w x ↔ f.HasRef w x ∧ ¬ (w = v ∧ x = h)

theorem vs_shed {vs : SetDict} {v h : String} {s : List String} (hs : vs.get? v = some s) (w x : String) :
    InSet (vs.set v (PySet.remove s h)) w x ↔ InSet vs w x ∧ ¬ (w = v ∧ x = h) := by
  rw [inSet_set]
  split
  · rename_i e
    subst e
    simp [inSet_iff_mem hs]
  · rename_i e
    simp [Ne.symm e]

theorem keys_shed {vs : SetDict} {v : String} {s s' : List String} (hs : vs.get? v = some s) (w : String) :
    w ∈ (Dict.set vs v s').keys ↔ w ∈ vs.keys := by
  rw [Dict.mem_keys_set]
  constructor
  · rintro (rfl | h)
    · exact Dict.mem_keys.2 ⟨s, hs⟩
    · exact h
  · exact .inr

theorem wf_dropRef (H : Wf R f) {v h : String} {g : CFrame} (hg : f.dropRef v h = .ok g) (hl : Loose f v h) : Wf R g ∧ Sheds f g v h := by
  unfold dropRef at hg
  simp only [exBind_ok, getE_ok, removeE_ok] at hg
  obtain ⟨s, hs, s', ⟨hm, rfl⟩, iv, hiv, hg⟩ := hg
  have hvh : f.HasRef v h := ⟨s, hs, hm⟩
  have hiv' : ∀ w, w ∈ iv ↔ f.HasRef w h := fun w => by rw [← H.ref.refinv, inSet_iff_mem hiv]
  have hshed := vs_shed (h := h) hs
  split at hg
  · rename_i h1
    obtain ⟨x, hx⟩ := setLen_one.1 h1
    have hxv : x = v := ((hx v).1 ((hiv' v).2 hvh)).symm
    subst hxv
    have honly : ∀ w, f.HasRef w h → w = x := fun w hw => (hx w).1 ((hiv' w).2 hw)
    simp only [exBind_ok, delE_ok] at hg
    obtain ⟨refs, ⟨hrk, rfl⟩, hg⟩ := hg
    cases hg
    have hex : ∀ y, (∃ w, InSet f.vs w y ∧ ¬ (w = x ∧ y = h)) ↔ y ≠ h ∧ ∃ w, InSet f.vs w y := by
      intro y
      constructor
      · rintro ⟨w, hw, hn⟩
        refine ⟨?_, w, hw⟩
        rintro rfl
        exact hn ⟨honly w hw, rfl⟩
      · rintro ⟨hy, w, hw⟩
        exact ⟨w, hw, fun h => hy h.2⟩
    have hkeep : ∀ {w y}, f.HasRef w y → y ≠ h → InSet f.vs w y ∧ ¬ (w = x ∧ y = h) := fun hw hy => ⟨hw, fun h => hy h.2⟩
    have hne : ∀ {w y}, f.HasRef w y → w ≠ x → y ≠ h := by
      rintro w y hw hwx rfl
      exact hwx (honly w hw)
    refine ⟨?_, ⟨rfl, rfl, rfl, rfl, rfl, keys_shed hs, hshed⟩⟩
    constructor
    · constructor <;> simp only [IsVar, IsFunc, keys_shed hs]
      · exact H.graph.disj
      · exact H.graph.inpKey
      · exact H.graph.outKey
      · exact H.graph.sym
      · exact H.graph.bip
    · constructor <;> simp only [HasRef, hshed, hex, Dict.mem_keys_erase]
      · intro y w
        rw [inSet_erase, H.ref.refinv]
        constructor
        · rintro ⟨h1, h2⟩; exact hkeep h2 (Ne.symm h1)
        · rintro ⟨h1, h2⟩
          refine ⟨?_, h1⟩
          rintro rfl
          exact h2 ⟨honly w h1, rfl⟩
      · intro y; rw [H.ref.refinvKey]
      · intro y; rw [H.ref.refs]
      · intro y r hr
        rw [Dict.get?_erase] at hr
        split at hr
        · cases hr
        · exact H.ref.refHid y r hr
    · exact ⟨H.call.callinv, H.call.callinvKey, H.call.calls, H.call.callOk⟩
    · simp only [HasRef, hshed]
      intro n c p w hp ht
      obtain ⟨h1, h2⟩ := H.ins n c p w hp ht
      have hph : p.2.hid ≠ h := by
        intro e
        rw [e] at h1
        have := honly w h1
        subst this
        exact hl.1 n c p hp ht e
      exact ⟨hkeep h1 hph, inSet_erase.2 ⟨Ne.symm hph, h2⟩⟩
    · simp only [HasRef, hshed]
      intro n c p w hp ht
      obtain ⟨h1, h2⟩ := H.outs n c p w hp ht
      have hph : p.2.hid ≠ h := by
        intro e
        rw [e] at h1
        have := honly w h1
        subst this
        exact hl.2 n c p hp ht e
      exact ⟨hkeep h1 hph, by rw [Dict.get?_erase, if_neg (Ne.symm hph)]; exact h2⟩
    · simp only [HasRef, hshed, hex]
      intro y c hc
      rw [Dict.get?_erase] at hc
      split at hc
      · cases hc
      · rename_i hne
        obtain ⟨h1, h2⟩ := H.creator y c hc
        exact ⟨⟨Ne.symm hne, h1⟩, h2⟩
    · simp only [HasRef, hshed, hex, Dict.mem_keys_erase]
      exact fun y hy => ⟨hy.1, H.consumersKey y hy.2⟩
    · intro y c hc
      exact H.consumers y c (inSet_erase.1 hc).2
  · rename_i h1
    rw [if_pos ((hiv' v).2 hvh)] at hg
    cases hg
    -- another variable has the value as well
    obtain ⟨w0, hw0, hw0v⟩ : ∃ w, f.HasRef w h ∧ w ≠ v := by
      apply Classical.byContradiction
      intro hne
      apply h1
      rw [setLen_one]
      refine ⟨v, fun y => ?_⟩
      rw [hiv']
      constructor
      · intro hy
        apply Classical.byContradiction
        intro hyv
        exact hne ⟨y, hy, hyv⟩
      · rintro rfl; exact hvh
    have hex : ∀ y, (∃ w, InSet f.vs w y ∧ ¬ (w = v ∧ y = h)) ↔ ∃ w, InSet f.vs w y := by
      intro y
      constructor
      · rintro ⟨w, hw, _⟩; exact ⟨w, hw⟩
      · rintro ⟨w, hw⟩
        by_cases hy : w = v ∧ y = h
        · obtain ⟨rfl, rfl⟩ := hy
          exact ⟨w0, hw0, fun h => hw0v h.1⟩
        · exact ⟨w, hw, hy⟩
    refine ⟨?_, ⟨rfl, rfl, rfl, rfl, rfl, keys_shed hs, hshed⟩⟩
    constructor
    · constructor <;> simp only [IsVar, IsFunc, keys_shed hs]
      · exact H.graph.disj
      · exact H.graph.inpKey
      · exact H.graph.outKey
      · exact H.graph.sym
      · exact H.graph.bip
    · constructor <;> simp only [HasRef, hshed, hex]
      · intro y w
        rw [vs_shed hiv, H.ref.refinv]
        constructor <;> rintro ⟨h1, h2⟩ <;> exact ⟨h1, fun h => h2 ⟨h.2, h.1⟩⟩
      · intro y; rw [keys_shed hiv, H.ref.refinvKey]
      · exact H.ref.refs
      · exact H.ref.refHid
    · exact ⟨H.call.callinv, H.call.callinvKey, H.call.calls, H.call.callOk⟩
    · simp only [HasRef, hshed]
      intro n c p w hp ht
      obtain ⟨h1, h2⟩ := H.ins n c p w hp ht
      refine ⟨⟨h1, ?_⟩, h2⟩
      rintro ⟨rfl, e⟩
      exact hl.1 n c p hp ht e
    · simp only [HasRef, hshed]
      intro n c p w hp ht
      obtain ⟨h1, h2⟩ := H.outs n c p w hp ht
      refine ⟨⟨h1, ?_⟩, h2⟩
      rintro ⟨rfl, e⟩
      exact hl.2 n c p hp ht e
    · simp only [HasRef, hshed, hex]; exact H.creator
    · simp only [HasRef, hshed, hex]; exact H.consumersKey
    · exact H.consumers

theorem dropRef_total (H : RefWf f) {v h : String} (hv : f.HasRef v h) : ∃ g, f.dropRef v h = .ok g := by
  have hv' := hv
  obtain ⟨s, hs, hm⟩ := hv
  obtain ⟨iv, hiv⟩ := Dict.mem_keys.1 ((H.refinvKey h).2 ⟨v, hv'⟩)
  have hk := (H.refs h).2 ⟨v, hv'⟩
  unfold dropRef
  simp only [getE_ok.2 hs, removeE_ok.2 ⟨hm, rfl⟩, getE_ok.2 hiv, bind, Except.bind]
  split
  · rw [delE_ok.2 ⟨hk, rfl⟩]; exact ⟨_, rfl⟩
  · split <;> exact ⟨_, rfl⟩

theorem dropRefs_spec {v : String} {hs : List String} : ∀ {f : CFrame}, Wf R f → hs.Nodup → (∀ h ∈ hs, f.HasRef v h) →
    (∀ h ∈ hs, Loose f v h) → ∃ g, hs.foldlM (fun f h => f.dropRef v h) f = .ok g ∧ Wf R g ∧
      g.inp = f.inp ∧ g.out = f.out ∧ g.fs = f.fs ∧ g.calls = f.calls ∧ (∀ w, g.IsVar w ↔ f.IsVar w) ∧
      ∀ w x, g.HasRef w x ↔ f.HasRef w x ∧ ¬ (w = v ∧ x ∈ hs) := by
  induction hs with
  | nil => intro f H _ _ _; exact ⟨f, rfl, H, rfl, rfl, rfl, rfl, fun _ => Iff.rfl, by simp⟩
  | cons h hs ih =>
    intro f H hn hr hl
    obtain ⟨g, hg⟩ := dropRef_total H.ref (hr h (by simp))
    obtain ⟨hw, sh⟩ := wf_dropRef H hg (hl h (by simp))
    rw [List.nodup_cons] at hn
    obtain ⟨k, hk, kw, k1, k2, k3, k4, k5, k6⟩ := ih hw hn.2 (by
        intro x hx
        rw [sh.vs]
        refine ⟨hr x (by simp [hx]), ?_⟩
        rintro ⟨_, rfl⟩
        exact hn.1 hx) (by
        intro x hx
        have := hl x (by simp [hx])
        simp only [Loose, Tracks, HasCall, sh.inp, sh.out, sh.fs, sh.calls] at this ⊢
        exact this)
    refine ⟨k, ?_, kw, k1.trans sh.inp, k2.trans sh.out, k3.trans sh.fs, k4.trans sh.calls, fun w => (k5 w).trans (sh.keys w), ?_⟩
    · rw [List.foldlM_cons, hg]
      exact hk
    · intro w x
      rw [k6, sh.vs, and_assoc]
      simp only [List.mem_cons]
      constructor
      · rintro ⟨h1, h2, h3⟩
        refine ⟨h1, ?_⟩
        rintro ⟨rfl, rfl | hx⟩
        · exact h2 ⟨rfl, rfl⟩
        · exact h3 ⟨rfl, hx⟩
      · rintro ⟨h1, h2⟩
        exact ⟨h1, fun h3 => h2 ⟨h3.1, .inl h3.2⟩, fun h3 => h2 ⟨h3.1, .inr h3.2⟩⟩

/-! ### variables -/

/-- Removing a variable that is empty and isolated. -/
theorem wf_eraseVar (H : Wf R f) {v : String} (hv : f.IsVar v) (he : ∀ h, ¬ f.HasRef v h) (hedge : ∀ s d l, f.HasEdge s d l → s ≠ v ∧ d ≠ v) :
    Wf R { f with vs := f.vs.erase v, inp := f.inp.erase v, out := f.out.erase v } := by
  have hi : ∀ {n l m}, InAdj (f.inp.erase v) n l m ↔ InAdj f.inp n l m := by
    intro n l m
    rw [inAdj_erase]
    constructor
    · exact fun h => h.2
    · intro h
      exact ⟨fun e => (hedge m n l ((H.graph.sym m n l).2 h)).2 e.symm, h⟩
  have ho : ∀ {n l m}, InAdj (f.out.erase v) n l m ↔ InAdj f.out n l m := by
    intro n l m
    rw [inAdj_erase]
    constructor
    · exact fun h => h.2
    · intro h
      exact ⟨fun e => (hedge n m l h).1 e.symm, h⟩
  have hs : ∀ {n m}, InSet (f.vs.erase v) n m ↔ InSet f.vs n m := by
    intro n m
    rw [inSet_erase]
    constructor
    · exact fun h => h.2
    · intro h
      refine ⟨?_, h⟩
      rintro rfl
      exact he m h
  constructor
  · constructor <;> simp only [IsVar, IsFunc, hi, ho, Dict.mem_keys_erase]
    · exact fun n h => H.graph.disj n h.2
    · intro n
      rw [H.graph.inpKey]
      constructor
      · rintro ⟨h1, h2 | h2⟩
        · exact .inl ⟨h1, h2⟩
        · exact .inr h2
      · rintro (h | h)
        · exact ⟨h.1, .inl h.2⟩
        · refine ⟨?_, .inr h⟩
          rintro rfl
          exact H.graph.disj _ hv h
    · intro n
      rw [H.graph.outKey]
      constructor
      · rintro ⟨h1, h2 | h2⟩
        · exact .inl ⟨h1, h2⟩
        · exact .inr h2
      · rintro (h | h)
        · exact ⟨h.1, .inl h.2⟩
        · refine ⟨?_, .inr h⟩
          rintro rfl
          exact H.graph.disj _ hv h
    · exact H.graph.sym
    · intro s d l h
      rcases H.graph.bip s d l h with h' | h'
      · exact .inl ⟨⟨(hedge s d l h).1, h'.1⟩, h'.2⟩
      · exact .inr ⟨h'.1, (hedge s d l h).2, h'.2⟩
  · constructor <;> simp only [HasRef, hs]
    · exact H.ref.refinv
    · exact H.ref.refinvKey
    · exact H.ref.refs
    · exact H.ref.refHid
  · exact ⟨H.call.callinv, H.call.callinvKey, H.call.calls, H.call.callOk⟩
  · simp only [Tracks, HasRef, hi, hs]; exact H.ins
  · simp only [Tracks, HasRef, ho, hs]; exact H.outs
  · simp only [HasRef, hs]; exact H.creator
  · simp only [HasRef, hs]; exact H.consumersKey
  · exact H.consumers

/-- A variable can always be dropped, and exactly its values and edges go with it. -/
theorem dropVar_spec (H : Wf R f) {v : String} (hv : f.IsVar v) : ∃ g, f.dropVar v = .ok g ∧ Wf R g ∧
    (∀ w, g.IsVar w ↔ f.IsVar w ∧ w ≠ v) ∧ (∀ n, g.IsFunc n ↔ f.IsFunc n) ∧
    (∀ w h, g.HasRef w h ↔ f.HasRef w h ∧ w ≠ v) ∧ (∀ n h, g.HasCall n h ↔ f.HasCall n h) ∧
    (∀ s d l, g.HasEdge s d l ↔ f.HasEdge s d l ∧ s ≠ v ∧ d ≠ v) ∧ g.calls = f.calls := by
  obtain ⟨f1, h1⟩ := dropEdgesAt_total H.graph v
  have c1 := dropEdgesAt_spec H.graph h1
  have w1 := H.cuts c1
  have e1 : f1.vs = f.vs := by rw [c1.rest]
  have e2 : f1.fs = f.fs := by rw [c1.rest]
  have e3 : f1.calls = f.calls := by rw [c1.rest]
  obtain ⟨s, hs⟩ := Dict.mem_keys.1 hv
  have hs1 : f1.vs.get? v = some s := by rw [e1]; exact hs
  have hno : ∀ n l, ¬ InAdj f1.inp n l v ∧ ¬ InAdj f1.out n l v := by
    intro n l
    rw [c1.inp, c1.out]
    exact ⟨fun h => h.2 (.inl rfl), fun h => h.2 (.inr rfl)⟩
  obtain ⟨f2, h2, w2, k1, k2, k3, k4, k5, k6⟩ := dropRefs_spec (v := v) (hs := PySet.ofList s) w1 (PySet.nodup_ofList s)
    (fun h hh => ⟨s, hs1, PySet.mem_ofList.1 hh⟩) (fun h _ => ⟨fun n c p _ ht => absurd ht.2.2 (hno n _).1, fun n c p _ ht => absurd ht.2.2 (hno n _).2⟩)
  have hv2 : f2.IsVar v := (k5 v).2 (by rw [IsVar, e1]; exact hv)
  have hg : f.dropVar v = .ok { f2 with vs := f2.vs.erase v, inp := f2.inp.erase v, out := f2.out.erase v } := by
    unfold dropVar
    rw [h1]
    simp only [bind, Except.bind, getE_ok.2 hs1, h2, delE_ok.2 ⟨hv2, rfl⟩, delE_ok.2 ⟨(w2.graph.inpKey v).2 (.inl hv2), rfl⟩,
      delE_ok.2 ⟨(w2.graph.outKey v).2 (.inl hv2), rfl⟩]
  have hempty : ∀ h, ¬ f2.HasRef v h := by
    intro h hh
    rw [k6] at hh
    exact hh.2 ⟨rfl, PySet.mem_ofList.2 ((inSet_iff_mem hs1).1 hh.1)⟩
  have hedge : ∀ s d l, f2.HasEdge s d l → s ≠ v ∧ d ≠ v := by
    intro s d l h
    rw [HasEdge, k2, c1.out] at h
    exact ⟨fun e => h.2 (.inl e), fun e => h.2 (.inr e)⟩
  refine ⟨_, hg, wf_eraseVar w2 hv2 hempty hedge, ?_, ?_, ?_, ?_, ?_, ?_⟩
  · intro w
    simp only [IsVar, Dict.mem_keys_erase]
    rw [show w ∈ f2.vs.keys ↔ w ∈ f.vs.keys from (k5 w).trans (by rw [IsVar, e1])]
    exact And.comm
  · intro n
    simp only [IsFunc, k3, e2]
  · intro w h
    simp only [HasRef, inSet_erase]
    rw [show InSet f2.vs w h ↔ _ from k6 w h, HasRef, e1]
    constructor
    · rintro ⟨h1, h2, _⟩; exact ⟨h2, Ne.symm h1⟩
    · rintro ⟨h1, h2⟩; exact ⟨Ne.symm h2, h1, fun h => h2 h.1⟩
  · intro n h
    simp only [HasCall, k3, e2]
  · intro s d l
    simp only [HasEdge, inAdj_erase]
    rw [k2, c1.out]
    constructor
    · rintro ⟨h1, h2, h3⟩; exact ⟨h2, fun e => h3 (.inl e), fun e => h3 (.inr e)⟩
    · rintro ⟨h1, h2, h3⟩
      refine ⟨Ne.symm h2, h1, ?_⟩
      rintro (h | h)
      · exact h2 h
      · exact h3 h
  · exact k4.trans e3

end CFrame
end Verif
