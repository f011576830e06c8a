import Verif.Proofs.CFrameDrop
/-!
Dropping functions.
-/
namespace Verif

open Props

namespace CFrame

variable {R : FCall → Prop} {f : CFrame}

theorem delCreators {rs : List FRef} : ∀ {cr cr' : Dict String String}, rs.foldlM (fun cr r => delE cr r.hid) cr = .ok cr' →
    ∀ h, cr'.get? h = if h ∈ rs.map (·.hid) then none else cr.get? h := by
  induction rs with
  | nil => intro cr cr' h; cases h; simp
  | cons r rs ih =>
    intro cr cr' h x
    rw [List.foldlM_cons, exBind_ok] at h
    obtain ⟨c1, h1, h⟩ := h
    rw [delE_ok] at h1
    rw [ih h x, h1.2, Dict.get?_erase]
    by_cases h3 : r.hid = x
    · simp [h3]
    · simp [h3, Ne.symm h3]

theorem dropConsumer_spec {h : String} {r : FRef} {cons cons' : SetDict} (e : dropConsumer h cons r = .ok cons') :
    (∀ y x, InSet cons' y x ↔ InSet cons y x ∧ ¬ (x = h ∧ y = r.hid)) ∧ ∀ y, y ∈ cons'.keys → y ∈ cons.keys := by
  unfold dropConsumer at e
  cases hc : cons.get? r.hid with
  | none =>
    rw [hc] at e
    cases e
    refine ⟨?_, fun _ h => h⟩
    intro y x
    constructor
    · intro hy
      refine ⟨hy, ?_⟩
      rintro ⟨_, rfl⟩
      exact Dict.get?_eq_none.1 hc hy.key
    · exact fun h => h.1
  | some s =>
    rw [hc] at e
    simp only [exBind_ok, removeE_ok] at e
    obtain ⟨s', ⟨hm, rfl⟩, e⟩ := e
    split at e
    · rename_i he
      cases e
      refine ⟨?_, fun y hy => (Dict.mem_keys_erase.1 hy).2⟩
      intro y x
      rw [inSet_erase]
      constructor
      · rintro ⟨h1, h2⟩; exact ⟨h2, fun h => h1 h.2.symm⟩
      · rintro ⟨h1, h2⟩
        refine ⟨?_, h1⟩
        rintro rfl
        rw [inSet_iff_mem hc] at h1
        have : x ∈ PySet.remove s h := PySet.mem_remove.2 ⟨h1, fun e => h2 ⟨e, rfl⟩⟩
        rw [he] at this
        cases this
    · cases e
      refine ⟨?_, fun y hy => (keys_shed hc y).1 hy⟩
      intro y x
      rw [vs_shed hc]
      constructor <;> rintro ⟨h1, h2⟩ <;> exact ⟨h1, fun h => h2 ⟨h.2, h.1⟩⟩

theorem dropConsumers_spec {h : String} {rs : List FRef} : ∀ {cons cons' : SetDict}, rs.foldlM (dropConsumer h) cons = .ok cons' →
    (∀ y x, InSet cons' y x ↔ InSet cons y x ∧ ¬ (x = h ∧ y ∈ rs.map (·.hid))) ∧ ∀ y, y ∈ cons'.keys → y ∈ cons.keys := by
  induction rs with
  | nil => intro cons cons' e; cases e; simp
  | cons r rs ih =>
    intro cons cons' e
    rw [List.foldlM_cons, exBind_ok] at e
    obtain ⟨c1, h1, e⟩ := e
    obtain ⟨a1, a2⟩ := dropConsumer_spec h1
    obtain ⟨b1, b2⟩ := ih e
    refine ⟨?_, fun y hy => a2 y (b2 y hy)⟩
    intro y x
    rw [b1, a1, List.map_cons, List.mem_cons, and_assoc]
    constructor
    · rintro ⟨h1, h2, h3⟩
      refine ⟨h1, ?_⟩
      rintro ⟨rfl, h | h⟩
      · exact h2 ⟨rfl, h⟩
      · exact h3 ⟨rfl, h⟩
    · rintro ⟨h1, h2⟩
      exact ⟨h1, fun h => h2 ⟨h.1, .inl h.2⟩, fun h => h2 ⟨h.1, .inr h.2⟩⟩

/-- The frame with the function `n` having just the calls `rest`: what the loop of `drop_func` works towards. -/
def only (f : CFrame) (n : String) (rest : List String) : CFrame := { f with fs := f.fs.set n rest }

theorem mem_vals_hid {io : Dict String FRef} {h : String} : h ∈ io.vals.map (·.hid) ↔ ∃ p ∈ io, p.2.hid = h := by
  simp [Dict.vals]

/-- One round of the loop of `drop_func`. -/
theorem dropCall_spec (hR : RecOk R) {n h : String} {rest : List String} (H : Wf R (only f n (h :: rest))) (hn : h ∉ rest)
    (hlow : ∀ l v, ¬ InAdj f.inp n l v ∧ ¬ InAdj f.out n l v) {g : CFrame} (hg : f.dropCall n h = .ok g) :
    Wf R (only g n rest) ∧ g.fs = f.fs ∧ g.inp = f.inp ∧ g.out = f.out ∧ g.vs = f.vs := by
  have hfs : ∀ m x, InSet (f.fs.set n (h :: rest)) m x ↔ InSet (f.fs.set n rest) m x ∨ (m = n ∧ x = h) := by
    intro m x
    rw [inSet_set, inSet_set]
    split
    · rename_i e
      subst e
      simp [or_comm]
    · rename_i e
      simp [Ne.symm e]
  have hfk : ∀ m, m ∈ (f.fs.set n (h :: rest)).keys ↔ m ∈ (f.fs.set n rest).keys := by
    intro m; rw [Dict.mem_keys_set, Dict.mem_keys_set]
  have hnot : ¬ InSet (f.fs.set n rest) n h := by rw [inSet_set, if_pos rfl]; exact hn
  have hH : (only f n (h :: rest)).HasCall n h := (hfs n h).2 (.inr ⟨rfl, rfl⟩)
  unfold dropCall at hg
  rw [exBind_ok] at hg
  obtain ⟨iv, hiv, hg⟩ := hg
  rw [getE_ok] at hiv
  have hiv' : ∀ m, m ∈ iv ↔ (only f n (h :: rest)).HasCall m h := fun m => by
    rw [← H.call.callinv]
    exact (inSet_iff_mem hiv).symm
  split at hg
  · rename_i h1
    obtain ⟨x, hx⟩ := setLen_one.1 h1
    have hxn : x = n := ((hx n).1 ((hiv' n).2 hH)).symm
    subst hxn
    have honly : ∀ m, ¬ InSet (f.fs.set x rest) m h := by
      intro m hm
      have := (hx m).1 ((hiv' m).2 ((hfs m h).2 (.inl hm)))
      subst this
      exact hnot hm
    simp only [exBind_ok, getE_ok] at hg
    obtain ⟨c, hc, cr, hcr, cons, hcons, hg⟩ := hg
    cases hg
    obtain ⟨hch, hRc⟩ := H.call.callOk h c hc
    have kcr := delCreators hcr
    obtain ⟨kcons, kck⟩ := dropConsumers_spec hcons
    simp only [mem_vals_hid] at kcr kcons
    have hex : ∀ y, (∃ m, InSet (f.fs.set x (h :: rest)) m y) ↔ y = h ∨ ∃ m, InSet (f.fs.set x rest) m y := by
      intro y
      simp only [hfs]
      constructor
      · rintro ⟨m, hm | ⟨_, rfl⟩⟩
        · exact .inr ⟨m, hm⟩
        · exact .inl rfl
      · rintro (rfl | ⟨m, hm⟩)
        · exact ⟨x, .inr ⟨rfl, rfl⟩⟩
        · exact ⟨m, .inl hm⟩
    have hkey : ∀ {K : Prop} {y : String}, (K ↔ ∃ m, InSet (f.fs.set x (h :: rest)) m y) → ((y ≠ h ∧ K) ↔ ∃ m, InSet (f.fs.set x rest) m y) := by
      intro K y hK
      rw [hK, hex]
      constructor
      · rintro ⟨h1, h2 | h2⟩
        · exact absurd h2 h1
        · exact h2
      · rintro ⟨m, hm⟩
        refine ⟨?_, .inr ⟨m, hm⟩⟩
        rintro rfl
        exact honly m hm
    have hcallne : ∀ {y : String} {c' : FCall}, f.calls.get? y = some c' → y ≠ h → (f.calls.erase h).get? y = some c' := by
      intro y c' h1 h2
      rw [Dict.get?_erase, if_neg (Ne.symm h2)]; exact h1
    refine ⟨?_, rfl, rfl, rfl, rfl⟩
    constructor
    · have := H.graph
      exact ⟨fun m h1 h2 => this.disj m h1 ((hfk m).2 h2), fun m => (this.inpKey m).trans (or_congr Iff.rfl (hfk m)),
        fun m => (this.outKey m).trans (or_congr Iff.rfl (hfk m)), this.sym,
        fun s d l he => (this.bip s d l he).imp (fun h => ⟨h.1, (hfk _).1 h.2⟩) (fun h => ⟨(hfk _).1 h.1, h.2⟩)⟩
    · exact ⟨H.ref.refinv, H.ref.refinvKey, H.ref.refs, H.ref.refHid⟩
    · constructor
      · intro y m
        have := H.call.callinv y m
        simp only [only, HasCall, hfs] at this ⊢
        rw [inSet_erase, this]
        constructor
        · rintro ⟨h1, h2 | ⟨_, h2⟩⟩
          · exact h2
          · exact absurd h2.symm h1
        · intro h1
          refine ⟨?_, .inl h1⟩
          rintro rfl
          exact honly m h1
      · intro y
        have := H.call.callinvKey y
        simp only [only, HasCall] at this ⊢
        rw [Dict.mem_keys_erase]
        exact hkey this
      · intro y
        have := H.call.calls y
        simp only [only, HasCall] at this ⊢
        rw [Dict.mem_keys_erase]
        exact hkey this
      · intro y c' hc'
        simp only [only] at hc' ⊢
        rw [Dict.get?_erase] at hc'
        split at hc'
        · cases hc'
        · exact H.call.callOk y c' hc'
    · rintro m c' p v hp ⟨h1, h2, h3⟩
      simp only [only, HasCall] at h1 h2 h3 ⊢
      rw [Dict.get?_erase] at h2
      split at h2
      · cases h2
      · rename_i hne
        have := H.ins m c' p v hp ⟨(hfs m _).2 (.inl h1), h2, h3⟩
        refine ⟨this.1, (kcons _ _).2 ⟨this.2, fun h => hne h.1.symm⟩⟩
    · rintro m c' p v hp ⟨h1, h2, h3⟩
      simp only [only, HasCall] at h1 h2 h3 ⊢
      rw [Dict.get?_erase] at h2
      split at h2
      · cases h2
      · rename_i hne
        have := H.outs m c' p v hp ⟨(hfs m _).2 (.inl h1), h2, h3⟩
        refine ⟨this.1, ?_⟩
        rw [kcr, if_neg]
        · exact this.2
        · rintro ⟨q, hq, hqp⟩
          have hR' := (H.call.callOk _ c' h2).2
          have := hR.creator c' c p q hR' hRc hp hq hqp.symm
          subst this
          exact hne hch.symm
    · intro y z hz
      simp only [only] at hz ⊢
      rw [kcr] at hz
      split at hz
      · cases hz
      · rename_i hno
        obtain ⟨h1, call, h2, h3⟩ := H.creator y z hz
        refine ⟨h1, call, hcallne h2 ?_, h3⟩
        rintro rfl
        simp only [only] at h2
        rw [hc] at h2
        cases h2
        exact hno h3
    · intro y hy
      exact H.consumersKey y (kck y hy)
    · intro y z hz
      simp only [only] at hz ⊢
      rw [kcons] at hz
      obtain ⟨call, h2, h3⟩ := H.consumers y z hz.1
      refine ⟨call, hcallne h2 ?_, h3⟩
      rintro rfl
      simp only [only] at h2
      rw [hc] at h2
      cases h2
      exact hz.2 ⟨rfl, h3⟩
  · rename_i h1
    simp only [exBind_ok, removeE_ok] at hg
    obtain ⟨iv', ⟨hm, rfl⟩, hg⟩ := hg
    cases hg
    obtain ⟨m0, hm0⟩ : ∃ m, InSet (f.fs.set n rest) m h := by
      apply Classical.byContradiction
      intro hne
      apply h1
      rw [setLen_one]
      refine ⟨n, fun y => ?_⟩
      rw [hiv']
      constructor
      · intro hy
        rcases (hfs y h).1 hy with h2 | h2
        · exact absurd ⟨y, h2⟩ hne
        · exact h2.1
      · rintro rfl; exact hH
    have hex : ∀ y, (∃ m, InSet (f.fs.set n (h :: rest)) m y) ↔ ∃ m, InSet (f.fs.set n rest) m y := by
      intro y
      simp only [hfs]
      constructor
      · rintro ⟨m, hm | ⟨_, rfl⟩⟩
        · exact ⟨m, hm⟩
        · exact ⟨m0, hm0⟩
      · rintro ⟨m, hm⟩
        exact ⟨m, .inl hm⟩
    refine ⟨?_, rfl, rfl, rfl, rfl⟩
    constructor
    · have := H.graph
      exact ⟨fun m h1 h2 => this.disj m h1 ((hfk m).2 h2), fun m => (this.inpKey m).trans (or_congr Iff.rfl (hfk m)),
        fun m => (this.outKey m).trans (or_congr Iff.rfl (hfk m)), this.sym,
        fun s d l he => (this.bip s d l he).imp (fun h => ⟨h.1, (hfk _).1 h.2⟩) (fun h => ⟨(hfk _).1 h.1, h.2⟩)⟩
    · exact ⟨H.ref.refinv, H.ref.refinvKey, H.ref.refs, H.ref.refHid⟩
    · constructor
      · intro y m
        have := H.call.callinv y m
        simp only [only, HasCall, hfs] at this ⊢
        rw [vs_shed hiv, this]
        constructor
        · rintro ⟨h1 | h1, h2⟩
          · exact h1
          · exact absurd ⟨h1.2, h1.1⟩ h2
        · intro h1
          refine ⟨.inl h1, ?_⟩
          rintro ⟨rfl, rfl⟩
          exact hnot h1
      · intro y
        have := H.call.callinvKey y
        simp only [only, HasCall] at this ⊢
        rw [keys_shed hiv, ← hex]
        exact this
      · intro y
        have := H.call.calls y
        simp only [only, HasCall] at this ⊢
        rw [← hex]
        exact this
      · exact H.call.callOk
    · rintro m c' p v hp ⟨h1, h2, h3⟩
      exact H.ins m c' p v hp ⟨(hfs m _).2 (.inl h1), h2, h3⟩
    · rintro m c' p v hp ⟨h1, h2, h3⟩
      exact H.outs m c' p v hp ⟨(hfs m _).2 (.inl h1), h2, h3⟩
    · exact H.creator
    · exact H.consumersKey
    · exact H.consumers

theorem dropCalls_spec (hR : RecOk R) {n : String} {rest : List String} : ∀ {f g : CFrame}, Wf R (only f n rest) → rest.Nodup →
    (∀ l v, ¬ InAdj f.inp n l v ∧ ¬ InAdj f.out n l v) → rest.foldlM (fun f h => f.dropCall n h) f = .ok g →
    Wf R (only g n []) ∧ g.fs = f.fs ∧ g.inp = f.inp ∧ g.out = f.out ∧ g.vs = f.vs := by
  induction rest with
  | nil => intro f g H _ _ h; cases h; exact ⟨H, rfl, rfl, rfl, rfl⟩
  | cons h rest ih =>
    intro f g H hn hlow hg
    rw [List.foldlM_cons, exBind_ok] at hg
    obtain ⟨k, hk, hg⟩ := hg
    rw [List.nodup_cons] at hn
    obtain ⟨wk, e1, e2, e3, e4⟩ := dropCall_spec hR H hn.1 hlow hk
    obtain ⟨wg, g1, g2, g3, g4⟩ := ih wk hn.2 (by rw [e2, e3]; exact hlow) hg
    exact ⟨wg, g1.trans e1, g2.trans e2, g3.trans e3, g4.trans e4⟩

/-- A set of calls may be listed in another order. -/
theorem wf_only_congr {n : String} {s : List String} (hs : f.fs.get? n = some s) (H : Wf R f) : Wf R (only f n (PySet.ofList s)) := by
  have hfs : ∀ {m x}, InSet (f.fs.set n (PySet.ofList s)) m x ↔ InSet f.fs m x := by
    intro m x
    rw [inSet_set]
    split
    · rename_i e
      subst e
      rw [PySet.mem_ofList, inSet_iff_mem hs]
    · rfl
  have hfk : ∀ {m}, m ∈ (f.fs.set n (PySet.ofList s)).keys ↔ m ∈ f.fs.keys := fun {m} => keys_shed hs m
  unfold only
  constructor
  · constructor <;> simp only [IsVar, IsFunc, hfk]
    · exact H.graph.disj
    · exact H.graph.inpKey
    · exact H.graph.outKey
    · exact H.graph.sym
    · exact H.graph.bip
  · exact ⟨H.ref.refinv, H.ref.refinvKey, H.ref.refs, H.ref.refHid⟩
  · constructor <;> simp only [HasCall, hfs]
    · exact H.call.callinv
    · exact H.call.callinvKey
    · exact H.call.calls
    · exact H.call.callOk
  · simp only [Tracks, HasCall, hfs]; exact H.ins
  · simp only [Tracks, HasCall, hfs]; exact H.outs
  · exact H.creator
  · exact H.consumersKey
  · exact H.consumers

/-- Removing a function that has no calls left and is isolated. -/
theorem wf_eraseFunc {n : String} (H : Wf R (only f n [])) (hn : f.IsFunc n) (hedge : ∀ s d l, f.HasEdge s d l → s ≠ n ∧ d ≠ n) :
    Wf R { f with fs := f.fs.erase n, inp := f.inp.erase n, out := f.out.erase n } := by
  have hi : ∀ {m l x}, InAdj (f.inp.erase n) m l x ↔ InAdj f.inp m l x := by
    intro m l x
    rw [inAdj_erase]
    constructor
    · exact fun h => h.2
    · intro h
      exact ⟨fun e => (hedge x m l ((H.graph.sym x m l).2 h)).2 e.symm, h⟩
  have ho : ∀ {m l x}, InAdj (f.out.erase n) m l x ↔ InAdj f.out m l x := by
    intro m l x
    rw [inAdj_erase]
    constructor
    · exact fun h => h.2
    · intro h
      exact ⟨fun e => (hedge m x l h).1 e.symm, h⟩
  have hs : ∀ {m x}, InSet (f.fs.erase n) m x ↔ InSet (f.fs.set n []) m x := by
    intro m x
    rw [inSet_erase, inSet_set]
    split <;> simp_all
  have hk : ∀ m, m ∈ (f.fs.set n []).keys ↔ m ∈ f.fs.keys := by
    intro m
    rw [Dict.mem_keys_set]
    constructor
    · rintro (rfl | h)
      · exact hn
      · exact h
    · exact .inr
  have hnv : ¬ f.IsVar n := fun h => H.graph.disj n h ((hk n).2 hn)
  unfold only at H
  constructor
  · have G := H.graph
    constructor <;> simp only [IsVar, IsFunc, hi, ho, Dict.mem_keys_erase]
    · exact fun m h h' => G.disj m h ((hk m).2 h'.2)
    · intro m
      rw [show m ∈ f.inp.keys ↔ _ from G.inpKey m]
      simp only [IsVar, IsFunc, hk]
      constructor
      · rintro ⟨h1, h2 | h2⟩
        · exact .inl h2
        · exact .inr ⟨h1, h2⟩
      · rintro (h | h)
        · refine ⟨?_, .inl h⟩
          rintro rfl
          exact hnv h
        · exact ⟨h.1, .inr h.2⟩
    · intro m
      rw [show m ∈ f.out.keys ↔ _ from G.outKey m]
      simp only [IsVar, IsFunc, hk]
      constructor
      · rintro ⟨h1, h2 | h2⟩
        · exact .inl h2
        · exact .inr ⟨h1, h2⟩
      · rintro (h | h)
        · refine ⟨?_, .inl h⟩
          rintro rfl
          exact hnv h
        · exact ⟨h.1, .inr h.2⟩
    · exact G.sym
    · intro s d l h
      have := G.bip s d l h
      simp only [IsVar, IsFunc, hk] at this
      rcases this with h' | h'
      · exact .inl ⟨h'.1, (hedge s d l h).2, h'.2⟩
      · exact .inr ⟨⟨(hedge s d l h).1, h'.1⟩, h'.2⟩
  · exact ⟨H.ref.refinv, H.ref.refinvKey, H.ref.refs, H.ref.refHid⟩
  · have C := H.call
    constructor <;> simp only [HasCall, hs]
    · exact C.callinv
    · exact C.callinvKey
    · exact C.calls
    · exact C.callOk
  · have := H.ins
    simp only [Tracks, HasCall, hi, hs]
    exact this
  · have := H.outs
    simp only [Tracks, HasCall, ho, hs]
    exact this
  · exact H.creator
  · exact H.consumersKey
  · exact H.consumers

/-- When a function can be dropped, exactly its calls and edges go with it. -/
theorem dropFunc_spec (hR : RecOk R) (H : Wf R f) {n : String} {g : CFrame} (h : f.dropFunc n = .ok g) : Wf R g ∧
    (∀ w, g.IsVar w ↔ f.IsVar w) ∧ (∀ m, g.IsFunc m ↔ f.IsFunc m ∧ m ≠ n) ∧
    (∀ w x, g.HasRef w x ↔ f.HasRef w x) ∧ (∀ m x, g.HasCall m x ↔ f.HasCall m x ∧ m ≠ n) ∧
    (∀ s d l, g.HasEdge s d l ↔ f.HasEdge s d l ∧ s ≠ n ∧ d ≠ n) := by
  unfold dropFunc at h
  simp only [exBind_ok, getE_ok, delE_ok] at h
  obtain ⟨f1, h1, s, hs, f2, h2, fs, ⟨_, rfl⟩, inp, ⟨_, rfl⟩, out, ⟨_, rfl⟩, h⟩ := h
  cases h
  have c1 := dropEdgesAt_spec H.graph h1
  have w1 := H.cuts c1
  have e1 : f1.vs = f.vs := by rw [c1.rest]
  have e2 : f1.fs = f.fs := by rw [c1.rest]
  have hlow : ∀ l v, ¬ InAdj f1.inp n l v ∧ ¬ InAdj f1.out n l v := by
    intro l v
    rw [c1.inp, c1.out]
    exact ⟨fun h => h.2 (.inr rfl), fun h => h.2 (.inl rfl)⟩
  obtain ⟨w2, k1, k2, k3, k4⟩ := dropCalls_spec hR (wf_only_congr hs w1) (PySet.nodup_ofList s) hlow h2
  have hn2 : f2.IsFunc n := by rw [IsFunc, k1]; exact Dict.mem_keys.2 ⟨s, hs⟩
  have hedge : ∀ s d l, f2.HasEdge s d l → s ≠ n ∧ d ≠ n := by
    intro s d l h
    rw [HasEdge, k3, c1.out] at h
    exact ⟨fun e => h.2 (.inl e), fun e => h.2 (.inr e)⟩
  refine ⟨wf_eraseFunc w2 hn2 hedge, ?_, ?_, ?_, ?_, ?_⟩
  · intro w; simp only [IsVar, k4, e1]
  · intro m
    simp only [IsFunc, Dict.mem_keys_erase, k1, e2]
    exact And.comm
  · intro w x; simp only [HasRef, k4, e1]
  · intro m x
    simp only [HasCall, inSet_erase, k1, e2]
    exact ⟨fun h => ⟨h.2, Ne.symm h.1⟩, fun h => ⟨Ne.symm h.2, h.1⟩⟩
  · intro s d l
    simp only [HasEdge, inAdj_erase]
    rw [k3, c1.out]
    constructor
    · rintro ⟨h1, h2, h3⟩; exact ⟨h2, fun e => h3 (.inl e), fun e => h3 (.inr e)⟩
    · rintro ⟨h1, h2, h3⟩
      refine ⟨Ne.symm h2, h1, ?_⟩
      rintro (h | h)
      · exact h2 h
      · exact h3 h

/-! ### when a function can be dropped -/

/-- The call `h` of the function can be forgotten: all its outputs have it as creator, none of its inputs is used twice by it,
and it is listed as consumer wherever consumers are listed. -/
structure Forgettable (f : CFrame) (h : String) (c : FCall) : Prop where
  outs : (c.outputs.vals.map (·.hid)).Nodup
  ins : (c.inputs.vals.map (·.hid)).Nodup
  creator : ∀ r ∈ c.outputs.vals, r.hid ∈ f.creator.keys
  consumers : ∀ r ∈ c.inputs.vals, InSet f.consumers r.hid h ∨ r.hid ∉ f.consumers.keys

theorem delCreators_total {rs : List FRef} : ∀ {cr : Dict String String}, (rs.map (·.hid)).Nodup → (∀ r ∈ rs, r.hid ∈ cr.keys) →
    ∃ cr', rs.foldlM (fun cr r => delE cr r.hid) cr = .ok cr' := by
  induction rs with
  | nil => intro cr _ _; exact ⟨cr, rfl⟩
  | cons r rs ih =>
    intro cr hn hk
    rw [List.map_cons, List.nodup_cons] at hn
    obtain ⟨cr', h'⟩ := ih (cr := cr.erase r.hid) hn.2 (by
      intro r' hr'
      rw [Dict.mem_keys_erase]
      refine ⟨?_, hk r' (.tail _ hr')⟩
      intro e
      exact hn.1 (e ▸ List.mem_map.2 ⟨r', hr', rfl⟩))
    exact ⟨cr', by rw [List.foldlM_cons, exBind_ok]; exact ⟨_, delE_ok.2 ⟨hk r (.head _), rfl⟩, h'⟩⟩

theorem dropConsumer_total {h : String} {r : FRef} {cons : SetDict} (hk : InSet cons r.hid h ∨ r.hid ∉ cons.keys) :
    ∃ cons', dropConsumer h cons r = .ok cons' := by
  unfold dropConsumer
  cases hc : cons.get? r.hid with
  | none => exact ⟨cons, rfl⟩
  | some s =>
    rcases hk with hk | hk
    · rw [inSet_iff_mem hc] at hk
      simp only [exBind_ok, removeE_ok]
      by_cases he : PySet.remove s h = []
      · exact ⟨_, _, ⟨hk, rfl⟩, if_pos he⟩
      · exact ⟨_, _, ⟨hk, rfl⟩, if_neg he⟩
    · exact absurd (Dict.mem_keys.2 ⟨s, hc⟩) hk

theorem dropConsumers_total {h : String} {rs : List FRef} : ∀ {cons : SetDict}, (rs.map (·.hid)).Nodup →
    (∀ r ∈ rs, InSet cons r.hid h ∨ r.hid ∉ cons.keys) → ∃ cons', rs.foldlM (dropConsumer h) cons = .ok cons' := by
  induction rs with
  | nil => intro cons _ _; exact ⟨cons, rfl⟩
  | cons r rs ih =>
    intro cons hn hk
    rw [List.map_cons, List.nodup_cons] at hn
    obtain ⟨c1, h1⟩ := dropConsumer_total (hk r (.head _))
    obtain ⟨k1, k2⟩ := dropConsumer_spec h1
    obtain ⟨c2, h2⟩ := ih (cons := c1) hn.2 (by
      intro r' hr'
      have hne : r'.hid ≠ r.hid := fun e => hn.1 (e ▸ List.mem_map.2 ⟨r', hr', rfl⟩)
      rcases hk r' (.tail _ hr') with h | h
      · exact .inl ((k1 _ _).2 ⟨h, fun h => hne h.2⟩)
      · exact .inr fun h' => h (k2 _ h'))
    exact ⟨c2, by rw [List.foldlM_cons, exBind_ok]; exact ⟨_, h1, h2⟩⟩

theorem dropCall_total {n h : String} {c : FCall} {iv : List String} (hiv : f.callinv.get? h = some iv) (hn : n ∈ iv)
    (hc : f.calls.get? h = some c) (hf : Forgettable f h c) : ∃ g, f.dropCall n h = .ok g := by
  obtain ⟨cr, hcr⟩ := delCreators_total hf.outs hf.creator
  obtain ⟨co, hco⟩ := dropConsumers_total hf.ins hf.consumers
  have e1 : getE f.callinv h = .ok iv := getE_ok.2 hiv
  have e2 : getE f.calls h = .ok c := getE_ok.2 hc
  have e3 : removeE iv n = .ok (PySet.remove iv n) := removeE_ok.2 ⟨hn, rfl⟩
  unfold dropCall
  by_cases h1 : setLen iv = 1
  · simp only [e1, e2, hcr, hco, bind, Except.bind, if_pos h1]
    exact ⟨_, rfl⟩
  · simp only [e1, e3, bind, Except.bind, if_neg h1]
    exact ⟨_, rfl⟩

/-- Dropping one call leaves the others as they are, as far as forgetting them goes. -/
theorem dropCall_others (hR : RecOk R) {n h x : String} {g : CFrame} (hg : f.dropCall n h = .ok g) (hx : x ≠ h) {c : FCall}
    (hok : ∀ h c, f.calls.get? h = some c → c.hid = h ∧ R c)
    (hc : f.calls.get? x = some c) (hf : Forgettable f x c) :
    g.calls.get? x = some c ∧ Forgettable g x c := by
  unfold dropCall at hg
  simp only [exBind_ok, getE_ok] at hg
  obtain ⟨iv, hiv, hg⟩ := hg
  split at hg
  · simp only [exBind_ok, getE_ok] at hg
    obtain ⟨c', hc', cr, hcr, cons, hcons, hg⟩ := hg
    cases hg
    have kcr := delCreators hcr
    obtain ⟨kcons, kck⟩ := dropConsumers_spec hcons
    refine ⟨?_, hf.outs, hf.ins, ?_, ?_⟩
    · dsimp only
      rw [Dict.get?_erase, if_neg (Ne.symm hx)]
      exact hc
    · intro r hr
      obtain ⟨y, hy⟩ := Dict.mem_keys.1 (hf.creator r hr)
      refine Dict.mem_keys.2 ⟨y, ?_⟩
      dsimp only
      rw [kcr, if_neg]
      · exact hy
      · intro hm
        obtain ⟨q, hq, e⟩ := mem_vals_hid.1 hm
        obtain ⟨p, hp, ep⟩ := List.mem_map.1 hr
        have := hR.creator c c' p q (hok x c hc).2 (hok h c' hc').2 hp hq (by rw [ep, e])
        subst this
        exact hx ((hok x c hc).1.symm.trans (hok h c hc').1)
    · intro r hr
      rcases hf.consumers r hr with h' | h'
      · exact .inl ((kcons _ _).2 ⟨h', fun h => hx h.1⟩)
      · exact .inr fun hk => h' (kck _ hk)
  · simp only [exBind_ok, removeE_ok] at hg
    obtain ⟨iv', _, hg⟩ := hg
    cases hg
    exact ⟨hc, hf.outs, hf.ins, hf.creator, hf.consumers⟩

theorem dropCalls_total (hR : RecOk R) {n : String} {rest : List String} : ∀ {f : CFrame}, Wf R (only f n rest) → rest.Nodup →
    (∀ l v, ¬ InAdj f.inp n l v ∧ ¬ InAdj f.out n l v) → (∀ h ∈ rest, ∃ c, f.calls.get? h = some c ∧ Forgettable f h c) →
    ∃ g, rest.foldlM (fun f h => f.dropCall n h) f = .ok g := by
  induction rest with
  | nil => intro f _ _ _ _; exact ⟨f, rfl⟩
  | cons h rest ih =>
    intro f H hn hlow hall
    rw [List.nodup_cons] at hn
    obtain ⟨c, hc, hf⟩ := hall h (.head _)
    have hin : InSet f.callinv h n := (H.call.callinv h n).2 (by
      change InSet (f.fs.set n (h :: rest)) n h
      rw [inSet_set, if_pos rfl]
      exact .head _)
    obtain ⟨iv, hiv, hm⟩ := hin
    obtain ⟨k, hk⟩ := dropCall_total hiv hm hc hf
    obtain ⟨wk, e1, e2, e3, e4⟩ := dropCall_spec hR H hn.1 hlow hk
    obtain ⟨g, hg⟩ := ih wk hn.2 (by rw [e2, e3]; exact hlow) (by
      intro x hx
      obtain ⟨cx, hcx, hfx⟩ := hall x (.tail _ hx)
      exact ⟨cx, dropCall_others hR hk (fun e => hn.1 (e ▸ hx)) H.call.callOk hcx hfx⟩)
    exact ⟨g, by rw [List.foldlM_cons, exBind_ok]; exact ⟨k, hk, hg⟩⟩

/-- A function all of whose calls can be forgotten can be dropped. -/
theorem dropFunc_total (hR : RecOk R) (H : Wf R f) {n : String} (hn : f.IsFunc n)
    (hall : ∀ h c, f.HasCall n h → f.calls.get? h = some c → Forgettable f h c) : ∃ g, f.dropFunc n = .ok g := by
  obtain ⟨f1, h1⟩ := dropEdgesAt_total H.graph n
  have c1 := dropEdgesAt_spec H.graph h1
  have w1 := H.cuts c1
  have e2 : f1.fs = f.fs := by rw [c1.rest]
  have e3 : f1.calls = f.calls := by rw [c1.rest]
  have e4 : f1.creator = f.creator := by rw [c1.rest]
  have e5 : f1.consumers = f.consumers := by rw [c1.rest]
  obtain ⟨s, hs⟩ := Dict.mem_keys.1 hn
  have hs1 : f1.fs.get? n = some s := by rw [e2]; exact hs
  have hlow : ∀ l v, ¬ InAdj f1.inp n l v ∧ ¬ InAdj f1.out n l v := by
    intro l v
    rw [c1.inp, c1.out]
    exact ⟨fun h => h.2 (.inr rfl), fun h => h.2 (.inl rfl)⟩
  obtain ⟨f2, h2⟩ := dropCalls_total hR (wf_only_congr hs1 w1) (PySet.nodup_ofList s) hlow (by
    intro h hh
    have hcall : f.HasCall n h := ⟨s, hs, PySet.mem_ofList.1 hh⟩
    obtain ⟨c, hc, _⟩ := H.get_call hcall
    have hf := hall h c hcall hc
    refine ⟨c, by rw [e3]; exact hc, hf.outs, hf.ins, ?_, ?_⟩
    · rw [e4]; exact hf.creator
    · rw [e5]; exact hf.consumers)
  obtain ⟨w2, k1, k2, k3, k4⟩ := dropCalls_spec hR (wf_only_congr hs1 w1) (PySet.nodup_ofList s) hlow h2
  have hfk : n ∈ f2.fs.keys := by rw [k1]; exact Dict.mem_keys.2 ⟨s, hs1⟩
  have hik : n ∈ f2.inp.keys := by rw [k2]; exact (w1.graph.inpKey n).2 (.inr (Dict.mem_keys.2 ⟨s, hs1⟩))
  have hok : n ∈ f2.out.keys := by rw [k3]; exact (w1.graph.outKey n).2 (.inr (Dict.mem_keys.2 ⟨s, hs1⟩))
  refine ⟨{ f2 with fs := f2.fs.erase n, inp := f2.inp.erase n, out := f2.out.erase n }, ?_⟩
  unfold dropFunc
  simp only [exBind_ok, getE_ok, delE_ok]
  exact ⟨f1, h1, s, hs1, f2, h2, _, ⟨hfk, rfl⟩, _, ⟨hik, rfl⟩, _, ⟨hok, rfl⟩, rfl⟩

end CFrame
end Verif
