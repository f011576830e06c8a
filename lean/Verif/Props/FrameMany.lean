import Verif.Model.CFrameMany
import Verif.Props.FrameUnionCases
/-!
C91: the union and the intersection of any number of frames.

Specification: what is in the union is what is in some of the frames, what is in the intersection is what is in all of them;
which frames are given matters, and not in what order or how often. `Same` and `Covers` are those of C42.
-/
namespace Verif.Props

open Verif CFrame

/-! ### folds -/

theorem foldFrames_or {op : CFrame → CFrame → CFrame} {P : CFrame → Prop} (h : ∀ a b, P (op a b) ↔ P a ∨ P b) :
    ∀ (l : List CFrame) (a : CFrame), P (l.foldl op a) ↔ ∃ c ∈ a :: l, P c
  | [], a => by simp
  | b :: l, a => by
    rw [List.foldl_cons, foldFrames_or h l]
    simp only [List.mem_cons, exists_eq_or_imp, h, or_assoc]

theorem foldFrames_and {op : CFrame → CFrame → CFrame} {P : CFrame → Prop} (h : ∀ a b, P (op a b) ↔ P a ∧ P b) :
    ∀ (l : List CFrame) (a : CFrame), P (l.foldl op a) ↔ ∀ c ∈ a :: l, P c
  | [], a => by simp
  | b :: l, a => by
    rw [List.foldl_cons, foldFrames_and h l]
    simp only [List.mem_cons, forall_eq_or_imp, h, and_assoc]

theorem foldFrames_imp {op : CFrame → CFrame → CFrame} {P : CFrame → Prop} (h : ∀ a b, P (op a b) → P a ∨ P b) :
    ∀ (l : List CFrame) (a : CFrame), P (l.foldl op a) → ∃ c ∈ a :: l, P c
  | [], a, H => ⟨a, by simp, H⟩
  | b :: l, a, H => by
    obtain ⟨c, hc, hp⟩ := foldFrames_imp h l _ H
    rcases List.mem_cons.1 hc with rfl | hc
    · rcases h _ _ hp with hp | hp
      · exact ⟨a, by simp, hp⟩
      · exact ⟨b, by simp, hp⟩
    · exact ⟨c, by simp [hc], hp⟩

theorem unionAll_ok : ∀ (l : List CFrame) (a g : CFrame), unionAll (a :: l) = .ok g ↔
    g = l.foldl unionRaw a ∧ ∀ s b r, l = s ++ b :: r → ((s ++ [b]).foldl unionRaw a).Consistent
  | [], a, g => by
    simp only [unionAll, List.foldlM_nil, List.foldl_nil]
    constructor
    · intro h; cases h; exact ⟨rfl, fun s b r h => absurd h (by simp)⟩
    · rintro ⟨rfl, _⟩; rfl
  | b :: l, a, g => by
    have ih := unionAll_ok l (unionRaw a b) g
    simp only [unionAll] at ih ⊢
    rw [List.foldlM_cons]
    by_cases hc : (unionRaw a b).Consistent
    · have : a.union b = .ok (unionRaw a b) := union_ok.2 ⟨rfl, hc⟩
      rw [this]
      refine ih.trans (and_congr Iff.rfl ⟨fun h => ?_, fun h => ?_⟩)
      · intro s c r e
        cases s with
        | nil => simp only [List.nil_append, List.cons.injEq] at e; cases e.1; exact hc
        | cons x s =>
          simp only [List.cons_append, List.cons.injEq] at e
          cases e.1
          exact h s c r e.2
      · intro s c r e
        exact h (b :: s) c r (by rw [e]; rfl)
    · constructor
      · intro h
        cases hu : a.union b with
        | ok x => exact absurd (union_ok.1 hu).2 hc
        | error e => rw [hu] at h; cases h
      · rintro ⟨_, h⟩
        exact absurd (h [] b l rfl) hc

/-! ### the union -/

/-- C91, the union of any number of frames has the nodes, edges, values, calls and records that some of the frames has, and
nothing else; what it records as the creator or the object of an id is what one of the frames records; and it satisfies the
documented consistency when the frames do. -/
theorem C91_union_nodewise {l : List CFrame} {g : CFrame} (h : unionAll l = .ok g) :
    (∀ v, g.IsVar v ↔ ∃ c ∈ l, c.IsVar v) ∧ (∀ n, g.IsFunc n ↔ ∃ c ∈ l, c.IsFunc n) ∧
    (∀ s d lab, g.HasEdge s d lab ↔ ∃ c ∈ l, c.HasEdge s d lab) ∧
    (∀ v x, g.HasRef v x ↔ ∃ c ∈ l, c.HasRef v x) ∧ (∀ n x, g.HasCall n x ↔ ∃ c ∈ l, c.HasCall n x) ∧
    (∀ x, x ∈ g.refs.keys ↔ ∃ c ∈ l, x ∈ c.refs.keys) ∧ (∀ x, x ∈ g.calls.keys ↔ ∃ c ∈ l, x ∈ c.calls.keys) ∧
    (∀ x y, InSet g.consumers x y ↔ ∃ c ∈ l, InSet c.consumers x y) ∧
    (∀ x, x ∈ g.creator.keys ↔ ∃ c ∈ l, x ∈ c.creator.keys) ∧
    (∀ x y, g.creator.get? x = some y → ∃ c ∈ l, c.creator.get? x = some y) ∧
    (∀ x r, g.refs.get? x = some r → ∃ c ∈ l, c.refs.get? x = some r) ∧
    (∀ x k, g.calls.get? x = some k → ∃ c ∈ l, c.calls.get? x = some k) ∧
    ((∀ c ∈ l, c.Consistent) → g.Consistent) := by
  cases l with
  | nil => cases h
  | cons a l =>
    obtain ⟨rfl, hc⟩ := (unionAll_ok l a g).1 h
    have hd : ∀ {V : Type} (x y : Dict String V) k v, (dictUnion x y).get? k = some v → x.get? k = some v ∨ y.get? k = some v := by
      intro V x y k v hv
      rw [get?_dictUnion] at hv
      cases hx : x.get? k with
      | none => rw [hx] at hv; exact .inr hv
      | some w => rw [hx] at hv; exact .inl hv
    refine ⟨fun v => foldFrames_or (P := fun c => c.IsVar v) (fun _ _ => (C55_setdict_union_intersection _ _).2.1 _) l a,
      fun v => foldFrames_or (P := fun c => c.IsFunc v) (fun _ _ => (C55_setdict_union_intersection _ _).2.1 _) l a,
      fun s d lab => foldFrames_or (P := fun c => c.HasEdge s d lab) (fun _ _ => (C55_adjacency_union_intersection _ _).1 _ _ _) l a,
      fun v x => foldFrames_or (P := fun c => c.HasRef v x) (fun _ _ => inSet_union) l a,
      fun v x => foldFrames_or (P := fun c => c.HasCall v x) (fun _ _ => inSet_union) l a,
      fun x => foldFrames_or (P := fun c => x ∈ c.refs.keys) (fun _ _ => mem_keys_dictUnion) l a,
      fun x => foldFrames_or (P := fun c => x ∈ c.calls.keys) (fun _ _ => mem_keys_dictUnion) l a,
      fun x y => foldFrames_or (P := fun c => InSet c.consumers x y) (fun _ _ => inSet_union) l a,
      fun x => foldFrames_or (P := fun c => x ∈ c.creator.keys) (fun _ _ => mem_keys_dictUnion) l a,
      fun x y => foldFrames_imp (P := fun c => c.creator.get? x = some y) (fun a b => hd _ _ _ _) l a,
      fun x y => foldFrames_imp (P := fun c => c.refs.get? x = some y) (fun a b => hd _ _ _ _) l a,
      fun x y => foldFrames_imp (P := fun c => c.calls.get? x = some y) (fun a b => hd _ _ _ _) l a, fun H => ?_⟩
    rcases List.eq_nil_or_concat l with rfl | ⟨s, b, rfl⟩
    · exact H a (by simp)
    · rw [List.concat_eq_append] at hc ⊢
      exact hc s b [] (by simp)

theorem sameDict_of {V : Type} {d e : Dict String V} (hk : ∀ k, k ∈ d.keys ↔ k ∈ e.keys)
    (hv : ∀ k v w, d.get? k = some v → e.get? k = some w → v = w) : SameDict d e := by
  intro k
  cases hd : d.get? k with
  | none =>
    cases he : e.get? k with
    | none => rfl
    | some w => exact absurd ((hk k).2 (Dict.mem_keys.2 ⟨w, he⟩)) (Dict.get?_eq_none.1 hd)
  | some v =>
    obtain ⟨w, he⟩ := Dict.mem_keys.1 ((hk k).1 (Dict.mem_keys.2 ⟨v, hd⟩))
    rw [he, hv k v w hd he]

/-- C91, the union depends on which frames are given and not on the order nor on repetitions: two unions of the same frames
over one storage, where both are defined, are the same frame in every table. -/
theorem C91_union_order {l l' : List CFrame} (hS : ∀ x ∈ l, ∀ y ∈ l, SameStore x y) (hl : ∀ c, c ∈ l ↔ c ∈ l') {g g' : CFrame}
    (h : unionAll l = .ok g) (h' : unionAll l' = .ok g') : Same g g' := by
  have N := C91_union_nodewise h
  have N' := C91_union_nodewise h'
  cases l with
  | nil => cases h
  | cons a l =>
  cases l' with
  | nil => cases h'
  | cons b l' =>
  obtain ⟨eg, _⟩ := (unionAll_ok l a g).1 h
  obtain ⟨eg', _⟩ := (unionAll_ok l' b g').1 h'
  have key : ∀ {P : CFrame → Prop}, (∀ x y, P (unionRaw x y) ↔ P x ∨ P y) → (P g ↔ P g') := by
    intro P hP
    rw [eg, eg', foldFrames_or hP, foldFrames_or hP]
    simp only [hl]
  refine ⟨⟨fun k => key (P := fun c => k ∈ c.vs.keys) fun _ _ => (C55_setdict_union_intersection _ _).2.1 _,
      fun k x => key (P := fun c => InSet c.vs k x) fun _ _ => inSet_union⟩,
    ⟨fun k => key (P := fun c => k ∈ c.fs.keys) fun _ _ => (C55_setdict_union_intersection _ _).2.1 _,
      fun k x => key (P := fun c => InSet c.fs k x) fun _ _ => inSet_union⟩,
    ⟨fun k => key (P := fun c => k ∈ c.inp.keys) fun _ _ => (C55_adjacency_union_intersection _ _).2.1 _,
      fun k x y => key (P := fun c => InAdj c.inp k x y) fun _ _ => (C55_adjacency_union_intersection _ _).1 _ _ _⟩,
    ⟨fun k => key (P := fun c => k ∈ c.out.keys) fun _ _ => (C55_adjacency_union_intersection _ _).2.1 _,
      fun k x y => key (P := fun c => InAdj c.out k x y) fun _ _ => (C55_adjacency_union_intersection _ _).1 _ _ _⟩,
    ⟨fun k => key (P := fun c => k ∈ c.refinv.keys) fun _ _ => (C55_setdict_union_intersection _ _).2.1 _,
      fun k x => key (P := fun c => InSet c.refinv k x) fun _ _ => inSet_union⟩,
    ⟨fun k => key (P := fun c => k ∈ c.callinv.keys) fun _ _ => (C55_setdict_union_intersection _ _).2.1 _,
      fun k x => key (P := fun c => InSet c.callinv k x) fun _ _ => inSet_union⟩,
    sameDict_of (fun k => key (P := fun c => k ∈ c.creator.keys) fun _ _ => mem_keys_dictUnion) ?_,
    ⟨fun k => key (P := fun c => k ∈ c.consumers.keys) fun _ _ => (C55_setdict_union_intersection _ _).2.1 _,
      fun k x => key (P := fun c => InSet c.consumers k x) fun _ _ => inSet_union⟩,
    sameDict_of (fun k => key (P := fun c => k ∈ c.refs.keys) fun _ _ => mem_keys_dictUnion) ?_,
    sameDict_of (fun k => key (P := fun c => k ∈ c.calls.keys) fun _ _ => mem_keys_dictUnion) ?_⟩
  · intro k v w h1 h2
    obtain ⟨c, hc, e⟩ := N.2.2.2.2.2.2.2.2.2.1 k v h1
    obtain ⟨d, hd, e'⟩ := N'.2.2.2.2.2.2.2.2.2.1 k w h2
    exact (hS c hc d ((hl d).2 hd)).creator k v w e e'
  · intro k v w h1 h2
    obtain ⟨c, hc, e⟩ := N.2.2.2.2.2.2.2.2.2.2.1 k v h1
    obtain ⟨d, hd, e'⟩ := N'.2.2.2.2.2.2.2.2.2.2.1 k w h2
    exact (hS c hc d ((hl d).2 hd)).refs k v w e e'
  · intro k v w h1 h2
    obtain ⟨c, hc, e⟩ := N.2.2.2.2.2.2.2.2.2.2.2.1 k v h1
    obtain ⟨d, hd, e'⟩ := N'.2.2.2.2.2.2.2.2.2.2.2.1 k w h2
    exact (hS c hc d ((hl d).2 hd)).calls k v w e e'

/-! ### when the union is defined -/

/-- What a union keeps of well-formedness. -/
structure Sturdy (R : FCall → Prop) (f : CFrame) : Prop where
  con : f.Consistent
  refinv : ∀ h v, InSet f.refinv h v ↔ f.HasRef v h
  callOk : ∀ h c, f.calls.get? h = some c → c.hid = h ∧ R c

theorem Sturdy.of_wf {R : FCall → Prop} {f : CFrame} (h : Wf R f) : Sturdy R f := ⟨h.consistent, h.ref.refinv, h.call.callOk⟩

theorem Sturdy.calls {R : FCall → Prop} (hR : RecOk R) {a b : CFrame} (ha : Sturdy R a) (hb : Sturdy R b) : Compat a.calls b.calls := by
  intro k c c' h1 h2
  obtain ⟨e1, r1⟩ := ha.callOk k c h1
  obtain ⟨e2, r2⟩ := hb.callOk k c' h2
  exact hR.hid c c' r1 r2 (e1.trans e2.symm)

theorem calls_unionRaw {a b : CFrame} (h : Compat a.calls b.calls) {k : String} {c : FCall} :
    (unionRaw a b).calls.get? k = some c ↔ a.calls.get? k = some c ∨ b.calls.get? k = some c := by
  rw [unionRaw, get?_dictUnion]
  cases h1 : a.calls.get? k with
  | none => simp
  | some x =>
    cases h2 : b.calls.get? k with
    | none => simp
    | some y => have := h k x y h1 h2; simp [this]

theorem Sturdy.has {R : FCall → Prop} {f : CFrame} (h : Sturdy R f) {n x : String} (hx : f.HasCall n x) :
    ∃ c, f.calls.get? x = some c ∧ c.hid = x := by
  obtain ⟨c, i, o, hc, _⟩ := h.con.io n x hx
  exact ⟨c, hc, (h.callOk x c hc).1⟩

theorem Sturdy.union {R : FCall → Prop} (hR : RecOk R) {a b : CFrame} (ha : Sturdy R a) (hb : Sturdy R b) (cab : Covers a b)
    (cba : Covers b a) : Sturdy R (unionRaw a b) := by
  have S := ha.calls hR hb
  have hcalls : ∀ {k c}, (unionRaw a b).calls.get? k = some c ↔ a.calls.get? k = some c ∨ b.calls.get? k = some c := calls_unionRaw S
  have hv : ∀ {v x}, (unionRaw a b).HasRef v x ↔ a.HasRef v x ∨ b.HasRef v x := inSet_union
  have hn : ∀ {v x}, (unionRaw a b).HasCall v x ↔ a.HasCall v x ∨ b.HasCall v x := inSet_union
  have hki : ∀ {n}, n ∈ (unionRaw a b).inp.keys ↔ n ∈ a.inp.keys ∨ n ∈ b.inp.keys := (C55_adjacency_union_intersection _ _).2.1 _
  have hko : ∀ {n}, n ∈ (unionRaw a b).out.keys ↔ n ∈ a.out.keys ∨ n ∈ b.out.keys := (C55_adjacency_union_intersection _ _).2.1 _
  have hi : ∀ {n l v}, InAdj (unionRaw a b).inp n l v ↔ InAdj a.inp n l v ∨ InAdj b.inp n l v := (C55_adjacency_union_intersection _ _).1 _ _ _
  have ho : ∀ {n l v}, InAdj (unionRaw a b).out n l v ↔ InAdj a.out n l v ∨ InAdj b.out n l v := (C55_adjacency_union_intersection _ _).1 _ _ _
  have A := ha.con
  have B := hb.con
  have hrk : ∀ {x}, x ∈ (unionRaw a b).refs.keys ↔ x ∈ a.refs.keys ∨ x ∈ b.refs.keys := mem_keys_dictUnion
  have hck : ∀ {x}, x ∈ (unionRaw a b).calls.keys ↔ x ∈ a.calls.keys ∨ x ∈ b.calls.keys := mem_keys_dictUnion
  have hvk : ∀ {x}, (unionRaw a b).IsVar x ↔ a.IsVar x ∨ b.IsVar x := (C55_setdict_union_intersection _ _).2.1 _
  have hfk : ∀ {x}, (unionRaw a b).IsFunc x ↔ a.IsFunc x ∨ b.IsFunc x := (C55_setdict_union_intersection _ _).2.1 _
  have hri : ∀ {h x}, InSet (unionRaw a b).refinv h x ↔ (unionRaw a b).HasRef x h := by
    intro h x
    rw [hv, unionRaw, inSet_union, ha.refinv, hb.refinv]
  refine ⟨?_, fun h v => hri, fun h c hc => (hcalls.1 hc).elim (ha.callOk h c) (hb.callOk h c)⟩
  constructor
  · intro h
    simp only [hrk, hv, A.refs, B.refs]
    exact ⟨fun h => h.elim (fun ⟨v, h⟩ => ⟨v, .inl h⟩) fun ⟨v, h⟩ => ⟨v, .inr h⟩,
      fun ⟨v, h⟩ => h.imp (fun h => ⟨v, h⟩) fun h => ⟨v, h⟩⟩
  · intro h
    simp only [hck, hn, A.calls, B.calls]
    exact ⟨fun h => h.elim (fun ⟨v, h⟩ => ⟨v, .inl h⟩) fun ⟨v, h⟩ => ⟨v, .inr h⟩,
      fun ⟨v, h⟩ => h.imp (fun h => ⟨v, h⟩) fun h => ⟨v, h⟩⟩
  · intro h v h1
    exact ((hri.1 h1)).key
  · intro h v h1
    rw [unionRaw, inSet_union] at h1
    exact hfk.2 (h1.imp (A.callinv h v) (B.callinv h v))
  · intro h c hc
    rw [unionRaw, get?_dictUnion] at hc
    rw [hrk, hck]
    cases h1 : a.creator.get? h with
    | none =>
      rw [h1] at hc
      exact ⟨.inr (B.creator h c hc).1, .inr (B.creator h c hc).2⟩
    | some c' =>
      rw [h1] at hc
      cases hc
      exact ⟨.inl (A.creator h c h1).1, .inl (A.creator h c h1).2⟩
  · intro h hk
    rw [hrk]
    exact ((C55_setdict_union_intersection _ _).2.1 _ |>.1 hk).imp (A.consumersKey h) (B.consumersKey h)
  · intro h c hc
    rw [unionRaw, inSet_union] at hc
    exact hck.2 (hc.imp (A.consumers h c) (B.consumers h c))
  · intro s d l he
    rw [HasEdge, ho] at he
    rw [hvk, hfk, hvk, hfk]
    rcases he with he | he
    · exact (A.edges s d l he).imp (fun h => h.imp .inl .inl) fun h => h.imp .inl .inl
    · exact (B.edges s d l he).imp (fun h => h.imp .inr .inr) fun h => h.imp .inr .inr
  · intro n h hnh
    have hk : n ∈ (unionRaw a b).inp.keys ∧ n ∈ (unionRaw a b).out.keys := by
      rw [hki, hko]
      rcases hn.1 hnh with hnh | hnh
      · obtain ⟨_, i, o, _, h1, h2, _⟩ := A.io n h hnh
        exact ⟨.inl (Dict.mem_keys.2 ⟨i, h1⟩), .inl (Dict.mem_keys.2 ⟨o, h2⟩)⟩
      · obtain ⟨_, i, o, _, h1, h2, _⟩ := B.io n h hnh
        exact ⟨.inr (Dict.mem_keys.2 ⟨i, h1⟩), .inr (Dict.mem_keys.2 ⟨o, h2⟩)⟩
    obtain ⟨i, hi'⟩ := Dict.mem_keys.1 hk.1
    obtain ⟨o, ho'⟩ := Dict.mem_keys.1 hk.2
    have key : ∃ c, c.hid = h ∧ (a.HasCall n h ∧ a.calls.get? h = some c ∨ b.HasCall n h ∧ b.calls.get? h = some c) := by
      rcases hn.1 hnh with hnh | hnh
      · obtain ⟨c, hc, hh⟩ := ha.has hnh
        exact ⟨c, hh, .inl ⟨hnh, hc⟩⟩
      · obtain ⟨c, hc, hh⟩ := hb.has hnh
        exact ⟨c, hh, .inr ⟨hnh, hc⟩⟩
    obtain ⟨c, rfl, hc⟩ := key
    have insOf : ∀ {f : CFrame}, f.Consistent → f.HasCall n c.hid → f.calls.get? c.hid = some c → ∀ p v,
        (p ∈ c.inputs → InAdj f.inp n (nameProj c.op p.1) v → f.HasRef v p.2.hid) ∧
        (p ∈ c.outputs → InAdj f.out n (nameProj c.op p.1) v → f.HasRef v p.2.hid) := by
      intro f F h1 h2 p v
      obtain ⟨c', i, o, hc', hi', ho', g1, g2⟩ := F.io n _ h1
      rw [h2] at hc'
      cases hc'
      exact ⟨fun hp h3 => (g1 p hp v ((inAdj_of_get hi').1 h3)).1, fun hp h3 => (g2 p hp v ((inAdj_of_get ho').1 h3)).1⟩
    refine ⟨c, i, o, hcalls.2 (hc.imp (fun h => h.2) fun h => h.2), hi', ho', ?_, ?_⟩
    · intro p hp v hpv
      rw [hri, and_self, hv]
      rw [← inAdj_of_get hi', hi] at hpv
      rcases hc with ⟨h1, h2⟩ | ⟨h1, h2⟩ <;> rcases hpv with h3 | h3
      · exact .inl ((insOf A h1 h2 p v).1 hp h3)
      · exact Or.comm.1 (cba n c p v h1 h2 (.inl ⟨hp, h3⟩))
      · exact cab n c p v h1 h2 (.inl ⟨hp, h3⟩)
      · exact .inr ((insOf B h1 h2 p v).1 hp h3)
    · intro p hp v hpv
      rw [hri, and_self, hv]
      rw [← inAdj_of_get ho', ho] at hpv
      rcases hc with ⟨h1, h2⟩ | ⟨h1, h2⟩ <;> rcases hpv with h3 | h3
      · exact .inl ((insOf A h1 h2 p v).2 hp h3)
      · exact Or.comm.1 (cba n c p v h1 h2 (.inr ⟨hp, h3⟩))
      · exact cab n c p v h1 h2 (.inr ⟨hp, h3⟩)
      · exact .inr ((insOf B h1 h2 p v).2 hp h3)
  · intro h r hr
    rw [unionRaw, get?_dictUnion] at hr
    cases h1 : a.refs.get? h with
    | none => rw [h1] at hr; exact B.refHid h r hr
    | some c' => rw [h1] at hr; cases hr; exact A.refHid h r h1
  · intro h r hr
    rcases hcalls.1 hr with h1 | h1
    · exact A.callHid h r h1
    · exact B.callHid h r h1

theorem covers_union_left {a b c : CFrame} (h1 : Covers a c) (h2 : Covers b c) : Covers (unionRaw a b) c := by
  intro n k p v hk hc h
  have hi : ∀ {n l v}, InAdj (unionRaw a b).inp n l v ↔ InAdj a.inp n l v ∨ InAdj b.inp n l v := (C55_adjacency_union_intersection _ _).1 _ _ _
  have ho : ∀ {n l v}, InAdj (unionRaw a b).out n l v ↔ InAdj a.out n l v ∨ InAdj b.out n l v := (C55_adjacency_union_intersection _ _).1 _ _ _
  have hv : ∀ {v x}, (unionRaw a b).HasRef v x ↔ a.HasRef v x ∨ b.HasRef v x := inSet_union
  rw [hv]
  rcases h with ⟨hp, h⟩ | ⟨hp, h⟩
  · rcases hi.1 h with h | h
    · exact (h1 n k p v hk hc (.inl ⟨hp, h⟩)).imp .inl id
    · exact (h2 n k p v hk hc (.inl ⟨hp, h⟩)).imp .inr id
  · rcases ho.1 h with h | h
    · exact (h1 n k p v hk hc (.inr ⟨hp, h⟩)).imp .inl id
    · exact (h2 n k p v hk hc (.inr ⟨hp, h⟩)).imp .inr id

theorem covers_union_right {R : FCall → Prop} (hR : RecOk R) {a b c : CFrame} (ha : Sturdy R a) (hb : Sturdy R b) (h1 : Covers c a)
    (h2 : Covers c b) : Covers c (unionRaw a b) := by
  intro n k p v hk hc h
  have S := ha.calls hR hb
  have hv : ∀ {v x}, (unionRaw a b).HasRef v x ↔ a.HasRef v x ∨ b.HasRef v x := inSet_union
  have hn : ∀ {v x}, (unionRaw a b).HasCall v x ↔ a.HasCall v x ∨ b.HasCall v x := inSet_union
  rw [hv]
  rcases hn.1 hk with hk | hk
  · obtain ⟨k', hk', _⟩ := ha.has hk
    have : k' = k := by
      rcases (calls_unionRaw S).1 hc with hc | hc
      · rw [hc] at hk'; cases hk'; rfl
      · exact S _ _ _ hk' hc
    subst this
    exact (h1 n k' p v hk hk' h).imp id .inl
  · obtain ⟨k', hk', _⟩ := hb.has hk
    have : k' = k := by
      rcases (calls_unionRaw S).1 hc with hc | hc
      · exact (S _ _ _ hc hk').symm
      · rw [hc] at hk'; cases hk'; rfl
    subst this
    exact (h2 n k' p v hk hk' h).imp id .inr

theorem unionAll_defined {R : FCall → Prop} (hR : RecOk R) : ∀ (l : List CFrame) (a : CFrame), Sturdy R a → (∀ c ∈ l, Sturdy R c) →
    (a :: l).Pairwise (fun x y => Covers x y ∧ Covers y x) → ∃ g, unionAll (a :: l) = .ok g
  | [], a, _, _, _ => ⟨a, rfl⟩
  | b :: l, a, ha, hl, hp => by
    obtain ⟨h1, hp⟩ := List.pairwise_cons.1 hp
    obtain ⟨h2, hp⟩ := List.pairwise_cons.1 hp
    have hb := hl b (by simp)
    have hab := h1 b (by simp)
    have hu := ha.union hR hb hab.1 hab.2
    obtain ⟨g, hg⟩ := unionAll_defined hR l (unionRaw a b) hu (fun c hc => hl c (by simp [hc])) (List.pairwise_cons.2 ⟨fun c hc =>
      ⟨covers_union_left (h1 c (by simp [hc])).1 (h2 c hc).1, covers_union_right hR ha hb (h1 c (by simp [hc])).2 (h2 c hc).2⟩, hp⟩)
    refine ⟨g, ?_⟩
    have hok : a.union b = .ok (unionRaw a b) := union_ok.2 ⟨rfl, hu.con⟩
    simp only [unionAll] at hg ⊢
    rw [List.foldlM_cons, hok]
    exact hg

theorem unionAll_append {l s : List CFrame} {a g : CFrame} (h : unionAll (a :: (l ++ s)) = .ok g) : ∃ g', unionAll (a :: l) = .ok g' := by
  obtain ⟨_, hc⟩ := (unionAll_ok _ _ _).1 h
  exact ⟨_, (unionAll_ok _ _ _).2 ⟨rfl, fun s' b r e => hc s' b (r ++ s) (by rw [e]; simp)⟩⟩

theorem pairwise_of_orders {R : FCall → Prop} (hR : RecOk R) : ∀ (l : List CFrame), (∀ c ∈ l, Wf R c) →
    (∀ x ∈ l, ∀ y ∈ l, Compat x.refs y.refs) → (∀ l', l'.Perm l → ∃ g, unionAll l' = .ok g) →
    l.Pairwise (fun x y => Covers x y ∧ Covers y x)
  | [], _, _, _ => List.Pairwise.nil
  | a :: t, hw, hr, h => by
    refine List.pairwise_cons.2 ⟨fun b hb => ?_, ?_⟩
    · obtain ⟨s, r, rfl⟩ := List.append_of_mem hb
      obtain ⟨g, hg⟩ := h (a :: b :: (s ++ r)) (List.Perm.cons a List.perm_middle.symm)
      have := unionAll_append (l := [b]) (s := s ++ r) hg
      obtain ⟨g', hg'⟩ := this
      have hu : a.union b = .ok g' := by
        simp only [unionAll, List.foldlM_cons, List.foldlM_nil] at hg'
        cases hx : a.union b with
        | ok x => rw [hx] at hg'; exact hg'
        | error e => rw [hx] at hg'; cases hg'
      exact (C42_union_defined_iff hR (hw a (by simp)) (hw b (by simp)) (hr a (by simp) b (by simp))).1 ⟨g', hu⟩
    · cases t with
      | nil => exact List.Pairwise.nil
      | cons b t =>
        refine pairwise_of_orders hR (b :: t) (fun c hc => hw c (List.mem_cons_of_mem _ hc))
          (fun x hx y hy => hr x (List.mem_cons_of_mem _ hx) y (List.mem_cons_of_mem _ hy)) fun l' hl' => ?_
        cases l' with
        | nil => exact absurd hl'.length_eq (by simp)
        | cons c l' =>
          obtain ⟨g, hg⟩ := h (c :: (l' ++ [a])) (by
            have : (c :: (l' ++ [a])).Perm (a :: c :: l') := by
              have := List.perm_append_comm (l₁ := c :: l') (l₂ := [a])
              exact this
            exact this.trans (List.Perm.cons a hl'))
          exact unionAll_append hg

/-- C91, exactly when uniting well-formed frames over the same storage cannot fail, whatever the order in which they are given:
every two of them can be united. -/
theorem C91_union_every_order_iff {R : FCall → Prop} (hR : RecOk R) {l : List CFrame} (hne : l ≠ []) (hw : ∀ c ∈ l, Wf R c)
    (hr : ∀ x ∈ l, ∀ y ∈ l, Compat x.refs y.refs) :
    (∀ l', l'.Perm l → ∃ g, unionAll l' = .ok g) ↔ l.Pairwise fun x y => ∃ g, x.union y = .ok g := by
  have conv : l.Pairwise (fun x y => Covers x y ∧ Covers y x) ↔ l.Pairwise fun x y => ∃ g, x.union y = .ok g := by
    constructor
    · intro h
      exact h.imp_of_mem fun hx hy hxy => (C42_union_defined_iff hR (hw _ hx) (hw _ hy) (hr _ hx _ hy)).2 hxy
    · intro h
      exact h.imp_of_mem fun hx hy hxy => (C42_union_defined_iff hR (hw _ hx) (hw _ hy) (hr _ hx _ hy)).1 hxy
  rw [← conv]
  constructor
  · exact pairwise_of_orders hR l hw hr
  · intro hp l' hl'
    cases l' with
    | nil => exact absurd (List.nil_perm.1 hl') hne
    | cons a t =>
      have hw' : ∀ c ∈ a :: t, Sturdy R c := fun c hc => Sturdy.of_wf (hw c (hl'.mem_iff.1 hc))
      exact unionAll_defined hR t a (hw' a (by simp)) (fun c hc => hw' c (by simp [hc]))
        (hp.perm hl'.symm fun h => ⟨h.2, h.1⟩)

/-! ### the intersection -/

/-- C91, the intersection of at least one frame always exists and has the nodes, edges, values, calls and records that are in
all of the frames, and nothing else; objects and creators are as in the first frame. -/
theorem C91_intersection_nodewise (a : CFrame) (l : List CFrame) : ∃ g, interAll (a :: l) = .ok g ∧
    (∀ v, g.IsVar v ↔ ∀ c ∈ a :: l, c.IsVar v) ∧ (∀ n, g.IsFunc n ↔ ∀ c ∈ a :: l, c.IsFunc n) ∧
    (∀ s d lab, g.HasEdge s d lab ↔ ∀ c ∈ a :: l, c.HasEdge s d lab) ∧
    (∀ v x, g.HasRef v x ↔ ∀ c ∈ a :: l, c.HasRef v x) ∧ (∀ n x, g.HasCall n x ↔ ∀ c ∈ a :: l, c.HasCall n x) ∧
    (∀ x, x ∈ g.refs.keys ↔ ∀ c ∈ a :: l, x ∈ c.refs.keys) ∧ (∀ x, x ∈ g.calls.keys ↔ ∀ c ∈ a :: l, x ∈ c.calls.keys) ∧
    (∀ x y, InSet g.consumers x y ↔ ∀ c ∈ a :: l, InSet c.consumers x y) ∧
    (∀ x, x ∈ g.creator.keys ↔ ∀ c ∈ a :: l, x ∈ c.creator.keys) ∧
    (∀ x y, g.creator.get? x = some y → a.creator.get? x = some y) ∧
    (∀ x r, g.refs.get? x = some r → a.refs.get? x = some r) ∧
    (∀ x k, g.calls.get? x = some k → a.calls.get? x = some k) := by
  have hd : ∀ {V : Type} (x y : Dict String V) k v, (dictInter x y).get? k = some v → x.get? k = some v := by
    intro V x y k v hv
    rw [get?_dictInter] at hv
    split at hv
    · exact hv
    · cases hv
  have first : ∀ {P : CFrame → Prop}, (∀ a b, P (inter a b) → P a) → ∀ (l : List CFrame) (a : CFrame), P (l.foldl inter a) → P a := by
    intro P hP l
    induction l with
    | nil => exact fun a h => h
    | cons b l ih => exact fun a h => hP _ _ (ih _ h)
  exact ⟨_, rfl, fun v => foldFrames_and (P := fun c => c.IsVar v) (fun _ _ => (C55_setdict_union_intersection _ _).2.2.2.2.1 _) l a,
    fun v => foldFrames_and (P := fun c => c.IsFunc v) (fun _ _ => (C55_setdict_union_intersection _ _).2.2.2.2.1 _) l a,
    fun s d lab => foldFrames_and (P := fun c => c.HasEdge s d lab) (fun _ _ => (C55_adjacency_union_intersection _ _).2.2.1 _ _ _) l a,
    fun v x => foldFrames_and (P := fun c => c.HasRef v x) (fun _ _ => inSet_inter) l a,
    fun v x => foldFrames_and (P := fun c => c.HasCall v x) (fun _ _ => inSet_inter) l a,
    fun x => foldFrames_and (P := fun c => x ∈ c.refs.keys) (fun _ _ => mem_keys_dictInter) l a,
    fun x => foldFrames_and (P := fun c => x ∈ c.calls.keys) (fun _ _ => mem_keys_dictInter) l a,
    fun x y => foldFrames_and (P := fun c => InSet c.consumers x y) (fun _ _ => inSet_inter) l a,
    fun x => foldFrames_and (P := fun c => x ∈ c.creator.keys) (fun _ _ => mem_keys_dictInter) l a,
    fun x y => first (P := fun c => c.creator.get? x = some y) (fun a b => hd _ _ _ _) l a,
    fun x y => first (P := fun c => c.refs.get? x = some y) (fun a b => hd _ _ _ _) l a,
    fun x y => first (P := fun c => c.calls.get? x = some y) (fun a b => hd _ _ _ _) l a⟩

/-- C91, the intersection depends on which frames are given and not on the order nor on repetitions: the intersections of the
same frames over one storage are the same frame in every table. -/
theorem C91_intersection_order {l l' : List CFrame} (hS : ∀ x ∈ l, ∀ y ∈ l, SameStore x y) (hl : ∀ c, c ∈ l ↔ c ∈ l') {g : CFrame}
    (h : interAll l = .ok g) : ∃ g', interAll l' = .ok g' ∧ Same g g' := by
  cases l with
  | nil => cases h
  | cons a l =>
  cases l' with
  | nil => exact absurd ((hl a).1 (by simp)) (by simp)
  | cons b l' =>
  obtain ⟨g1, e1, N⟩ := C91_intersection_nodewise a l
  obtain ⟨g2, e2, N'⟩ := C91_intersection_nodewise b l'
  rw [h] at e1
  cases e1
  have eg : g = l.foldl inter a := by cases h; rfl
  have eg' : g2 = l'.foldl inter b := by cases e2; rfl
  have S : SameStore a b := hS a (by simp) b ((hl b).2 (by simp))
  have key : ∀ {P : CFrame → Prop}, (∀ x y, P (inter x y) ↔ P x ∧ P y) → (P g ↔ P g2) := by
    intro P hP
    rw [eg, eg', foldFrames_and hP, foldFrames_and hP]
    simp only [hl]
  refine ⟨g2, e2, ⟨fun k => key (P := fun c => k ∈ c.vs.keys) fun _ _ => (C55_setdict_union_intersection _ _).2.2.2.2.1 _,
      fun k x => key (P := fun c => InSet c.vs k x) fun _ _ => inSet_inter⟩,
    ⟨fun k => key (P := fun c => k ∈ c.fs.keys) fun _ _ => (C55_setdict_union_intersection _ _).2.2.2.2.1 _,
      fun k x => key (P := fun c => InSet c.fs k x) fun _ _ => inSet_inter⟩,
    ⟨fun k => key (P := fun c => k ∈ c.inp.keys) fun _ _ => (C55_adjacency_union_intersection _ _).2.2.2 _,
      fun k x y => key (P := fun c => InAdj c.inp k x y) fun _ _ => (C55_adjacency_union_intersection _ _).2.2.1 _ _ _⟩,
    ⟨fun k => key (P := fun c => k ∈ c.out.keys) fun _ _ => (C55_adjacency_union_intersection _ _).2.2.2 _,
      fun k x y => key (P := fun c => InAdj c.out k x y) fun _ _ => (C55_adjacency_union_intersection _ _).2.2.1 _ _ _⟩,
    ⟨fun k => key (P := fun c => k ∈ c.refinv.keys) fun _ _ => (C55_setdict_union_intersection _ _).2.2.2.2.1 _,
      fun k x => key (P := fun c => InSet c.refinv k x) fun _ _ => inSet_inter⟩,
    ⟨fun k => key (P := fun c => k ∈ c.callinv.keys) fun _ _ => (C55_setdict_union_intersection _ _).2.2.2.2.1 _,
      fun k x => key (P := fun c => InSet c.callinv k x) fun _ _ => inSet_inter⟩,
    sameDict_of (fun k => key (P := fun c => k ∈ c.creator.keys) fun _ _ => mem_keys_dictInter) fun k v w h1 h2 =>
      S.creator k v w (N.2.2.2.2.2.2.2.2.2.1 k v h1) (N'.2.2.2.2.2.2.2.2.2.1 k w h2),
    ⟨fun k => key (P := fun c => k ∈ c.consumers.keys) fun _ _ => (C55_setdict_union_intersection _ _).2.2.2.2.1 _,
      fun k x => key (P := fun c => InSet c.consumers k x) fun _ _ => inSet_inter⟩,
    sameDict_of (fun k => key (P := fun c => k ∈ c.refs.keys) fun _ _ => mem_keys_dictInter) fun k v w h1 h2 =>
      S.refs k v w (N.2.2.2.2.2.2.2.2.2.2.1 k v h1) (N'.2.2.2.2.2.2.2.2.2.2.1 k w h2),
    sameDict_of (fun k => key (P := fun c => k ∈ c.calls.keys) fun _ _ => mem_keys_dictInter) fun k v w h1 h2 =>
      S.calls k v w (N.2.2.2.2.2.2.2.2.2.2.2 k v h1) (N'.2.2.2.2.2.2.2.2.2.2.2 k w h2)⟩

/-! ### concrete cases -/

namespace Ex

/-- the variable `a` with the value `x` alone -/
def frameA : CFrame := ((runOps {} [.addVar "a", .addRef "a" x]).toOption).getD {}

/-- the variable `a` alone, with an edge to a function without calls -/
def frameE : CFrame := ((runOps {} [.addFunc "f", .addVar "a", .addEdge "a" "f" "a"]).toOption).getD {}

/-- a function with a call, and no variables -/
def frameC : CFrame := ((runOps {} [.addFunc "f", .addCall "f" c1]).toOption).getD {}

end Ex

open Ex

theorem wf_frameA : Wf (· ∈ recd) frameA :=
  wf_builds recOk wf_empty (builds_of (by decide +kernel : buildB recd {} [.addVar "a", .addRef "a" x] = some frameA))

theorem compat_three : ∀ p ∈ [frameF, frameG, frameA], ∀ q ∈ [frameF, frameG, frameA], Compat p.refs q.refs := by
  intro p hp q hq
  simp only [List.mem_cons, List.not_mem_nil, or_false] at hp hq
  rcases hp with rfl | rfl | rfl <;> rcases hq with rfl | rfl | rfl <;> exact compat_of (by decide +kernel)

theorem wf_three : ∀ p ∈ [frameF, frameG, frameA], Wf (· ∈ recd) p := by
  intro p hp
  simp only [List.mem_cons, List.not_mem_nil, or_false] at hp
  rcases hp with rfl | rfl | rfl
  · exact wf_frameF
  · exact wf_frameG
  · exact wf_frameA

theorem sameStore_three : ∀ p ∈ [frameF, frameG, frameA], ∀ q ∈ [frameF, frameG, frameA], SameStore p q := fun p hp q hq =>
  sameStore_of_wf recOk (wf_three p hp) (wf_three q hq) (compat_three p hp q hq)

/-- Three frames every two of which can be united: so can they all, in every order. -/
example : ∀ l', l'.Perm [frameF, frameG, frameA] → ∃ g, unionAll l' = .ok g := by
  refine (C91_union_every_order_iff recOk (by simp) wf_three compat_three).2 ?_
  simp only [List.pairwise_cons, List.mem_cons, List.not_mem_nil, or_false, forall_eq_or_imp, forall_eq, List.Pairwise.nil, and_true,
    false_imp_iff, implies_true]
  exact ⟨⟨⟨_, union_ok.2 ⟨rfl, check_iff.1 (by decide +kernel)⟩⟩, ⟨_, union_ok.2 ⟨rfl, check_iff.1 (by decide +kernel)⟩⟩⟩,
    ⟨_, union_ok.2 ⟨rfl, check_iff.1 (by decide +kernel)⟩⟩⟩

/-- Their union, and the union of the same frames in another order with one of them twice. -/
example : (unionAll [frameF, frameG, frameA]).toOption.map (fun g => (g.vs, g.fs)) =
      some ([("a", ["x"]), ("var_0", ["y"]), ("o", ["z"])], [("f", ["c1"]), ("g", ["c3"])]) ∧
    (unionAll [frameA, frameG, frameF, frameA]).toOption.map (fun g => (g.vs, g.fs)) =
      some ([("a", ["x"]), ("o", ["z"]), ("var_0", ["y"])], [("g", ["c3"]), ("f", ["c1"])]) := by decide +kernel

/-- Their intersection is the variable `a` with its value, in any order. -/
example : (interAll [frameF, frameG, frameA]).toOption.map (fun g => (g.vs, g.fs)) = some ([("a", ["x"])], []) := by decide +kernel

example {g : CFrame} (h : interAll [frameF, frameG, frameA] = .ok g) : ∃ g', interAll [frameA, frameG, frameF, frameG] = .ok g' ∧ Same g g' :=
  C91_intersection_order sameStore_three (by intro c; simp only [List.mem_cons, List.not_mem_nil, or_false]; grind) h

/-- Refutation: whether a union exists depends on the order in which the frames are given: an edge first, a call next and the value
that both need last fails, the same frames with the value before the edge do not. -/
theorem C91_refuted_union_order : frameE.check = true ∧ frameC.check = true ∧ frameA.check = true ∧
    unionAll [frameE, frameC, frameA] = .error .assertionError ∧
    ((unionAll [frameC, frameA, frameE]).toOption.map check) = some true := by decide +kernel

/-- Refutation: there is no union and no intersection of no frames. -/
theorem C91_refuted_none : unionAll [] = .error .typeError ∧ interAll [] = .error .typeError := ⟨rfl, rfl⟩

end Verif.Props
