import Verif.Spec.CFrame
/-!
Basic facts about computation frames: membership in the derived sets, the consistency check, well-formed frames are consistent.
-/
namespace Verif

open Props

theorem getE_ok {V : Type} {d : Dict String V} {k : String} {v : V} : getE d k = .ok v ↔ d.get? k = some v := by
  unfold getE
  cases d.get? k <;> simp

theorem delE_ok {V : Type} {d d' : Dict String V} {k : String} : delE d k = .ok d' ↔ k ∈ d.keys ∧ d' = d.erase k := by
  unfold delE
  by_cases h : k ∈ d.keys
  · simp [Dict.has_iff.2 h, h, eq_comm]
  · have : d.has k = false := by rw [← Bool.not_eq_true, Dict.has_iff]; exact h
    simp [this, h]

theorem removeE_ok {s s' : List String} {x : String} : removeE s x = .ok s' ↔ x ∈ s ∧ s' = PySet.remove s x := by
  unfold removeE
  split <;> simp_all [eq_comm]

theorem exBind_ok {α β : Type} {x : Except Err α} {f : α → Except Err β} {b : β} :
    (x >>= f) = .ok b ↔ ∃ a, x = .ok a ∧ f a = .ok b := by
  cases x with
  | error e => simp [bind, Except.bind]
  | ok a => simp [bind, Except.bind]

theorem setEqB_iff {s t : List String} : setEqB s t = true ↔ ∀ x, x ∈ s ↔ x ∈ t := by
  simp only [setEqB, Bool.and_eq_true, PySet.subset_iff]
  exact ⟨fun h x => ⟨h.1 x, h.2 x⟩, fun h => ⟨fun x => (h x).1, fun x => (h x).2⟩⟩

theorem inSet_iff_mem {d : SetDict} {k x : String} {s : List String} (h : d.get? k = some s) : InSet d k x ↔ x ∈ s := by
  unfold InSet
  simp [h]

theorem mem_valsUnion {d : SetDict} {x : String} : x ∈ valsUnion d ↔ ∃ k, InSet d k x := by
  unfold valsUnion
  rw [mem_nullableUnion]
  constructor
  · rintro ⟨t, ht, hx⟩
    obtain ⟨k, _, rfl⟩ := List.mem_map.1 ht
    exact ⟨k, mem_getOr.1 hx⟩
  · rintro ⟨k, hk⟩
    exact ⟨getOr d k, List.mem_map.2 ⟨k, hk.key, rfl⟩, mem_getOr.2 hk⟩

theorem inSet_erase {d : SetDict} {k k' x : String} : InSet (d.erase k) k' x ↔ k ≠ k' ∧ InSet d k' x := by
  unfold InSet
  rw [Dict.get?_erase]
  split <;> simp_all

theorem inAdj_set {d : Adj} {n n' l m : String} {s : SetDict} :
    InAdj (d.set n s) n' l m ↔ if n = n' then InSet s l m else InAdj d n' l m := by
  unfold InAdj
  rw [Dict.get?_set]
  split <;> simp

theorem inAdj_erase {d : Adj} {n n' l m : String} : InAdj (d.erase n) n' l m ↔ n ≠ n' ∧ InAdj d n' l m := by
  unfold InAdj
  rw [Dict.get?_erase]
  split <;> simp_all

theorem inAdj_of_get {d : Adj} {n l m : String} {s : SetDict} (h : d.get? n = some s) : InAdj d n l m ↔ InSet s l m := by
  unfold InAdj
  simp [h]

theorem not_inAdj_of_key {d : Adj} {n l m : String} (h : n ∉ d.keys) : ¬ InAdj d n l m := fun h' => h (inAdj_key h')

theorem not_inSet_of_key {d : SetDict} {n m : String} (h : n ∉ d.keys) : ¬ InSet d n m := fun h' => h h'.key

namespace CFrame

variable {R : FCall → Prop} {f : CFrame}

theorem mem_edges {s d l : String} : (s, d, l) ∈ f.edges ↔ f.HasEdge s d l := by
  unfold edges HasEdge
  simp only [PySet.mem_ofList, List.mem_flatMap, List.mem_map, Prod.mk.injEq]
  constructor
  · rintro ⟨s', _, l', _, d', hd, rfl, rfl, rfl⟩
    exact inAdj_getOr.1 (mem_getOr.1 hd)
  · intro h
    have h' := inAdj_getOr.2 h
    exact ⟨s, inAdj_key h, l, h'.key, d, mem_getOr.2 h', rfl, rfl, rfl⟩

theorem mem_edges' {e : String × String × String} : e ∈ f.edges ↔ f.HasEdge e.1 e.2.1 e.2.2 := mem_edges

theorem mem_nodes {n : String} : n ∈ f.nodes ↔ f.IsVar n ∨ f.IsFunc n := by simp [nodes]

theorem checkIO_iff {op : String} {side : SetDict} {io : Dict String FRef} : f.checkIO op side io = true ↔
    ∀ p ∈ io, ∀ v, InSet side (nameProj op p.1) v → f.HasRef v p.2.hid ∧ InSet f.refinv p.2.hid v := by
  simp only [checkIO, List.all_eq_true, Bool.and_eq_true, decide_eq_true_eq, mem_getOr]

theorem any_eq_true_iff {α : Type} {o : Option α} {p : α → Bool} : o.any p = true ↔ ∃ a, o = some a ∧ p a = true := by
  cases o <;> simp

/-- The check succeeds exactly on consistent frames. -/
theorem check_iff : f.check = true ↔ f.Consistent := by
  unfold check
  simp only [Bool.and_eq_true, setEqB_iff, PySet.subset_iff, mem_valsUnion, List.all_eq_true, decide_eq_true_eq, any_eq_true_iff,
    mem_nodes, List.mem_filterMap, mem_getOr]
  constructor
  · rintro ⟨⟨⟨⟨⟨⟨⟨⟨⟨⟨⟨h1, h2⟩, h3⟩, h4⟩, h5⟩, h6⟩, h7⟩, h8⟩, h9⟩, h10⟩, h11⟩, h12⟩
    refine ⟨fun h => (h1 h).symm, fun h => (h2 h).symm, fun h v hv => h3 v ⟨h, hv⟩, fun h v hv => h4 v ⟨h, hv⟩, ?_, h7,
      fun h c hc => h8 c ⟨h, hc⟩, fun s d l he => h9 (s, d, l) (mem_edges.2 he), ?_, ?_, ?_⟩
    · intro h c hc
      have hk := Dict.mem_keys.2 ⟨c, hc⟩
      exact ⟨h5 h hk, h6 c ⟨h, hk, hc⟩⟩
    · intro n h hn
      have := h10 n hn.key h hn
      revert this
      cases hc : f.calls.get? h <;> cases hi : f.inp.get? n <;> cases ho : f.out.get? n <;> simp [checkIO_iff]
    · intro h r hr
      obtain ⟨r', hr', hk⟩ := h11 h (Dict.mem_keys.2 ⟨r, hr⟩)
      rw [hr] at hr'
      cases hr'
      exact hk.symm
    · intro h r hr
      obtain ⟨r', hr', hk⟩ := h12 h (Dict.mem_keys.2 ⟨r, hr⟩)
      rw [hr] at hr'
      cases hr'
      exact hk.symm
  · intro H
    refine ⟨⟨⟨⟨⟨⟨⟨⟨⟨⟨⟨fun h => (H.refs h).symm, fun h => (H.calls h).symm⟩, ?_⟩, ?_⟩, ?_⟩, ?_⟩, ?_⟩, ?_⟩, ?_⟩, ?_⟩, ?_⟩, ?_⟩
    · rintro v ⟨h, hv⟩; exact H.refinv h v hv
    · rintro v ⟨h, hv⟩; exact H.callinv h v hv
    · intro h hk
      obtain ⟨c, hc⟩ := Dict.mem_keys.1 hk
      exact (H.creator h c hc).1
    · rintro c ⟨h, _, hc⟩; exact (H.creator h c hc).2
    · exact H.consumersKey
    · rintro c ⟨h, hc⟩; exact H.consumers h c hc
    · intro e he; exact H.edges _ _ _ (mem_edges'.1 he)
    · intro n _ h hn
      obtain ⟨c, i, o, hc, hi, ho, h1, h2⟩ := H.io n h hn
      simp only [hc, hi, ho, Bool.and_eq_true, checkIO_iff]
      exact ⟨h1, h2⟩
    · intro h hk
      obtain ⟨r, hr⟩ := Dict.mem_keys.1 hk
      exact ⟨r, hr, (H.refHid h r hr).symm⟩
    · intro h hk
      obtain ⟨r, hr⟩ := Dict.mem_keys.1 hk
      exact ⟨r, hr, (H.callHid h r hr).symm⟩

theorem key_of_get {V : Type} {d : Dict String V} {k : String} {v : V} (h : d.get? k = some v) : k ∈ d.keys := Dict.mem_keys.2 ⟨v, h⟩

theorem Wf.get_call (H : Wf R f) {n h : String} (hn : f.HasCall n h) : ∃ c, f.calls.get? h = some c ∧ c.hid = h ∧ R c := by
  obtain ⟨c, hc⟩ := Dict.mem_keys.1 ((H.call.calls h).2 ⟨n, hn⟩)
  exact ⟨c, hc, H.call.callOk h c hc⟩

theorem Wf.consistent (H : Wf R f) : f.Consistent where
  refs := H.ref.refs
  calls := H.call.calls
  refinv h v hv := ((H.ref.refinv h v).1 hv).key
  callinv h n hn := ((H.call.callinv h n).1 hn).key
  creator h c hc := by
    obtain ⟨hv, call, hcall, _⟩ := H.creator h c hc
    exact ⟨(H.ref.refs h).2 hv, key_of_get hcall⟩
  consumersKey h hk := (H.ref.refs h).2 (H.consumersKey h hk)
  consumers h c hc := by
    obtain ⟨call, hcall, _⟩ := H.consumers h c hc
    exact key_of_get hcall
  edges s d l he := by
    rcases H.graph.bip s d l he with h | h
    · exact ⟨.inl h.1, .inr h.2⟩
    · exact ⟨.inr h.1, .inl h.2⟩
  io n h hn := by
    obtain ⟨c, hc, hh, _⟩ := H.get_call hn
    obtain ⟨i, hi⟩ := Dict.mem_keys.1 ((H.graph.inpKey n).2 (.inr hn.key))
    obtain ⟨o, ho⟩ := Dict.mem_keys.1 ((H.graph.outKey n).2 (.inr hn.key))
    refine ⟨c, i, o, hc, hi, ho, ?_, ?_⟩
    · intro p hp v hv
      have := (H.ins n c p v hp ⟨hh ▸ hn, hh ▸ hc, (inAdj_of_get hi).2 hv⟩).1
      exact ⟨this, (H.ref.refinv _ _).2 this⟩
    · intro p hp v hv
      have := (H.outs n c p v hp ⟨hh ▸ hn, hh ▸ hc, (inAdj_of_get ho).2 hv⟩).1
      exact ⟨this, (H.ref.refinv _ _).2 this⟩
  refHid := H.ref.refHid
  callHid h c hc := (H.call.callOk h c hc).1

/-- The empty frame, cf.py lines 103-115. -/
theorem wf_empty : Wf R {} := by
  have h1 : ∀ {V : Type} (k : String), k ∉ Dict.keys ([] : Dict String V) := by intro V k; simp [Dict.keys]
  have h2 : ∀ (k x : String), ¬ InSet ([] : SetDict) k x := fun k x h => h1 k h.key
  have h3 : ∀ (a b c : String), ¬ InAdj ([] : Adj) a b c := fun a b c h => h1 a (inAdj_key h)
  constructor
  · constructor <;> simp [h1, h3, IsVar, IsFunc]
  · constructor <;> simp [h1, h2, HasRef]
  · constructor <;> simp [h1, h2, HasCall]
  all_goals simp [h1, h2, Tracks, HasCall, HasRef]

end CFrame
end Verif
