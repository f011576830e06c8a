import Verif.Spec.FrameFilter
import Verif.Proofs.CFrameReach
/-!
What filtering a frame by values gives.
-/
namespace Verif

open Props

theorem keys_union {a b : SetDict} {k : String} : k ∈ (setdictUnion a b).keys ↔ k ∈ a.keys ∨ k ∈ b.keys := by
  unfold setdictUnion
  rw [keys_mapKeys, mem_keysOr]

namespace CFrame

variable {R : FCall → Prop} {f : CFrame} {eord : List Edge → List Edge}

theorem adjUpdate_spec (hR : RecOk R) (H : Wf R f) (L : LabelsOk f) {dir : Side} {n : String} {hids : List String} (hh : ∀ x ∈ hids, f.HasRef n x)
    (es : List Edge) (he : ∀ e ∈ es, f.HasEdge e.1 e.2.1 e.2.2 ∧ startOf dir e = n) (res : SetDict) :
    ∃ res', f.adjUpdate dir hids res es = .ok res' ∧ (∀ k, k ∈ res'.keys ↔ k ∈ res.keys ∨ ∃ e ∈ es, endOf dir e = k) ∧
      (∀ k y, InSet res' k y → InSet res k y ∨ ∃ x ∈ hids, Linked f dir n x k y) ∧
      (∀ k, (∀ e ∈ es, endOf dir e ≠ k) → ∀ y, InSet res' k y ↔ InSet res k y) ∧
      (∀ e ∈ es, (∀ e' ∈ es, endOf dir e' = endOf dir e → e' = e) → ∀ y, InSet res' (endOf dir e) y ↔ ∃ x ∈ hids, LeadsTo f dir e.2.2 n x (endOf dir e) y) := by
  induction es generalizing res with
  | nil => exact ⟨res, rfl, by simp, fun _ _ h => .inl h, fun _ _ _ => Iff.rfl, by simp⟩
  | cons e es ih =>
    obtain ⟨hed, hst⟩ := he e (by simp)
    obtain ⟨ys, hys, hy⟩ := adjEltsEdge_spec hR H L (dir := dir) hed (hids := hids) (fun x hx => .inl (by
      have := hh x hx
      rw [← hst] at this
      exact this))
    have hst' : startOf dir (e.1, e.2.1, e.2.2) = n := hst
    rw [hst'] at hy
    have hendeq : farEnd dir e = endOf dir e := by cases dir <;> rfl
    obtain ⟨res', h1, h2, h3, h4, h5⟩ := ih (fun e' h' => he e' (by simp [h'])) (res.set (endOf dir e) ys)
    have hset : ∀ k y, InSet (res.set (endOf dir e) ys) k y ↔ if k = endOf dir e then y ∈ ys else InSet res k y := by
      intro k y
      unfold InSet
      rw [Dict.get?_set]
      by_cases hk : k = endOf dir e
      · subst hk; simp
      · simp [hk, Ne.symm hk]
    refine ⟨res', ?_, ?_, ?_, ?_, ?_⟩
    · unfold adjUpdate at h1 ⊢
      have hys' : f.adjEltsEdge e hids dir = .ok ys := hys
      have hstep : (do
          let ys ← f.adjEltsEdge e hids dir
          .ok (res.set (farEnd dir e) ys) : Except Err SetDict) = .ok (res.set (endOf dir e) ys) := by
        rw [hys', hendeq]; rfl
      rw [List.foldlM_cons, hstep]
      exact h1
    · intro k
      rw [h2, Dict.mem_keys_set]
      simp only [List.mem_cons, exists_eq_or_imp]
      constructor
      · rintro ((h | h) | h)
        · first | exact .inl h | exact .inr (.inl h.symm)
        · first | exact .inl h | exact .inr (.inl h.symm)
        · exact .inr (.inr h)
      · rintro (h | h | h)
        · first | exact .inl (.inl h) | exact .inl (.inr h)
        · first | exact .inl (.inl h.symm) | exact .inl (.inr h.symm)
        · exact .inr h
    · intro k y h
      rcases h3 k y h with h | h
      · rw [hset] at h
        split at h
        · rename_i hk
          obtain ⟨x, hx, hl⟩ := (hy y).1 h
          refine .inr ⟨x, hx, e.2.2, ?_, ?_⟩
          · subst hk; rw [← hst]; cases dir <;> exact hed
          · subst hk; exact hl
        · exact .inl h
      · exact .inr h
    · intro k hk y
      rw [h4 k (fun e' h' => hk e' (by simp [h'])), hset, if_neg (Ne.symm (hk e (by simp)))]
    · intro e0 he0 hu y
      by_cases hin : e0 ∈ es
      · exact h5 e0 hin (fun e' h' => hu e' (by simp [h'])) y
      · rcases List.mem_cons.1 he0 with rfl | h'
        · rw [h4 _ (fun e' h' hc => hin (hu e' (by simp [h']) hc ▸ h')), hset, if_pos rfl]
          exact hy y
        · exact absurd h' hin

/-- Nodes joined by an edge. -/
def Beside (f : CFrame) (v n : String) : Prop := ∃ l, f.HasEdge v n l ∨ f.HasEdge n v l

theorem mem_inEdges_iff {n : String} {e : Edge} : e ∈ f.inEdges n ↔ f.HasEdge e.1 e.2.1 e.2.2 ∧ e.2.1 = n := by
  simp [inEdges, PySet.mem_ofList, List.mem_filter, mem_edges']

theorem mem_outEdges_iff {n : String} {e : Edge} : e ∈ f.outEdges n ↔ f.HasEdge e.1 e.2.1 e.2.2 ∧ e.1 = n := by
  simp [outEdges, PySet.mem_ofList, List.mem_filter, mem_edges']

theorem adjEltsBoth_spec (hord : ∀ l e, e ∈ eord l ↔ e ∈ l) (hR : RecOk R) (H : Wf R f) (L : LabelsOk f) {n : String} {hids : List String}
    (hh : ∀ x ∈ hids, f.HasRef n x) :
    ∃ res, f.adjEltsBoth eord n hids = .ok res ∧ (∀ k, k ∈ res.keys ↔ Beside f n k) ∧
      (∀ k y, InSet res k y → ∃ x ∈ hids, Linked f .back n x k y ∨ Linked f .forward n x k y) ∧
      (SingleEdges f → ∀ k y x, x ∈ hids → Linked f .back n x k y ∨ Linked f .forward n x k y → InSet res k y) := by
  obtain ⟨r1, a1, a2, a3, a4, a5⟩ := adjUpdate_spec hR H L hh (dir := .back) (eord (f.inEdges n))
    (fun e he => by rw [hord, mem_inEdges_iff] at he; exact he) []
  obtain ⟨r2, b1, b2, b3, b4, b5⟩ := adjUpdate_spec hR H L hh (dir := .forward) (eord (f.outEdges n))
    (fun e he => by rw [hord, mem_outEdges_iff] at he; exact he) r1
  refine ⟨r2, ?_, ?_, ?_, ?_⟩
  · unfold adjEltsBoth; rw [a1]; exact b1
  · intro k
    rw [b2, a2]
    simp only [hord, mem_inEdges_iff, mem_outEdges_iff]
    constructor
    · rintro ((h | ⟨e, ⟨he, rfl⟩, rfl⟩) | ⟨e, ⟨he, rfl⟩, rfl⟩)
      · simp [Dict.keys] at h
      · exact ⟨_, .inr he⟩
      · exact ⟨_, .inl he⟩
    · rintro ⟨l, h | h⟩
      · exact .inr ⟨(n, k, l), ⟨h, rfl⟩, rfl⟩
      · exact .inl (.inr ⟨(k, n, l), ⟨h, rfl⟩, rfl⟩)
  · intro k y h
    rcases b3 k y h with h | ⟨x, hx, hl⟩
    · rcases a3 k y h with ⟨s, h, _⟩ | ⟨x, hx, hl⟩
      · cases h
      · exact ⟨x, hx, .inl hl⟩
    · exact ⟨x, hx, .inr hl⟩
  · intro hs k y x hx hl
    rcases hl with ⟨l, he, hl⟩ | ⟨l, he, hl⟩
    · have he' : f.HasEdge k n l := he
      rw [b4 k]
      · refine (a5 (k, n, l) ((hord _ _).2 (mem_inEdges_iff.2 ⟨he', rfl⟩)) ?_ y).2 ⟨x, hx, hl⟩
        rintro ⟨s, d, l'⟩ h' (rfl : s = k)
        rw [hord, mem_inEdges_iff] at h'
        obtain ⟨h', rfl⟩ := h'
        rw [(hs s d l l').1 he' h']
      · rintro ⟨s, d, l'⟩ h' (rfl : d = k)
        rw [hord, mem_outEdges_iff] at h'
        obtain ⟨h', rfl⟩ := h'
        exact (hs d s l l').2 he' h'
    · have he' : f.HasEdge n k l := he
      refine (b5 (n, k, l) ((hord _ _).2 (mem_outEdges_iff.2 ⟨he', rfl⟩)) ?_ y).2 ⟨x, hx, hl⟩
      rintro ⟨s, d, l'⟩ h' (rfl : d = k)
      rw [hord, mem_outEdges_iff] at h'
      obtain ⟨h', rfl⟩ := h'
      rw [(hs s d l l').1 he' h']

theorem beside_func (G : GraphWf f) {v k : String} (hv : f.IsVar v) (h : Beside f v k) : f.IsFunc k := by
  obtain ⟨l, h | h⟩ := h
  · rcases G.bip _ _ _ h with h | h
    · exact h.2
    · exact absurd h.1 (G.disj v hv)
  · rcases G.bip _ _ _ h with h | h
    · exact absurd h.2 (G.disj v hv)
    · exact h.1

theorem linked_beside {dir : Side} {v x k y : String} (h : Linked f dir v x k y) : Beside f v k := by
  obtain ⟨l, h, _⟩ := h
  cases dir
  · exact ⟨l, .inr h⟩
  · exact ⟨l, .inl h⟩

theorem addAdjCalls_spec (hord : ∀ l e, e ∈ eord l ↔ e ∈ l) (hR : RecOk R) (H : Wf R f) (L : LabelsOk f) (vs : List String) (hvs : ∀ v ∈ vs, f.IsVar v)
    (d : SetDict) (hd : ∀ v x, f.IsVar v → InSet d v x → f.HasRef v x) :
    ∃ d', (vs.foldlM (fun res v => do
        let new ← f.adjEltsBoth eord v (getOr res v)
        .ok (setdictUnion res new)) d) = .ok d' ∧
      (∀ k, k ∈ d'.keys ↔ k ∈ d.keys ∨ ∃ v ∈ vs, Beside f v k) ∧
      (∀ v x, f.IsVar v → (InSet d' v x ↔ InSet d v x)) ∧
      (∀ k y, InSet d k y → InSet d' k y) ∧
      (∀ k y, InSet d' k y → InSet d k y ∨ ∃ v ∈ vs, ∃ x, InSet d v x ∧ (Linked f .back v x k y ∨ Linked f .forward v x k y)) ∧
      (SingleEdges f → ∀ v ∈ vs, ∀ x k y, InSet d v x → Linked f .back v x k y ∨ Linked f .forward v x k y → InSet d' k y) := by
  induction vs generalizing d with
  | nil => exact ⟨d, rfl, by simp, fun _ _ _ => Iff.rfl, fun _ _ h => h, fun _ _ h => .inl h, by simp⟩
  | cons v vs ih =>
    have hv := hvs v (by simp)
    obtain ⟨r, r1, r2, r3, r4⟩ := adjEltsBoth_spec hord hR H L (n := v) (hids := getOr d v) (fun x hx => hd v x hv (mem_getOr.1 hx))
    have hrow : ∀ w x, f.IsVar w → (InSet (setdictUnion d r) w x ↔ InSet d w x) := by
      intro w x hw
      rw [inSet_union]
      constructor
      · rintro (h | h)
        · exact h
        · exact absurd (beside_func H.graph hv ((r2 w).1 h.key)) (H.graph.disj w hw)
      · exact .inl
    obtain ⟨d', a1, a2, a3, a4, a5, a6⟩ := ih (fun w hw => hvs w (by simp [hw])) (setdictUnion d r)
      (fun w x hw h => hd w x hw ((hrow w x hw).1 h))
    refine ⟨d', ?_, ?_, ?_, ?_, ?_, ?_⟩
    · rw [List.foldlM_cons]
      simp only [r1]
      exact a1
    · intro k
      rw [a2, keys_union, r2]
      simp only [List.mem_cons, exists_eq_or_imp]
      exact or_assoc
    · intro w x hw
      rw [a3 w x hw, hrow w x hw]
    · intro k y h
      exact a4 k y (inSet_union.2 (.inl h))
    · intro k y h
      rcases a5 k y h with h | ⟨w, hw, x, hx, hl⟩
      · rcases inSet_union.1 h with h | h
        · exact .inl h
        · obtain ⟨x, hx, hl⟩ := r3 k y h
          exact .inr ⟨v, by simp, x, mem_getOr.1 hx, hl⟩
      · exact .inr ⟨w, by simp [hw], x, (hrow w x (hvs w (by simp [hw]))).1 hx, hl⟩
    · intro hs w hw x k y hx hl
      rcases List.mem_cons.1 hw with rfl | hw'
      · exact a4 k y (inSet_union.2 (.inr (r4 hs k y x (mem_getOr.2 hx) hl)))
      · exact a6 hs w hw' x k y ((hrow w x (hvs w hw)).2 hx) hl

theorem matching_spec {test : FRef → Except Err Bool} (hids : List String) (ht : ∀ h ∈ hids, ∃ r b, f.refs.get? h = some r ∧ test r = .ok b) :
    ∃ hs, f.matching test hids = .ok hs ∧ ∀ h, h ∈ hs ↔ h ∈ hids ∧ ∃ r, f.refs.get? h = some r ∧ test r = .ok true := by
  unfold matching
  suffices ∀ acc : List String, ∃ hs, hids.foldlM (fun acc h => do
      let r ← getE f.refs h
      let b ← test r
      .ok (if b then PySet.add acc h else acc)) acc = .ok hs ∧ ∀ h, h ∈ hs ↔ h ∈ acc ∨ h ∈ hids ∧ ∃ r, f.refs.get? h = some r ∧ test r = .ok true by
    obtain ⟨hs, h1, h2⟩ := this []
    exact ⟨hs, h1, by simpa using h2⟩
  induction hids with
  | nil => intro acc; exact ⟨acc, rfl, by simp⟩
  | cons h hids ih =>
    intro acc
    obtain ⟨r, b, hr, hb⟩ := ht h (by simp)
    obtain ⟨hs, h1, h2⟩ := ih (fun h' hh => ht h' (by simp [hh])) (if b then PySet.add acc h else acc)
    refine ⟨hs, ?_, ?_⟩
    · have hstep : (do
          let r ← getE f.refs h
          let b ← test r
          .ok (if b then PySet.add acc h else acc) : Except Err (List String)) = .ok (if b then PySet.add acc h else acc) := by
        have : getE f.refs h = .ok r := by simp [getE, hr]
        rw [this]
        change (test r >>= _) = _
        rw [hb]; rfl
      rw [List.foldlM_cons, hstep]
      exact h1
    · intro x
      rw [h2]
      have hx : x = h → ((∃ r, f.refs.get? x = some r ∧ test r = .ok true) ↔ b = true) := by
        rintro rfl
        constructor
        · rintro ⟨r', hr', ht'⟩
          rw [hr] at hr'; cases hr'
          rw [hb] at ht'; cases ht'; rfl
        · intro hb'; subst hb'; exact ⟨r, hr, hb⟩
      cases b with
      | true =>
        simp only [if_true, PySet.mem_add, List.mem_cons]
        constructor
        · rintro ((h' | h') | ⟨h', h''⟩)
          · first | exact .inl h' | exact .inr ⟨.inl h', (hx h').2 rfl⟩
          · first | exact .inl h' | exact .inr ⟨.inl h', (hx h').2 rfl⟩
          · exact .inr ⟨.inr h', h''⟩
        · rintro (h' | ⟨h' | h', h''⟩)
          · first | exact .inl (.inl h') | exact .inl (.inr h')
          · first | exact .inl (.inr h') | exact .inl (.inl h')
          · exact .inr ⟨h', h''⟩
      | false =>
        simp only [Bool.false_eq_true, if_false, List.mem_cons]
        constructor
        · rintro (h' | ⟨h', h''⟩)
          · exact .inl h'
          · exact .inr ⟨.inr h', h''⟩
        · rintro (h' | ⟨h' | h', h''⟩)
          · exact .inl h'
          · exact absurd ((hx h').1 h'') (by simp)
          · exact .inr ⟨h', h''⟩

theorem matching_error {test : FRef → Except Err Bool} {hids hs : List String} (h : f.matching test hids = .ok hs) :
    ∀ x ∈ hids, ∃ r b, f.refs.get? x = some r ∧ test r = .ok b := by
  unfold matching at h
  suffices ∀ acc : List String, hids.foldlM (fun acc h => do
      let r ← getE f.refs h
      let b ← test r
      .ok (if b then PySet.add acc h else acc)) acc = .ok hs → ∀ x ∈ hids, ∃ r b, f.refs.get? x = some r ∧ test r = .ok b from this [] h
  clear h
  induction hids with
  | nil => simp
  | cons a hids ih =>
    intro acc h x hx
    rw [List.foldlM_cons] at h
    cases hr : f.refs.get? a with
    | none => simp only [getE, hr] at h; cases h
    | some r =>
      cases hb : test r with
      | error e => simp only [getE, hr] at h; change (test r >>= _) >>= _ = _ at h; rw [hb] at h; cases h
      | ok b =>
        rcases List.mem_cons.1 hx with rfl | hx
        · exact ⟨r, b, hr, hb⟩
        · simp only [getE, hr] at h
          change (test r >>= _) >>= _ = _ at h
          rw [hb] at h
          exact ih _ h x hx

/-- The variables with their matching values. -/
theorem view_spec (H : Wf R f) {test : FRef → Except Err Bool} (T : Testable f test) :
    ∃ view : SetDict, ((PySet.ofList f.vs.keys).mapM fun v => do
      let hs ← f.matching test (getOr f.vs v)
      .ok (v, hs)) = (.ok view : Except Err SetDict) ∧ (∀ v, v ∈ view.keys ↔ f.IsVar v) ∧ ∀ v x, InSet view v x ↔ Matches f test v x := by
  have hm : ∀ v : String, ∃ hs, f.matching test (getOr f.vs v) = .ok hs ∧
      ∀ h, h ∈ hs ↔ h ∈ getOr f.vs v ∧ ∃ r, f.refs.get? h = some r ∧ test r = .ok true := by
    intro v
    refine matching_spec _ fun h hh => ?_
    have hh := mem_getOr.1 hh
    obtain ⟨r, hr⟩ := Dict.mem_keys.1 ((H.ref.refs h).2 ⟨v, hh⟩)
    obtain ⟨b, hb⟩ := T v h r hh hr
    exact ⟨r, b, hr, hb⟩
  obtain ⟨G, hG⟩ := Classical.axiomOfChoice hm
  refine ⟨(PySet.ofList f.vs.keys).map fun v => (v, G v), mapM_ok fun v _ => ?_, ?_, ?_⟩
  · rw [(hG v).1]; rfl
  · intro v; rw [keys_mapKeys, PySet.mem_ofList]
  · intro v x
    unfold InSet
    rw [get?_mapKeys]
    by_cases hv : v ∈ PySet.ofList f.vs.keys
    · rw [if_pos hv]
      constructor
      · rintro ⟨s, hs, hx⟩
        cases hs
        obtain ⟨h1, h2⟩ := ((hG v).2 x).1 hx
        exact ⟨mem_getOr.1 h1, h2⟩
      · rintro ⟨h1, h2⟩
        exact ⟨_, rfl, ((hG v).2 x).2 ⟨mem_getOr.2 h1, h2⟩⟩
    · rw [if_neg hv]
      constructor
      · rintro ⟨s, hs, _⟩; cases hs
      · rintro ⟨h1, _⟩; exact absurd (PySet.mem_ofList.2 h1.key) hv

theorem linked_meets (H : Wf R f) {v x n h : String} (hv : f.IsVar v) (hl : Linked f .back v x n h ∨ Linked f .forward v x n h) : Meets f v x n h := by
  rcases hl with ⟨l, he, h' | h'⟩ | ⟨l, he, h' | h'⟩
  · obtain ⟨_, hc, hcr⟩ := h'
    obtain ⟨_, c, h1, p, h2, h3⟩ := H.creator _ _ hcr
    exact ⟨hc, c, h1, .inr ⟨p, h2, ⟨l, he⟩, h3⟩⟩
  · exact absurd h'.1 (H.graph.disj v hv)
  · obtain ⟨_, hc, c, h1, p, h2, h3, h4⟩ := h'
    exact ⟨hc, c, h1, .inl ⟨p, h2, ⟨l, he⟩, h4⟩⟩
  · exact absurd h'.1 (H.graph.disj v hv)

theorem usedAt_linked (H : Wf R f) {v x n h : String} (hv : f.IsVar v) (ht : UsedAt f v x n h) : Linked f .back v x n h ∨ Linked f .forward v x n h := by
  obtain ⟨hc, c, h1, ⟨p, hp, he, rfl⟩ | ⟨p, hp, he, rfl⟩⟩ := ht
  · exact .inr ⟨_, he, .inl ⟨hv, hc, c, h1, p, hp, rfl, rfl⟩⟩
  · obtain ⟨hh, _⟩ := H.call.callOk _ _ h1
    subst hh
    exact .inl ⟨_, he, .inl ⟨hv, hc, (H.outs n c p v hp ⟨hc, h1, he⟩).2⟩⟩

end CFrame
end Verif
