import Verif.Model.CFrameHistory
import Verif.Spec.FrameHistory
import Verif.Proofs.CFrameReach
import Verif.Proofs.CFrameDfs
/-!
The direct history: what it contains.
-/
namespace Verif

open Props

theorem inSet_recordIn {d : SetDict} {k x k' y : String} : InSet (recordIn d k x) k' y ↔ InSet d k' y ∨ (k' = k ∧ y = x) := by
  unfold recordIn
  rw [inSet_set]
  by_cases h : k = k'
  · subst h
    simp [mem_getOr]
  · simp [h, Ne.symm h]

theorem keys_recordIn {d : SetDict} {k x k' : String} : k' ∈ (recordIn d k x).keys ↔ k' ∈ d.keys ∨ k' = k := by
  unfold recordIn
  rw [Dict.mem_keys_set]
  constructor
  · rintro (rfl | h)
    · exact .inr rfl
    · exact .inl h
  · rintro (h | rfl)
    · exact .inr h
    · exact .inl rfl

theorem isSubobject_iff {a b : SetDict} : isSubobject a b = true ↔
    (∀ k x, InSet a k x → InSet b k x) ∧ ∀ k ∈ a.keys, k ∈ b.keys := by
  unfold isSubobject
  simp only [Bool.and_eq_true, List.all_eq_true, mem_keysAnd, PySet.subset_iff, Dict.has_iff, mem_getOr]
  constructor
  · rintro ⟨h1, h2⟩
    exact ⟨fun k x h => h1 k ⟨h.key, h2 k h.key⟩ x h, h2⟩
  · rintro ⟨h1, h2⟩
    exact ⟨fun k _ x h => h1 k x h, h2⟩

/-- A loop whose every round adds the pairs `P a` adds all of them. -/
theorem foldlM_adds {α : Type} {step : SetDict → α → Except Err SetDict} {P : α → String → String → Prop} (l : List α)
    (hs : ∀ a ∈ l, ∀ d, ∃ d', step d a = .ok d' ∧ (∀ k x, InSet d' k x ↔ InSet d k x ∨ P a k x) ∧
      (∀ k, k ∈ d'.keys ↔ k ∈ d.keys ∨ ∃ x, P a k x)) (d : SetDict) :
    ∃ d', l.foldlM step d = .ok d' ∧ (∀ k x, InSet d' k x ↔ InSet d k x ∨ ∃ a ∈ l, P a k x) ∧
      (∀ k, k ∈ d'.keys ↔ k ∈ d.keys ∨ ∃ x, ∃ a ∈ l, P a k x) := by
  induction l generalizing d with
  | nil => exact ⟨d, rfl, by simp, by simp⟩
  | cons a l ih =>
    obtain ⟨d1, h1, h2, h3⟩ := hs a (by simp) d
    obtain ⟨d2, h4, h5, h6⟩ := ih (fun b hb => hs b (by simp [hb])) d1
    refine ⟨d2, ?_, ?_, ?_⟩
    · rw [List.foldlM_cons, h1]
      exact h4
    · intro k x
      rw [h5, h2]
      simp [or_assoc]
    · intro k
      rw [h6, h3, or_assoc]
      simp [exists_or]

namespace CFrame

variable {R : FCall → Prop} {f : CFrame}

theorem historyEdge_spec (hR : RecOk R) {c : FCall} (hc : R c) {s n l : String} (hs : f.IsVar s)
    (hl : c.op = makeListName → isElt l = false) (d : SetDict) :
    ∃ d', f.historyEdge c d (s, n, l) = .ok d' ∧
      (∀ k x, InSet d' k x ↔ InSet d k x ∨ k = s ∧ f.HasRef s x ∧ ∃ p ∈ c.inputs, nameProj c.op p.1 = l ∧ p.2.hid = x) ∧
      (∀ k, k ∈ d'.keys ↔ k ∈ d.keys ∨ ∃ x, k = s ∧ f.HasRef s x ∧ ∃ p ∈ c.inputs, nameProj c.op p.1 = l ∧ p.2.hid = x) := by
  obtain ⟨S, hS⟩ := Dict.mem_keys.1 hs
  have hm : ∀ x, f.HasRef s x ↔ x ∈ S := fun x => inSet_iff_mem hS
  obtain ⟨d', h1, h2, h3⟩ := foldlM_adds (step := fun res n =>
      match Dict.get? c.inputs n with
      | none => .ok res
      | some r => do
        let s' ← getE f.vs s
        .ok (if r.hid ∈ s' then recordIn res s r.hid else res))
    (P := fun nm k x => k = s ∧ f.HasRef s x ∧ (Dict.get? c.inputs nm).map (·.hid) = some x) (reverseProj c l) (by
      intro nm _ d
      cases hg : Dict.get? c.inputs nm with
      | none => exact ⟨d, rfl, by simp, by simp⟩
      | some r =>
        rw [show getE f.vs s = .ok S from getE_ok.2 hS]
        refine ⟨_, rfl, ?_, ?_⟩
        · intro k x
          simp only [Option.map_some, Option.some.injEq, hm]
          split
          · rename_i hr
            rw [inSet_recordIn]
            constructor
            · rintro (h | ⟨rfl, rfl⟩)
              · exact .inl h
              · exact .inr ⟨rfl, hr, rfl⟩
            · rintro (h | ⟨rfl, _, rfl⟩)
              · exact .inl h
              · exact .inr ⟨rfl, rfl⟩
          · rename_i hr
            constructor
            · exact .inl
            · rintro (h | ⟨rfl, h, rfl⟩)
              · exact h
              · exact absurd h hr
        · intro k
          simp only [Option.map_some, Option.some.injEq, hm]
          split
          · rename_i hr
            rw [keys_recordIn]
            constructor
            · rintro (h | rfl)
              · exact .inl h
              · exact .inr ⟨r.hid, rfl, hr, rfl⟩
            · rintro (h | ⟨x, rfl, _, rfl⟩)
              · exact .inl h
              · exact .inr rfl
          · rename_i hr
            constructor
            · exact .inl
            · rintro (h | ⟨x, rfl, h, rfl⟩)
              · exact h
              · exact absurd h hr) d
  have key : ∀ x, (∃ a ∈ reverseProj c l, (Dict.get? c.inputs a).map (·.hid) = some x) ↔
      ∃ p ∈ c.inputs, nameProj c.op p.1 = l ∧ p.2.hid = x := by
    intro x
    rw [← mem_reverse_inputs hR hc hl, List.mem_filterMap]
  refine ⟨d', h1, ?_, ?_⟩
  · intro k x
    rw [h2, ← key]
    constructor
    · rintro (h | ⟨a, ha, h1, h2, h3⟩)
      · exact .inl h
      · exact .inr ⟨h1, h2, a, ha, h3⟩
    · rintro (h | ⟨h1, h2, a, ha, h3⟩)
      · exact .inl h
      · exact .inr ⟨a, ha, h1, h2, h3⟩
  · intro k
    rw [h3]
    simp only [← key]
    constructor
    · rintro (h | ⟨x, a, ha, h1, h2, h3⟩)
      · exact .inl h
      · exact .inr ⟨x, h1, h2, a, ha, h3⟩
    · rintro (h | ⟨x, h1, h2, a, ha, h3⟩)
      · exact .inl h
      · exact .inr ⟨x, a, ha, h1, h2, h3⟩

theorem mem_inEdges {n : String} {e : String × String × String} : e ∈ f.inEdges n ↔ f.HasEdge e.1 n e.2.2 ∧ e.2.1 = n := by
  unfold inEdges
  rw [PySet.mem_ofList, List.mem_filter, mem_edges']
  simp only [decide_eq_true_eq]
  constructor
  · rintro ⟨h, rfl⟩; exact ⟨h, rfl⟩
  · rintro ⟨h, rfl⟩; exact ⟨h, rfl⟩

/-- What one function with the call `c` adds. -/
def FromFunc (f : CFrame) (inc : Bool) (c : FCall) (n k x : String) : Prop :=
  (∃ p ∈ c.inputs, f.HasEdge k n (nameProj c.op p.1) ∧ p.2.hid = x) ∨ (inc = true ∧ k = n ∧ x = c.hid)

theorem historyFunc_spec (hR : RecOk R) (H : Wf R f) (hL : f.LabelsOk) {c : FCall} {n : String} (hc : f.calls.get? c.hid = some c)
    (hn : f.HasCall n c.hid) (inc : Bool) (d : SetDict) :
    ∃ d', f.historyFunc c c.hid inc d n = .ok d' ∧ (∀ k x, InSet d' k x ↔ InSet d k x ∨ f.FromFunc inc c n k x) ∧
      (∀ k, k ∈ d'.keys ↔ k ∈ d.keys ∨ ∃ x, f.FromFunc inc c n k x) := by
  have hRc : R c := (H.call.callOk _ _ hc).2
  obtain ⟨d', h1, h2, h3⟩ := foldlM_adds (step := f.historyEdge c)
    (P := fun e k x => k = e.1 ∧ f.HasRef e.1 x ∧ ∃ p ∈ c.inputs, nameProj c.op p.1 = e.2.2 ∧ p.2.hid = x) (f.inEdges n) (by
      rintro ⟨s, n', l⟩ he d
      obtain ⟨he, rfl⟩ := mem_inEdges.1 he
      have hs : f.IsVar s := by
        rcases H.graph.bip _ _ _ he with h | h
        · exact h.1
        · exact absurd hn.key (H.graph.disj _ h.2)
      exact historyEdge_spec hR hRc hs (fun h => hL _ _ _ _ _ he hn hc h) d) (if inc then recordIn d n c.hid else d)
  have key : ∀ k x, (∃ e ∈ f.inEdges n, k = e.1 ∧ f.HasRef e.1 x ∧ ∃ p ∈ c.inputs, nameProj c.op p.1 = e.2.2 ∧ p.2.hid = x) ↔
      ∃ p ∈ c.inputs, f.HasEdge k n (nameProj c.op p.1) ∧ p.2.hid = x := by
    intro k x
    constructor
    · rintro ⟨e, he, rfl, _, p, hp, h1, h2⟩
      exact ⟨p, hp, h1 ▸ (mem_inEdges.1 he).1, h2⟩
    · rintro ⟨p, hp, he, rfl⟩
      exact ⟨(k, n, nameProj c.op p.1), mem_inEdges.2 ⟨he, rfl⟩, rfl,
        (H.ins n c p k hp ⟨hn, hc, (H.graph.sym _ _ _).1 he⟩).1, p, hp, rfl, rfl⟩
  refine ⟨d', h1, ?_, ?_⟩
  · intro k x
    rw [h2, key, FromFunc]
    cases inc
    · simp
    · simp only [if_true, inSet_recordIn, true_and]
      rw [or_assoc, or_comm (a := k = n ∧ x = c.hid)]
  · intro k
    rw [h3]
    simp only [key, FromFunc, exists_or]
    cases inc
    · simp
    · simp only [if_true, keys_recordIn, true_and]
      rw [or_assoc, or_comm (a := k = n)]
      simp

/-- What the value `h` adds to the direct history of the variable `v`. -/
theorem historyOf_spec (hR : RecOk R) (H : Wf R f) (hL : f.LabelsOk) {v h : String} (hv : f.IsVar v) (inc : Bool) (d : SetDict) :
    ∃ d', f.historyOf v inc d h = .ok d' ∧ (∀ k x, InSet d' k x ↔ InSet d k x ∨
        ∃ c n, f.MadeBy v h n c ∧ f.FromFunc inc c n k x) ∧
      (∀ k, k ∈ d'.keys ↔ k ∈ d.keys ∨ ∃ x,
        ∃ c n, f.MadeBy v h n c ∧ f.FromFunc inc c n k x) := by
  unfold historyOf
  cases hcr : f.creator.get? h with
  | none => exact ⟨d, rfl, by simp [MadeBy, hcr], by simp [MadeBy, hcr]⟩
  | some ch =>
    obtain ⟨_, c, hc, _⟩ := H.creator _ _ hcr
    obtain ⟨rfl, hRc⟩ := H.call.callOk _ _ hc
    have hck : c.hid ∈ f.callinv.keys := (H.call.callinvKey _).2 ((H.call.calls _).1 (key_of_get hc))
    obtain ⟨ns, hns⟩ := Dict.mem_keys.1 hck
    obtain ⟨i, hi⟩ := Dict.mem_keys.1 ((H.graph.inpKey v).2 (.inl hv))
    have hmem : ∀ n, n ∈ PySet.inter ns (valsUnion i) ↔ f.HasCall n c.hid ∧ ∃ l, f.HasEdge n v l := by
      intro n
      rw [PySet.mem_inter, ← H.call.callinv, inSet_iff_mem hns, mem_valsUnion]
      simp only [HasEdge, H.graph.sym, inAdj_of_get hi]
    obtain ⟨d', h1, h2, h3⟩ := foldlM_adds (step := f.historyFunc c c.hid inc) (P := f.FromFunc inc c) (PySet.inter ns (valsUnion i)) (by
      intro n hn d
      exact historyFunc_spec hR H hL hc ((hmem n).1 hn).1 inc d) []
    refine ⟨setdictUnion d d', ?_, ?_, ?_⟩
    · simp only [show getE f.calls c.hid = .ok c from getE_ok.2 hc, show getE f.callinv c.hid = .ok ns from getE_ok.2 hns, inNeighbors,
        show getE f.inp v = .ok i from getE_ok.2 hi, bind, Except.bind, h1]
    · intro k x
      rw [inSet_union, h2]
      have : ¬ InSet ([] : SetDict) k x := by rintro ⟨s, hs, _⟩; cases hs
      simp only [this, false_or, hmem]
      constructor
      · rintro (h | ⟨n, ⟨hn, hl⟩, hf⟩)
        · exact .inl h
        · exact .inr ⟨c, n, ⟨hcr, hc, hn, hl⟩, hf⟩
      · rintro (h | ⟨c', n, ⟨he, hc', hn, hl⟩, hf⟩)
        · exact .inl h
        · have hcc : c' = c := Option.some.inj (hc'.symm.trans ((Option.some.inj (hcr.symm.trans he)) ▸ hc))
          subst hcc
          exact .inr ⟨n, ⟨hn, hl⟩, hf⟩
    · intro k
      rw [(C55_setdict_union_intersection d d').2.1, h3]
      simp only [Dict.keys, List.map_nil, List.not_mem_nil, false_or, hmem]
      constructor
      · rintro (h | ⟨x, n, ⟨hn, hl⟩, hf⟩)
        · exact .inl h
        · exact .inr ⟨x, c, n, ⟨hcr, hc, hn, hl⟩, hf⟩
      · rintro (h | ⟨x, c', n, ⟨he, hc', hn, hl⟩, hf⟩)
        · exact .inl h
        · have hcc : c' = c := Option.some.inj (hc'.symm.trans ((Option.some.inj (hcr.symm.trans he)) ▸ hc))
          subst hcc
          exact .inr ⟨x, n, ⟨hn, hl⟩, hf⟩

theorem madeFrom_iff {inc : Bool} {v h k x : String} :
    f.MadeFrom inc (v, h) (k, x) ↔ ∃ c n, f.MadeBy v h n c ∧ f.FromFunc inc c n k x := by
  constructor
  · intro h
    cases h with
    | input hm hp he => exact ⟨_, _, hm, .inl ⟨_, hp, he, rfl⟩⟩
    | call hm hi => exact ⟨_, _, hm, .inr ⟨hi, rfl, rfl⟩⟩
  · rintro ⟨c, n, hm, ⟨p, hp, he, rfl⟩ | ⟨hi, rfl, rfl⟩⟩
    · exact .input hm hp he
    · exact .call hm hi

/-- The direct history of the values `hids` of a variable: these values and what is one step back from them. -/
theorem directHistory_spec (hR : RecOk R) (H : Wf R f) (hL : f.LabelsOk) {v : String} (hv : f.IsVar v) (hids : List String) (inc : Bool) :
    ∃ d, f.directHistory v hids inc = .ok d ∧
      (∀ k x, InSet d k x ↔ (k = v ∧ x ∈ hids) ∨ ∃ h ∈ hids, f.MadeFrom inc (v, h) (k, x)) ∧
      (∀ k, k ∈ d.keys ↔ k = v ∨ ∃ x, ∃ h ∈ hids, f.MadeFrom inc (v, h) (k, x)) := by
  obtain ⟨d, h1, h2, h3⟩ := foldlM_adds (step := f.historyOf v inc) (P := fun h k x => f.MadeFrom inc (v, h) (k, x)) hids (by
    intro h _ d
    simp only [madeFrom_iff]
    exact historyOf_spec hR H hL hv inc d) [(v, hids)]
  refine ⟨d, by unfold directHistory; rw [if_pos hv]; exact h1, ?_, ?_⟩
  · intro k x
    rw [h2]
    have : InSet ([(v, hids)] : SetDict) k x ↔ k = v ∧ x ∈ hids := by
      unfold InSet
      simp only [Dict.get?_cons]
      constructor
      · rintro ⟨s, hs, hx⟩
        split at hs
        · cases hs; exact ⟨by simp_all, hx⟩
        · cases hs
      · rintro ⟨rfl, hx⟩
        exact ⟨hids, by simp, hx⟩
    rw [this]
  · intro k
    rw [h3]
    simp [Dict.keys]

end CFrame
end Verif
