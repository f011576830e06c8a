import Verif.Proofs.CFrameHistory
import Verif.Props.FrameReach
/-!
C45: the total history of values in a frame.
-/
namespace Verif.Props

open Verif CFrame Ex

section
variable {R : FCall → Prop} {f : CFrame}

theorem MadeBy_var (H : Wf R f) {v h n : String} {c : FCall} (hm : f.MadeBy v h n c) : f.IsVar v := by
  obtain ⟨_, _, hn, l, hl⟩ := hm
  rcases H.graph.bip _ _ _ hl with h | h
  · exact absurd hn.key (H.graph.disj _ h.1)
  · exact h.2

theorem madeFrom_var (H : Wf R f) {inc : Bool} {a b : String × String} (h : f.MadeFrom inc a b) : f.IsVar a.1 := by
  cases h with
  | input hm _ _ => exact MadeBy_var H hm
  | call hm _ => exact MadeBy_var H hm

/-- What the loop over the direct history does, whatever the recursive calls do. -/
def historyLoop (f : CFrame) (d : SetDict) (rec : String → List String → SetDict → Except Err SetDict) (total : SetDict) (k : String) : Except Err SetDict :=
  if k ∈ f.vs.keys then do
    let r ← rec k (getOr d k) total
    .ok (setdictUnion total r)
  else .ok total

theorem totalHistory_succ (ord : SetDict → List String) (inc : Bool) (n : Nat) (v : String) (hids : List String) (result : Option SetDict) :
    f.totalHistory ord inc (n + 1) v hids result = (f.directHistory v hids inc).bind fun d =>
      match result.filter (isSubobject d) with
      | some r => .ok r
      | none => (ord d).foldlM (historyLoop f d fun k hs t => f.totalHistory ord inc n k hs (some t)) d := by
  rw [totalHistory]
  cases f.directHistory v hids inc with
  | error e => rfl
  | ok d =>
    cases result with
    | none => rfl
    | some r =>
      simp only [Except.bind, bind, Option.filter]
      split
      · simp
      · simp; rfl

/-- Everything of `r` is in what was given, or is known together with what is one step back from it. -/
def DoneBut (f : CFrame) (inc : Bool) (given : String → String → Prop) (r : SetDict) : Prop :=
  ∀ k x, InSet r k x → given k x ∨ ∀ b, f.MadeFrom inc (k, x) b → InSet r b.1 b.2

theorem total_correct (hR : RecOk R) (H : Wf R f) (hL : f.LabelsOk) {ord : SetDict → List String} (ho : ∀ d k, k ∈ d.keys → k ∈ ord d) (inc : Bool) :
    ∀ (fuel : Nat) (v : String) (hids : List String) (result : Option SetDict) (r : SetDict), f.IsVar v →
      f.totalHistory ord inc fuel v hids result = .ok r →
      (∀ k x, InSet r k x → (∃ r0, result = some r0 ∧ InSet r0 k x) ∨ ∃ h ∈ hids, Star (f.MadeFrom inc) (v, h) (k, x)) ∧
      (∀ h ∈ hids, InSet r v h ∧ ∀ b, f.MadeFrom inc (v, h) b → InSet r b.1 b.2) ∧
      DoneBut f inc (fun k x => ∃ r0, result = some r0 ∧ InSet r0 k x) r := by
  intro fuel
  induction fuel with
  | zero => intro v hids result r _ h; cases h
  | succ n ih =>
    intro v hids result r hv hr
    obtain ⟨d, hd, hdi, hdk⟩ := directHistory_spec hR H hL hv hids inc
    rw [totalHistory_succ, hd] at hr
    simp only [Except.bind] at hr
    cases hf : result.filter (isSubobject d) with
    | some r' =>
      rw [hf] at hr
      cases hr
      rw [Option.filter_eq_some_iff] at hf
      obtain ⟨hres, hsub⟩ := hf
      obtain ⟨hs, _⟩ := isSubobject_iff.1 hsub
      exact ⟨fun k x h => .inl ⟨_, hres, h⟩,
        fun h hh => ⟨hs _ _ ((hdi _ _).2 (.inl ⟨rfl, hh⟩)), fun b hb => hs _ _ ((hdi _ _).2 (.inr ⟨h, hh, hb⟩))⟩,
        fun k x h => .inl ⟨_, hres, h⟩⟩
    | none =>
      rw [hf] at hr
      have loop : ∀ (ks : List String) (seen : String → Prop) (t r : SetDict),
          (∀ k x, InSet d k x → InSet t k x) →
          (∀ k x, InSet t k x → ∃ h ∈ hids, Star (f.MadeFrom inc) (v, h) (k, x)) →
          DoneBut f inc (fun k x => InSet d k x ∧ ¬ seen k) t →
          ks.foldlM (historyLoop f d fun k hs t => f.totalHistory ord inc n k hs (some t)) t = .ok r →
          (∀ k x, InSet d k x → InSet r k x) ∧
          (∀ k x, InSet r k x → ∃ h ∈ hids, Star (f.MadeFrom inc) (v, h) (k, x)) ∧
          DoneBut f inc (fun k x => InSet d k x ∧ ¬ (seen k ∨ k ∈ ks)) r := by
        intro ks
        induction ks with
        | nil =>
          intro seen t r h1 h2 h3 hr
          cases hr
          refine ⟨h1, h2, fun k x hk => (h3 k x hk).imp (fun h => ⟨h.1, by simpa using h.2⟩) id⟩
        | cons k ks ihk =>
          intro seen t r h1 h2 h3 hr
          rw [List.foldlM_cons] at hr
          by_cases hk : k ∈ f.vs.keys
          · rw [historyLoop, if_pos hk] at hr
            cases hrec : f.totalHistory ord inc n k (getOr d k) (some t) with
            | error e => rw [hrec] at hr; cases hr
            | ok rk =>
              rw [hrec] at hr
              obtain ⟨g1, g2, g3⟩ := ih k (getOr d k) (some t) rk hk hrec
              have hsd : ∀ h ∈ getOr d k, InSet d k h := fun h hh => mem_getOr.1 hh
              obtain ⟨e1, e2, e3⟩ := ihk (fun k' => seen k' ∨ k' = k) (setdictUnion t rk) r
                (fun k' x hx => inSet_union.2 (.inl (h1 k' x hx)))
                (by
                  intro k' x hx
                  rcases inSet_union.1 hx with hx | hx
                  · exact h2 k' x hx
                  · rcases g1 k' x hx with ⟨r0, hr0, hx0⟩ | ⟨h, hh, hst⟩
                    · cases hr0
                      exact h2 k' x hx0
                    · obtain ⟨h0, hh0, hst0⟩ := h2 k h (h1 _ _ (hsd h hh))
                      exact ⟨h0, hh0, hst0.trans hst⟩)
                (by
                  intro k' x hx
                  have old : InSet t k' x → (InSet d k' x ∧ ¬ (seen k' ∨ k' = k)) ∨
                      ∀ b, f.MadeFrom inc (k', x) b → InSet (setdictUnion t rk) b.1 b.2 := by
                    intro hx
                    by_cases hkk : k' = k ∧ InSet d k' x
                    · obtain ⟨rfl, hdx⟩ := hkk
                      exact .inr fun b hb => inSet_union.2 (.inr ((g2 x (mem_getOr.2 hdx)).2 b hb))
                    · rcases h3 k' x hx with ⟨hdx, hs⟩ | h
                      · refine .inl ⟨hdx, ?_⟩
                        rintro (h | h)
                        · exact hs h
                        · exact hkk ⟨h, hdx⟩
                      · exact .inr fun b hb => inSet_union.2 (.inl (h b hb))
                  rcases inSet_union.1 hx with hx | hx
                  · exact old hx
                  · rcases g3 k' x hx with ⟨r0, hr0, hx0⟩ | h
                    · cases hr0
                      exact old hx0
                    · exact .inr fun b hb => inSet_union.2 (.inr (h b hb)))
                hr
              refine ⟨e1, e2, fun k' x hx => (e3 k' x hx).imp (fun h => ⟨h.1, ?_⟩) id⟩
              have := h.2
              rintro (hs | hs)
              · exact this (.inl (.inl hs))
              · rcases List.mem_cons.1 hs with rfl | hs
                · exact this (.inl (.inr rfl))
                · exact this (.inr hs)
          · rw [historyLoop, if_neg hk] at hr
            obtain ⟨e1, e2, e3⟩ := ihk (fun k' => seen k' ∨ k' = k) t r h1 h2
              (by
                intro k' x hx
                by_cases hkk : k' = k
                · subst hkk
                  exact .inr fun b hb => absurd (madeFrom_var H hb) hk
                · exact (h3 k' x hx).imp (fun h => ⟨h.1, fun h' => h'.elim h.2 hkk⟩) id)
              hr
            refine ⟨e1, e2, fun k' x hx => (e3 k' x hx).imp (fun h => ⟨h.1, ?_⟩) id⟩
            have := h.2
            rintro (hs | hs)
            · exact this (.inl (.inl hs))
            · rcases List.mem_cons.1 hs with rfl | hs
              · exact this (.inl (.inr rfl))
              · exact this (.inr hs)
      obtain ⟨e1, e2, e3⟩ := loop (ord d) (fun _ => False) d r (fun _ _ h => h)
        (by
          intro k x hx
          rcases (hdi k x).1 hx with ⟨rfl, hx⟩ | ⟨h, hh, hm⟩
          · exact ⟨x, hx, .refl⟩
          · exact ⟨h, hh, .single hm⟩)
        (fun k x hx => .inl ⟨hx, not_false⟩) hr
      refine ⟨fun k x hx => .inr (e2 k x hx),
        fun h hh => ⟨e1 _ _ ((hdi _ _).2 (.inl ⟨rfl, hh⟩)), fun b hb => e1 _ _ ((hdi _ _).2 (.inr ⟨h, hh, hb⟩))⟩, ?_⟩
      intro k x hx
      rcases e3 k x hx with ⟨h1, h2⟩ | h
      · exact absurd (.inr (ho d k h1.key)) h2
      · exact .inr h

/-- C45: whenever the computation of the total history ends, the history consists of exactly the values (and calls, if these are
asked for) that can be reached from the given ones going back from values to the inputs of the calls that made them - whatever the
order in which python visits the keys of its dictionaries. -/
theorem C45_total_history (hR : RecOk R) (H : Wf R f) (hL : f.LabelsOk) {ord : SetDict → List String} (ho : ∀ d k, k ∈ d.keys → k ∈ ord d) (inc : Bool)
    {fuel : Nat} {v : String} (hv : f.IsVar v) {hids : List String} {r : SetDict} (hr : f.totalHistory ord inc fuel v hids none = .ok r) (k x : String) :
    InSet r k x ↔ ∃ h ∈ hids, Star (f.MadeFrom inc) (v, h) (k, x) := by
  obtain ⟨h1, h2, h3⟩ := total_correct hR H hL ho inc fuel v hids none r hv hr
  constructor
  · intro hx
    rcases h1 k x hx with ⟨_, h, _⟩ | h
    · cases h
    · exact h
  · rintro ⟨h, hh, hst⟩
    exact hst.closed (P := fun b => InSet r b.1 b.2) (h2 h hh).1 fun a b ha hb => by
      rcases h3 a.1 a.2 ha with ⟨_, h, _⟩ | h
      · cases h
      · exact h b hb

/-! ### termination -/

theorem historyLoop_ok {d : SetDict} {rec : String → List String → SetDict → Except Err SetDict} :
    ∀ (ks : List String) (t : SetDict), (∀ k x, InSet d k x → InSet t k x) → (∀ k ∈ d.keys, k ∈ t.keys) →
      (∀ k ∈ ks, f.IsVar k → ∀ t, (∀ k x, InSet d k x → InSet t k x) → (∀ k ∈ d.keys, k ∈ t.keys) → ∃ r, rec k (getOr d k) t = .ok r) →
      ∃ r, ks.foldlM (historyLoop f d rec) t = .ok r := by
  intro ks
  induction ks with
  | nil => intro t _ _ _; exact ⟨t, rfl⟩
  | cons k ks ih =>
    intro t h1 h2 h3
    rw [List.foldlM_cons]
    by_cases hk : k ∈ f.vs.keys
    · obtain ⟨r, hr⟩ := h3 k (by simp) hk t h1 h2
      rw [historyLoop, if_pos hk, hr]
      exact ih (setdictUnion t r) (fun k x h => inSet_union.2 (.inl (h1 k x h)))
        (fun k h => ((C55_setdict_union_intersection t r).2.1 k).2 (.inl (h2 k h))) (fun k hk => h3 k (by simp [hk]))
    · rw [historyLoop, if_neg hk]
      exact ih t h1 h2 (fun k hk => h3 k (by simp [hk]))

theorem madeFrom_rank (H : Wf R f) {rank : String → Nat} (hrk : ∀ c, R c → ∀ p ∈ c.inputs, ∀ q ∈ c.outputs, rank p.2.hid < rank q.2.hid)
    {inc : Bool} {v h k x : String} (hm : f.MadeFrom inc (v, h) (k, x)) (hk : f.IsVar k) : rank x < rank h ∧ f.HasRef k x := by
  cases hm with
  | call hm _ => exact absurd hm.2.2.1.key (H.graph.disj _ hk)
  | @input _ _ n c _ p hm hp he =>
    obtain ⟨hcr, hc, hn, l, hl⟩ := hm
    obtain ⟨_, c', hc', q, hq, hqh⟩ := H.creator _ _ hcr
    rw [hc] at hc'
    cases hc'
    exact ⟨hqh ▸ hrk c (H.call.callOk _ _ hc).2 p hp q hq, (H.ins n c p k hp ⟨hn, hc, (H.graph.sym _ _ _).1 he⟩).1⟩

theorem total_terminates (hR : RecOk R) (H : Wf R f) (hL : f.LabelsOk) {ord : SetDict → List String} (ho : ∀ d k, k ∈ ord d → k ∈ d.keys) (inc : Bool)
    {rank : String → Nat} (hrk : ∀ c, R c → ∀ p ∈ c.inputs, ∀ q ∈ c.outputs, rank p.2.hid < rank q.2.hid) :
    ∀ N m : Nat, ∃ K, ∀ fuel, K ≤ fuel → ∀ v hids result, f.IsVar v → (∀ h ∈ hids, rank h < N) →
      f.refs.keys.countP (fun h => decide (h ∉ hids)) ≤ m → ∃ r, f.totalHistory ord inc fuel v hids result = .ok r := by
  intro N
  induction N with
  | zero =>
    intro m
    refine ⟨2, fun fuel hf v hids result hv hh _ => ?_⟩
    have hnil : hids = [] := by
      cases hids with
      | nil => rfl
      | cons h _ => exact absurd (hh h (by simp)) (by omega)
    subst hnil
    obtain ⟨fuel, rfl⟩ : ∃ n, fuel = n + 2 := ⟨fuel - 2, by omega⟩
    obtain ⟨d, hd, hdi, hdk⟩ := directHistory_spec hR H hL hv [] inc
    rw [totalHistory_succ, hd]
    simp only [Except.bind]
    split
    · exact ⟨_, rfl⟩
    · refine historyLoop_ok (ord d) d (fun _ _ h => h) (fun _ h => h) ?_
      intro k hk hkv t ht htk
      have hkk : k = v := by
        rcases (hdk k).1 (ho d k hk) with h | ⟨_, _, h, _⟩
        · exact h
        · cases h
      subst hkk
      have hg : getOr d k = [] := by
        apply List.eq_nil_iff_forall_not_mem.2
        intro x hx
        rcases (hdi k x).1 (mem_getOr.1 hx) with ⟨_, h⟩ | ⟨_, h, _⟩ <;> cases h
      rw [totalHistory_succ, hg, hd]
      simp only [Except.bind, Option.filter]
      rw [if_pos (isSubobject_iff.2 ⟨ht, htk⟩)]
      exact ⟨_, rfl⟩
  | succ N ihN =>
    intro m
    induction m with
    | zero =>
      obtain ⟨K, hK⟩ := ihN f.refs.keys.length
      refine ⟨K + 2, fun fuel hf v hids result hv hh hm => ?_⟩
      obtain ⟨fuel, rfl⟩ : ∃ n, fuel = n + 2 := ⟨fuel - 2, by omega⟩
      obtain ⟨d, hd, hdi, hdk⟩ := directHistory_spec hR H hL hv hids inc
      rw [totalHistory_succ, hd]
      simp only [Except.bind]
      split
      · exact ⟨_, rfl⟩
      · refine historyLoop_ok (ord d) d (fun _ _ h => h) (fun _ h => h) ?_
        intro k hk hkv t ht htk
        by_cases hkk : k = v
        · subst hkk
          have hnew : ∀ x ∈ getOr d k, x ∈ hids := by
            intro x hx
            rcases (hdi k x).1 (mem_getOr.1 hx) with ⟨_, h⟩ | ⟨h, hh', hmf⟩
            · exact h
            · have hx' : x ∈ f.refs.keys := (H.ref.refs x).2 ⟨k, (madeFrom_rank H hrk hmf hkv).2⟩
              have h0 := List.countP_eq_zero.1 (Nat.le_zero.1 hm) x hx'
              simpa using h0
          obtain ⟨d', hd', hdi', hdk'⟩ := directHistory_spec hR H hL hkv (getOr d k) inc
          rw [totalHistory_succ, hd']
          simp only [Except.bind, Option.filter]
          rw [if_pos (isSubobject_iff.2 ⟨?_, ?_⟩)]
          · exact ⟨_, rfl⟩
          · intro k' x hx
            rcases (hdi' k' x).1 hx with ⟨h, hx⟩ | ⟨h, hh', hmf⟩
            · subst h
              exact ht _ _ (mem_getOr.1 hx)
            · exact ht _ _ ((hdi k' x).2 (.inr ⟨h, hnew h hh', hmf⟩))
          · intro k' hx
            rcases (hdk' k').1 hx with h | ⟨x, h, hh', hmf⟩
            · exact htk _ ((hdk k').2 (.inl h))
            · exact htk _ ((hdk k').2 (.inr ⟨x, h, hnew h hh', hmf⟩))
        · refine hK (fuel + 1) (by omega) k (getOr d k) (some t) hkv ?_ List.countP_le_length
          intro x hx
          rcases (hdi k x).1 (mem_getOr.1 hx) with ⟨h, _⟩ | ⟨h, hh', hmf⟩
          · exact absurd h hkk
          · have := (madeFrom_rank H hrk hmf hkv).1
            have := hh h hh'
            omega
    | succ m ihm =>
      obtain ⟨K, hK⟩ := ihN f.refs.keys.length
      obtain ⟨K', hK'⟩ := ihm
      refine ⟨K + K' + 2, fun fuel hf v hids result hv hh hm => ?_⟩
      obtain ⟨fuel, rfl⟩ : ∃ n, fuel = n + 2 := ⟨fuel - 2, by omega⟩
      obtain ⟨d, hd, hdi, hdk⟩ := directHistory_spec hR H hL hv hids inc
      rw [totalHistory_succ, hd]
      simp only [Except.bind]
      split
      · exact ⟨_, rfl⟩
      · refine historyLoop_ok (ord d) d (fun _ _ h => h) (fun _ h => h) ?_
        intro k hk hkv t ht htk
        by_cases hkk : k = v
        · subst hkk
          by_cases hall : ∀ x ∈ getOr d k, x ∈ hids
          · obtain ⟨d', hd', hdi', hdk'⟩ := directHistory_spec hR H hL hkv (getOr d k) inc
            rw [totalHistory_succ, hd']
            simp only [Except.bind, Option.filter]
            rw [if_pos (isSubobject_iff.2 ⟨?_, ?_⟩)]
            · exact ⟨_, rfl⟩
            · intro k' x hx
              rcases (hdi' k' x).1 hx with ⟨h, hx⟩ | ⟨h, hh', hmf⟩
              · subst h
                exact ht _ _ (mem_getOr.1 hx)
              · exact ht _ _ ((hdi k' x).2 (.inr ⟨h, hall h hh', hmf⟩))
            · intro k' hx
              rcases (hdk' k').1 hx with h | ⟨x, h, hh', hmf⟩
              · exact htk _ ((hdk k').2 (.inl h))
              · exact htk _ ((hdk k').2 (.inr ⟨x, h, hall h hh', hmf⟩))
          · refine hK' (fuel + 1) (by omega) k (getOr d k) (some t) hkv ?_ ?_
            · intro x hx
              rcases (hdi k x).1 (mem_getOr.1 hx) with ⟨_, h⟩ | ⟨h, hh', hmf⟩
              · exact hh x h
              · have := (madeFrom_rank H hrk hmf hkv).1
                have := hh h hh'
                omega
            · obtain ⟨x, hx⟩ := Classical.not_forall.1 hall
              obtain ⟨hx, hxn⟩ := Classical.not_imp.1 hx
              have hxr : x ∈ f.refs.keys := by
                rcases (hdi k x).1 (mem_getOr.1 hx) with ⟨_, h⟩ | ⟨h, hh', hmf⟩
                · exact absurd h hxn
                · exact (H.ref.refs x).2 ⟨k, (madeFrom_rank H hrk hmf hkv).2⟩
              have := countP_lt_of_imp (fun h => decide (h ∉ hids)) (fun h => decide (h ∉ getOr d k)) f.refs.keys
                (by
                  intro a _ ha
                  simp only [decide_eq_true_eq] at ha ⊢
                  exact fun h => ha (mem_getOr.2 ((hdi k a).2 (.inl ⟨rfl, h⟩)))) x hxr (by simpa using hxn) (by simpa using hx)
              omega
        · refine hK (fuel + 1) (by omega) k (getOr d k) (some t) hkv ?_ List.countP_le_length
          intro x hx
          rcases (hdi k x).1 (mem_getOr.1 hx) with ⟨h, _⟩ | ⟨h, hh', hmf⟩
          · exact absurd h hkk
          · have := (madeFrom_rank H hrk hmf hkv).1
            have := hh h hh'
            omega

/-- C45: if no value is made from itself, the computation of the total history of values of a variable ends. -/
theorem C45_terminates (hR : RecOk R) (ha : Acyclic R) (H : Wf R f) (hL : f.LabelsOk) {ord : SetDict → List String} (ho : ∀ d k, k ∈ ord d → k ∈ d.keys)
    (inc : Bool) {v : String} (hv : f.IsVar v) (hids : List String) :
    ∃ K, ∀ fuel, K ≤ fuel → ∃ r, f.totalHistory ord inc fuel v hids none = .ok r := by
  obtain ⟨rank, hrk⟩ := ha
  have hb : ∃ N, ∀ h ∈ hids, rank h < N := by
    clear hv
    induction hids with
    | nil => exact ⟨0, by simp⟩
    | cons h hs ih =>
      obtain ⟨N, hN⟩ := ih
      refine ⟨N + rank h + 1, ?_⟩
      intro x hx
      rcases List.mem_cons.1 hx with rfl | hx
      · omega
      · have := hN x hx; omega
  obtain ⟨N, hN⟩ := hb
  obtain ⟨K, hK⟩ := total_terminates hR H hL ho inc hrk N f.refs.keys.length
  exact ⟨K, fun fuel hf => hK fuel hf v hids none hv hN List.countP_le_length⟩

/-- C45: what the frame knows as creator of a value has the value among its outputs; and every call of the frame is known as
the creator of those of its outputs for which there is an edge. -/
theorem C45_creator (H : Wf R f) :
    (∀ v h n c, f.MadeBy v h n c → R c ∧ ∃ p ∈ c.outputs, p.2.hid = h) ∧
    ∀ n c p v, p ∈ c.outputs → f.HasCall n c.hid → f.calls.get? c.hid = some c → f.HasEdge n v (nameProj c.op p.1) → f.MadeBy v p.2.hid n c := by
  constructor
  · rintro v h n c ⟨hcr, hc, _⟩
    obtain ⟨_, c', hc', hp⟩ := H.creator _ _ hcr
    rw [hc] at hc'
    cases hc'
    exact ⟨(H.call.callOk _ _ hc).2, hp⟩
  · intro n c p v hp hn hc he
    exact ⟨(H.outs n c p v hp ⟨hn, hc, he⟩).2, hc, hn, _, he⟩

end

/-! ### a concrete case: two paths, and a function whose output goes to the variable of its input -/

namespace Ex

def u1 : FRef := ⟨"u1", "cu1"⟩
def u2 : FRef := ⟨"u2", "cu2"⟩
def e0 : FCall := ⟨"e0", "f", [("a", x)], [("output_0", y)]⟩
def e1 : FCall := ⟨"e1", "f", [("a", y)], [("output_0", u1)]⟩
def e2 : FCall := ⟨"e2", "g", [("a", u1), ("b", x2)], [("output_0", u2)]⟩
/-- `f` is iterated within the variable `v`; `g` takes its result and another value. -/
def buildIter : List FOp := [.addFunc "f", .addVar "v", .addVar "w", .addVar "o", .addEdge "v" "f" "a", .addEdge "f" "v" "output_0",
  .addFunc "g", .addEdge "v" "g" "a", .addEdge "w" "g" "b", .addEdge "g" "o" "output_0", .addCall "f" e0, .addCall "f" e1, .addCall "g" e2]
def frameIter : CFrame := ((runOps {} buildIter).toOption).getD {}
theorem recOkIter : RecOk (· ∈ [e0, e1, e2]) := recOk_of (by decide +kernel)
theorem wf_frameIter : Wf (· ∈ [e0, e1, e2]) frameIter :=
  wf_builds recOkIter wf_empty (builds_of (by decide +kernel : buildB [e0, e1, e2] {} buildIter = some frameIter))
theorem acyclicIter : Acyclic (· ∈ [e0, e1, e2]) := by
  refine ⟨fun h => if h = "u2" then 3 else if h = "u1" then 2 else if h = "y" then 1 else 0, ?_⟩
  decide +kernel

end Ex

example : RecOk (· ∈ [e0, e1, e2]) ∧ Acyclic (· ∈ [e0, e1, e2]) ∧ Wf (· ∈ [e0, e1, e2]) frameIter ∧ LabelsOk frameIter ∧ frameIter.IsVar "o" :=
  ⟨recOkIter, acyclicIter, wf_frameIter, labelsOk_of (by decide +kernel), by decide +kernel⟩

/-- All of the iteration is found, not only the values made in one step, and nothing else. -/
example : frameIter.totalHistory (fun d => d.keys) false 10 "o" ["u2"] none = .ok [("o", ["u2"]), ("v", ["u1", "y", "x"]), ("w", ["x2"])] := by
  decide +kernel
example : (frameIter.totalHistory (fun d => d.keys) true 10 "v" ["y"] none) = .ok [("v", ["y", "x"]), ("f", ["e0"])] := by decide +kernel

end Verif.Props
