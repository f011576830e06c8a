import Mathlib.Data.List.Induction
import Verif.Proofs.VersionerInv
/-!
The invariant of a versioned storage, preserved by every event; what lookups return; where recorded rows come from.
-/
namespace Verif
open Versioner

variable {H : Val → String} {compOf : String → DepKey}

namespace Versioner

/-! ### the code state hypothesis, the topology, the code state -/

theorem applyHypothesis_spec {strict : Bool} {hyp : CodeState} : ∀ (l l' : List (DepKey × TNode)), applyHypothesis strict hyp l = .ok l' →
    (∀ k n', (k, n') ∈ l' → ∃ n, (k, n) ∈ l ∧ hypNode strict hyp k n = .ok (some n')) ∧
    (∀ k n, (k, n) ∈ l → ∃ o, hypNode strict hyp k n = .ok o ∧ ∀ n', o = some n' → (k, n') ∈ l') ∧
    (Dict.keys l').Sublist (Dict.keys l)
  | [], l', h => by
    unfold applyHypothesis at h
    cases h
    refine ⟨?_, ?_, .slnil⟩
    · intro k n h; cases h
    · intro k n h; cases h
  | (k0, n0) :: rest, l', h => by
    unfold applyHypothesis at h
    cases h1 : hypNode strict hyp k0 n0 with
    | error e => rw [h1] at h; cases h
    | ok o =>
      rw [h1] at h
      dsimp only at h
      cases h2 : applyHypothesis strict hyp rest with
      | error e => rw [h2] at h; cases h
      | ok rest' =>
        rw [h2] at h
        dsimp only at h
        obtain ⟨a1, a2, a3⟩ := applyHypothesis_spec rest rest' h2
        cases o with
        | none =>
          cases h
          refine ⟨?_, ?_, ?_⟩
          · intro k n' hm
            obtain ⟨n, b1, b2⟩ := a1 k n' hm
            exact ⟨n, List.mem_cons_of_mem _ b1, b2⟩
          · intro k n hm
            rcases List.mem_cons.1 hm with hm | hm
            · cases hm
              exact ⟨none, h1, fun n' h => by cases h⟩
            · exact a2 k n hm
          · exact a3.cons _
        | some n0' =>
          cases h
          refine ⟨?_, ?_, ?_⟩
          · intro k n' hm
            rcases List.mem_cons.1 hm with hm | hm
            · cases hm
              exact ⟨n0, by simp, h1⟩
            · obtain ⟨n, b1, b2⟩ := a1 k n' hm
              exact ⟨n, List.mem_cons_of_mem _ b1, b2⟩
          · intro k n hm
            rcases List.mem_cons.1 hm with hm | hm
            · cases hm
              refine ⟨_, h1, ?_⟩
              rintro n' he
              cases he
              simp
            · obtain ⟨o, b1, b2⟩ := a2 k n hm
              exact ⟨o, b1, fun n' hn => List.mem_cons_of_mem _ (b2 n' hn)⟩
          · exact a3.cons_cons _

/-- A node that passes is a pointer, a global, or a function with its source; it agrees with the code state. -/
theorem hypNode_some {strict : Bool} {hyp : CodeState} {k : DepKey} {n n' : TNode} (h : hypNode strict hyp k n = .ok (some n')) :
    ((∃ a b, n = .terminal a b) ∧ n' = n) ∨
    (∃ a b, n = .globalVar a b ∧ n' = n ∧ ∀ hn, hyp.get? k = some hn → hn.content = n'.content) ∨
    (∃ src rt rt' rep, n = .callable rep rt ∧ n' = .callable (some src) rt ∧ hyp.get? k = some (.callable (some src) rt')) := by
  unfold hypNode at h
  cases n with
  | terminal a b => cases h; exact .inl ⟨⟨a, b, rfl⟩, rfl⟩
  | globalVar a b =>
    dsimp only at h
    cases h1 : hyp.get? k with
    | none => rw [h1] at h; cases h; exact .inr (.inl ⟨a, b, rfl, rfl, fun hn h => by cases h⟩)
    | some hn =>
      rw [h1] at h
      dsimp only at h
      split at h
      · rename_i he
        cases h
        refine .inr (.inl ⟨a, b, rfl, rfl, ?_⟩)
        rintro hn' h'
        cases h'
        exact he
      · cases h
  | callable rep rt =>
    dsimp only at h
    cases h1 : hyp.get? k with
    | none =>
      rw [h1] at h
      dsimp only at h
      split at h <;> cases h
    | some hn =>
      rw [h1] at h
      cases hn with
      | terminal a b => cases h
      | globalVar a b => cases h
      | callable rep' rt' =>
        dsimp only at h
        split at h
        · cases h
        · cases rep' with
          | none => cases h
          | some src => cases h; exact .inr (.inr ⟨src, rt, rt', rep, rfl, rfl, rfl⟩)

theorem topologyFold_keys (trace : List (DepKey × TNode)) : ∀ (acc : Dict DepKey TNode) (k : DepKey),
    k ∈ (trace.foldl (fun acc p => match p.2 with | .terminal _ _ => acc | n => acc.set p.1 n) acc).keys ↔
      k ∈ acc.keys ∨ ∃ n, (k, n) ∈ trace ∧ ∀ a b, n ≠ .terminal a b := by
  induction trace with
  | nil => intro acc k; simp
  | cons p trace ih =>
    intro acc k
    obtain ⟨k0, n0⟩ := p
    rw [List.foldl_cons, ih]
    have hset : k ∈ (acc.set k0 n0).keys ↔ k = k0 ∨ k ∈ acc.keys := Dict.mem_keys_set
    have key : ∀ (hn : ∀ a b, n0 ≠ .terminal a b), (k ∈ (acc.set k0 n0).keys ∨ ∃ n, (k, n) ∈ trace ∧ ∀ a b, n ≠ .terminal a b) ↔
        (k ∈ acc.keys ∨ ∃ n, (k, n) ∈ (k0, n0) :: trace ∧ ∀ a b, n ≠ .terminal a b) := by
      intro hn
      rw [hset]
      constructor
      · rintro ((rfl | h) | ⟨n, h, h'⟩)
        · exact .inr ⟨n0, by simp, hn⟩
        · exact .inl h
        · exact .inr ⟨n, List.mem_cons_of_mem _ h, h'⟩
      · rintro (h | ⟨n, h, h'⟩)
        · exact .inl (.inr h)
        · rcases List.mem_cons.1 h with h | h
          · cases h; exact .inl (.inl rfl)
          · exact .inr ⟨n, h, h'⟩
    cases n0 with
    | terminal a b =>
      dsimp only
      constructor
      · rintro (h | ⟨n, h, h'⟩)
        · exact .inl h
        · exact .inr ⟨n, List.mem_cons_of_mem _ h, h'⟩
      · rintro (h | ⟨n, h, h'⟩)
        · exact .inl h
        · rcases List.mem_cons.1 h with h | h
          · cases h; exact absurd rfl (h' a b)
          · exact .inr ⟨n, h, h'⟩
    | callable a b => exact key (fun _ _ h => by cases h)
    | globalVar a b => exact key (fun _ _ h => by cases h)

theorem addGlobals_old (trace : List (DepKey × TNode)) : ∀ (cs : CodeState) (k : DepKey) (n : TNode), cs.get? k = some n →
    (addGlobals cs trace).get? k = some n := by
  unfold addGlobals
  induction trace with
  | nil => intro cs k n h; exact h
  | cons p trace ih =>
    intro cs k n h
    obtain ⟨k0, n0⟩ := p
    rw [List.foldl_cons]
    apply ih
    cases n0 with
    | terminal a b => exact h
    | callable a b => exact h
    | globalVar a b =>
      dsimp only
      split
      · exact h
      · rename_i hh
        have : k0 ≠ k := by
          rintro rfl
          exact hh (Dict.has_iff.2 (Dict.mem_keys.2 ⟨n, h⟩))
        rw [Dict.get?_set_ne _ _ this, h]

theorem addGlobals_nodup (trace : List (DepKey × TNode)) : ∀ (cs : CodeState), cs.keys.Nodup → (addGlobals cs trace).keys.Nodup := by
  unfold addGlobals
  induction trace with
  | nil => intro cs h; exact h
  | cons p trace ih =>
    intro cs h
    obtain ⟨k0, n0⟩ := p
    rw [List.foldl_cons]
    apply ih
    cases n0 with
    | terminal a b => exact h
    | callable a b => exact h
    | globalVar a b =>
      dsimp only
      split
      · exact h
      · exact Dict.nodup_set h _ _

theorem addGlobals_new (trace : List (DepKey × TNode)) : ∀ (cs : CodeState) (k : DepKey) (a b : String), (Dict.keys trace).Nodup →
    (k, TNode.globalVar a b) ∈ trace → k ∉ cs.keys → (addGlobals cs trace).get? k = some (.globalVar a b) := by
  induction trace with
  | nil => intro cs k a b _ h; cases h
  | cons p trace ih =>
    intro cs k a b hnd hm hk
    obtain ⟨k0, n0⟩ := p
    simp only [Dict.keys, List.map_cons, List.nodup_cons] at hnd
    rcases List.mem_cons.1 hm with hm' | hm'
    · cases hm'
      have : addGlobals cs ((k, .globalVar a b) :: trace) = addGlobals (cs.set k (.globalVar a b)) trace := by
        unfold addGlobals
        rw [List.foldl_cons]
        dsimp only
        rw [if_neg (by rw [Dict.has_iff]; exact hk)]
      rw [this]
      exact addGlobals_old trace _ _ _ (Dict.get?_set_self _ _ _)
    · have hne : k ≠ k0 := by
        rintro rfl
        exact hnd.1 (List.mem_map_of_mem (f := (·.1)) hm')
      have hstep : ∃ cs', addGlobals cs ((k0, n0) :: trace) = addGlobals cs' trace ∧ k ∉ cs'.keys := by
        cases n0 with
        | terminal a b => exact ⟨cs, rfl, hk⟩
        | callable a b => exact ⟨cs, rfl, hk⟩
        | globalVar a b =>
          refine ⟨if cs.has k0 then cs else cs.set k0 (.globalVar a b), rfl, ?_⟩
          split
          · exact hk
          · rw [Dict.mem_keys_set]
            rintro (h | h)
            · exact hne h
            · exact hk h
      obtain ⟨cs', h1, h2⟩ := hstep
      rw [h1]
      exact ih cs' k a b hnd.2 hm' h2

/-! ### current semantic hashes -/

theorem semanticHashesLoop_spec {s : Versioner} : ∀ (l : List (DepKey × TNode)) (acc h : Dict DepKey String),
    semanticHashesLoop H s l acc = .ok (some h) → (Dict.keys l).Nodup → (∀ k, k ∈ Dict.keys l → k ∉ acc.keys) →
    (∀ k, k ∉ Dict.keys l → h.get? k = acc.get? k) ∧
    (∀ k n, (k, n) ∈ l → k ∈ s.topology.keys → ∃ c x, n.content = some c ∧ h.get? k = some x ∧ SemIn s.dags k (c.hash H) x) ∧
    (∀ k x, h.get? k = some x → acc.get? k = some x ∨ ∃ n c, (k, n) ∈ l ∧ n.content = some c ∧ SemIn s.dags k (c.hash H) x)
  | [], acc, h, hh, _, _ => by
    unfold semanticHashesLoop at hh
    cases hh
    refine ⟨fun _ _ => rfl, ?_, fun _ _ h => .inl h⟩
    intro k n hm; cases hm
  | (k0, n0) :: rest, acc, h, hh, hnd, hdis => by
    have hnd' := hnd
    simp only [Dict.keys, List.map_cons, List.nodup_cons] at hnd
    unfold semanticHashesLoop at hh
    split at hh
    · rename_i htop
      unfold contentHash at hh
      cases h1 : n0.content with
      | none => rw [h1] at hh; cases hh
      | some c =>
        rw [h1] at hh
        dsimp only at hh
        cases h2 : s.dags.get? k0 with
        | none => rw [h2] at hh; cases hh
        | some dag =>
          rw [h2] at hh
          dsimp only at hh
          cases h3 : dag.commits.get? (c.hash H) with
          | none => rw [h3] at hh; cases hh
          | some o =>
            rw [h3] at hh
            dsimp only at hh
            obtain ⟨a1, a2, a3⟩ := semanticHashesLoop_spec rest _ h hh hnd.2 (by
              intro k hk hm
              rw [Dict.mem_keys_set] at hm
              rcases hm with rfl | hm
              · exact hnd.1 hk
              · exact hdis k (List.mem_cons_of_mem _ hk) hm)
            have hsem : SemIn s.dags k0 (c.hash H) o.semanticHash := ⟨dag, o, h2, h3, rfl⟩
            refine ⟨?_, ?_, ?_⟩
            · intro k hk
              simp only [Dict.keys, List.map_cons, List.mem_cons, not_or] at hk
              rw [a1 k hk.2, Dict.get?_set_ne _ _ (Ne.symm hk.1)]
            · intro k n hm ht
              rcases List.mem_cons.1 hm with hm | hm
              · cases hm
                exact ⟨c, o.semanticHash, h1, by rw [a1 _ hnd.1, Dict.get?_set_self], hsem⟩
              · exact a2 k n hm ht
            · intro k x hx
              rcases a3 k x hx with hx | ⟨n, c', hm, b1, b2⟩
              · rw [Dict.get?_set] at hx
                split at hx
                · rename_i he
                  cases hx
                  subst he
                  exact .inr ⟨n0, c, by simp, h1, hsem⟩
                · exact .inl hx
              · exact .inr ⟨n, c', List.mem_cons_of_mem _ hm, b1, b2⟩
    · rename_i htop
      obtain ⟨a1, a2, a3⟩ := semanticHashesLoop_spec rest _ h hh hnd.2 (fun k hk => hdis k (List.mem_cons_of_mem _ hk))
      refine ⟨?_, ?_, ?_⟩
      · intro k hk
        simp only [Dict.keys, List.map_cons, List.mem_cons, not_or] at hk
        exact a1 k hk.2
      · intro k n hm ht
        rcases List.mem_cons.1 hm with hm | hm
        · cases hm
          exact absurd (Dict.has_iff.2 ht) htop
        · exact a2 k n hm ht
      · intro k x hx
        rcases a3 k x hx with hx | ⟨n, c', hm, b1, b2⟩
        · exact .inl hx
        · exact .inr ⟨n, c', List.mem_cons_of_mem _ hm, b1, b2⟩

/-- Hashes are computed exactly for the known dependencies, and they are the current semantic versions. -/
theorem codestate_spec {s : Versioner} {cs : CodeState} (hcs : cs.keys.Nodup) {h : Dict DepKey String}
    (hh : codestateSemanticHashes H s cs = .ok (some h)) :
    (∀ k, k ∈ s.topology.keys → k ∈ h.keys) ∧ ∀ k x, h.get? k = some x → CurSem H s.dags cs k x := by
  unfold codestateSemanticHashes at hh
  split at hh
  · rename_i hall
    obtain ⟨_, a2, a3⟩ := semanticHashesLoop_spec cs [] h hh hcs (fun k _ h => by cases h)
    constructor
    · intro k hk
      rw [List.all_eq_true] at hall
      have := hall k hk
      rw [Dict.has_iff, Dict.mem_keys] at this
      obtain ⟨n, hn⟩ := this
      obtain ⟨c, x, _, hx, _⟩ := a2 k n (mem_of_get? hn) hk
      exact Dict.mem_keys.2 ⟨x, hx⟩
    · intro k x hx
      rcases a3 k x hx with hx | ⟨n, c, h1, h2, h3⟩
      · cases hx
      · exact ⟨n, c, get?_of_mem hcs h1, h2, h3⟩
  · cases hh

theorem semanticHashesLoop_total {s : Versioner} : ∀ (l : List (DepKey × TNode)) (acc : Dict DepKey String),
    (∀ k n, (k, n) ∈ l → k ∈ s.topology.keys → ∃ c x, n.content = some c ∧ SemIn s.dags k (c.hash H) x) →
    ∃ h, semanticHashesLoop H s l acc = .ok (some h)
  | [], acc, _ => ⟨acc, rfl⟩
  | (k0, n0) :: rest, acc, hl => by
    unfold semanticHashesLoop
    split
    · rename_i ht
      obtain ⟨c, x, h1, d, o, h2, h3, _⟩ := hl k0 n0 (by simp) (Dict.has_iff.1 ht)
      unfold contentHash
      rw [h1]
      dsimp only
      rw [h2]
      dsimp only
      rw [h3]
      exact semanticHashesLoop_total rest _ fun k n hm => hl k n (List.mem_cons_of_mem _ hm)
    · exact semanticHashesLoop_total rest _ fun k n hm => hl k n (List.mem_cons_of_mem _ hm)

theorem codestate_total {s : Versioner} {cs : CodeState} (hcs : cs.keys.Nodup) (h : ∀ k, k ∈ s.topology.keys → ∃ x, CurSem H s.dags cs k x) :
    ∃ hs, codestateSemanticHashes H s cs = .ok (some hs) := by
  unfold codestateSemanticHashes
  rw [if_pos]
  · refine semanticHashesLoop_total cs [] ?_
    intro k n hm hk
    obtain ⟨x, n', c, h1, h2, h3⟩ := h k hk
    rw [get?_of_mem hcs hm] at h1
    cases h1
    exact ⟨c, x, h2, h3⟩
  · rw [List.all_eq_true]
    intro k hk
    obtain ⟨x, n', c, h1, h2, h3⟩ := h k hk
    exact Dict.has_iff.2 (Dict.mem_keys.2 ⟨n', h1⟩)

/-! ### lookups -/

theorem restrict_spec {hs : Dict DepKey String} : ∀ (ks : List DepKey) (d : Dict DepKey String), restrict hs ks = .ok d →
    d.keys = ks ∧ ∀ k, d.get? k = if k ∈ ks then hs.get? k else none
  | [], d, h => by
    unfold restrict at h
    cases h
    exact ⟨rfl, fun k => by simp⟩
  | k0 :: ks, d, h => by
    unfold restrict at h
    cases h1 : hs.get? k0 with
    | none => rw [h1] at h; cases h
    | some x =>
      rw [h1] at h
      dsimp only at h
      cases h2 : restrict hs ks with
      | error e => rw [h2] at h; cases h
      | ok d' =>
        rw [h2] at h
        cases h
        obtain ⟨a1, a2⟩ := restrict_spec ks d' h2
        refine ⟨by simp only [Dict.keys, List.map_cons] at a1 ⊢; rw [a1], ?_⟩
        intro k
        rw [Dict.get?_cons, a2]
        by_cases hk : k0 = k
        · subst hk
          simp [h1]
        · rw [if_neg hk]
          simp [Ne.symm hk]

theorem restrict_total {hs : Dict DepKey String} : ∀ (ks : List DepKey), (∀ k ∈ ks, k ∈ hs.keys) → ∃ d, restrict hs ks = .ok d
  | [], _ => ⟨[], rfl⟩
  | k0 :: ks, h => by
    obtain ⟨x, hx⟩ := Dict.mem_keys.1 (h k0 (by simp))
    obtain ⟨d, hd⟩ := restrict_total (hs := hs) ks fun k hk => h k (by simp [hk])
    exact ⟨(k0, x) :: d, by unfold restrict; rw [hx]; dsimp only; rw [hd]⟩

/-- The hash comparison of a lookup compares the semantic versions of all dependencies. -/
theorem match_iff (hH : Function.Injective H) {dags : Dict DepKey (Dag String Content)} {v : Version} (hv : VersionOK H dags v)
    {hs d : Dict DepKey String} (hd : restrict hs v.contentExpansion.keys = .ok d) :
    hashDict H .str d = v.semanticVersion ↔ ∀ k x, v.semanticExpansion.get? k = some x → hs.get? k = some x := by
  obtain ⟨h1, h2⟩ := restrict_spec _ _ hd
  have hdn : d.keys.Nodup := by rw [h1]; exact hv.ceNodup
  have key : (∀ k, d.get? k = v.semanticExpansion.get? k) ↔ ∀ k x, v.semanticExpansion.get? k = some x → hs.get? k = some x := by
    constructor
    · intro h k x hx
      have := h k
      rw [h2, hx] at this
      split at this
      · exact this
      · cases this
    · intro h k
      rw [h2]
      split
      · rename_i hk
        rw [hv.dom, Dict.mem_keys] at hk
        obtain ⟨x, hx⟩ := hk
        rw [hx, h k x hx]
      · rename_i hk
        rw [hv.dom] at hk
        rw [Dict.get?_eq_none.2 hk]
  rw [← key, hv.sv]
  constructor
  · intro h k
    have := hashDict_inj hH Val.str hdn hv.seNodup h k
    cases h3 : d.get? k <;> cases h4 : v.semanticExpansion.get? k <;> simp_all
  · intro h
    exact hashDict_congr H .str hdn hv.seNodup h

theorem lookupLoop_sound {hs : Dict DepKey String} {vs : Dict String Version} : ∀ (rows : List VRow) {cv sv : String},
    lookupLoop H hs vs rows = .ok (some (cv, sv)) →
    ∃ r ∈ rows, r.contentVersion = cv ∧ r.semanticVersion = sv ∧ ∃ v d, vs.get? cv = some v ∧ restrict hs v.contentExpansion.keys = .ok d ∧
      hashDict H .str d = sv
  | [], cv, sv, h => by cases h
  | r :: rest, cv, sv, h => by
    unfold lookupLoop at h
    cases h1 : vs.get? r.contentVersion with
    | none => rw [h1] at h; cases h
    | some v =>
      rw [h1] at h
      dsimp only at h
      cases h2 : restrict hs v.contentExpansion.keys with
      | error e => rw [h2] at h; cases h
      | ok d =>
        rw [h2] at h
        dsimp only at h
        split at h
        · rename_i he
          cases h
          exact ⟨r, by simp, rfl, rfl, v, d, h1, h2, he⟩
        · obtain ⟨r', hr', h3⟩ := lookupLoop_sound rest h
          exact ⟨r', List.mem_cons_of_mem _ hr', h3⟩

theorem lookupLoop_total {hs : Dict DepKey String} {vs : Dict String Version} : ∀ (rows : List VRow),
    (∀ r ∈ rows, ∃ v d, vs.get? r.contentVersion = some v ∧ restrict hs v.contentExpansion.keys = .ok d) →
    (∃ cv sv, lookupLoop H hs vs rows = .ok (some (cv, sv))) ∨ (lookupLoop H hs vs rows = .ok none ∧
      ∀ r ∈ rows, ∀ v d, vs.get? r.contentVersion = some v → restrict hs v.contentExpansion.keys = .ok d → hashDict H .str d ≠ r.semanticVersion)
  | [], _ => .inr ⟨rfl, fun r hr => by cases hr⟩
  | r :: rest, hr => by
    unfold lookupLoop
    obtain ⟨v, d, h1, h2⟩ := hr r (by simp)
    rw [h1]
    dsimp only
    rw [h2]
    dsimp only
    split
    · exact .inl ⟨_, _, rfl⟩
    · rename_i hne
      rcases lookupLoop_total rest (fun r' h => hr r' (List.mem_cons_of_mem _ h)) with h | ⟨h3, h4⟩
      · exact .inl h
      · refine .inr ⟨h3, ?_⟩
        intro r' hr' v' d' hv' hd'
        rcases List.mem_cons.1 hr' with rfl | hr'
        · rw [h1] at hv'
          cases hv'
          rw [h2] at hd'
          cases hd'
          exact hne
        · exact h4 r' hr' v' d' hv' hd'

/-- A lookup that succeeds: the row it returns and what it was compared with. -/
theorem lookupCall_sound (hH : Function.Injective H) {s : Versioner} (hI : VInv H compOf s) {cs : CodeState} (hcs : cs.keys.Nodup) {uid cv sv : String}
    (h : lookupCall H s (compOf uid) uid cs = .ok (some (cv, sv))) :
    ∃ r ∈ s.df, r.preCallUid = uid ∧ r.contentVersion = cv ∧ r.semanticVersion = sv ∧ ∃ v, getVersion s.versions (compOf uid) cv = .ok v ∧
      v.semanticVersion = sv ∧ ∀ k x, v.semanticExpansion.get? k = some x → CurSem H s.dags cs k x := by
  unfold lookupCall at h
  cases h1 : codestateSemanticHashes H s cs with
  | error e => rw [h1] at h; cases h
  | ok o =>
    rw [h1] at h
    cases o with
    | none => cases h
    | some hs =>
      dsimp only at h
      obtain ⟨_, hcur⟩ := codestate_spec hcs h1
      have hloop : ∃ vs, s.versions.get? (compOf uid) = some vs ∧ lookupLoop H hs vs (s.df.filter fun r => decide (r.preCallUid = uid)) = .ok (some (cv, sv)) := by
        cases h2 : s.df.filter fun r => decide (r.preCallUid = uid) with
        | nil => rw [h2] at h; cases h
        | cons a l =>
          rw [h2] at h
          dsimp only at h
          cases h3 : s.versions.get? (compOf uid) with
          | none => rw [h3] at h; cases h
          | some vs => rw [h3] at h; exact ⟨vs, rfl, h⟩
      obtain ⟨vs, h2, h3⟩ := hloop
      obtain ⟨r, hr, hcv, hsv, v, d, hv, hd, he⟩ := lookupLoop_sound _ h3
      rw [List.mem_filter] at hr
      have hu : r.preCallUid = uid := by simpa using hr.2
      have hg : getVersion s.versions (compOf uid) cv = .ok v := getVersion_ok.2 ⟨vs, h2, hv⟩
      obtain ⟨w, hw, hw'⟩ := hI.rows r hr.1
      rw [hu, hcv, hg] at hw
      cases hw
      refine ⟨r, hr.1, hu, hcv, hsv, v, hg, by rw [hw', hsv], ?_⟩
      intro k x hx
      refine hcur k x ?_
      refine (match_iff hH (hI.vers _ _ _ hg).1 hd).1 ?_ k x hx
      rw [he, hw', hsv]

/-- A recorded row whose dependencies all have their recorded semantic versions is found. -/
theorem lookupCall_complete (hH : Function.Injective H) {s : Versioner} (hI : VInv H compOf s) {cs : CodeState} (hcs : cs.keys.Nodup) {r : VRow}
    (hr : r ∈ s.df) {v : Version} (hv : getVersion s.versions (compOf r.preCallUid) r.contentVersion = .ok v)
    (hcur : ∀ k, k ∈ s.topology.keys → ∃ x, CurSem H s.dags cs k x)
    (hm : ∀ k x, v.semanticExpansion.get? k = some x → CurSem H s.dags cs k x) :
    lookupCall H s (compOf r.preCallUid) r.preCallUid cs = .ok (some (r.contentVersion, r.semanticVersion)) := by
  obtain ⟨hs, h1⟩ := codestate_total hcs hcur
  obtain ⟨hk, hc⟩ := codestate_spec hcs h1
  obtain ⟨vs, hvs, hvv⟩ := getVersion_ok.1 hv
  have hmem : r ∈ s.df.filter (fun x => decide (x.preCallUid = r.preCallUid)) := List.mem_filter.2 ⟨hr, by simp⟩
  have heq : lookupCall H s (compOf r.preCallUid) r.preCallUid cs = lookupLoop H hs vs (s.df.filter (fun x => decide (x.preCallUid = r.preCallUid))) := by
    unfold lookupCall
    rw [h1]
    dsimp only
    cases h2 : s.df.filter (fun x => decide (x.preCallUid = r.preCallUid)) with
    | nil => rw [h2] at hmem; cases hmem
    | cons a l =>
      dsimp only
      rw [hvs]
  have hall : ∀ r' ∈ s.df.filter (fun x => decide (x.preCallUid = r.preCallUid)),
      ∃ w d, vs.get? r'.contentVersion = some w ∧ restrict hs w.contentExpansion.keys = .ok d := by
    intro r' hr'
    rw [List.mem_filter] at hr'
    have hu : r'.preCallUid = r.preCallUid := by simpa using hr'.2
    obtain ⟨w, hw, _⟩ := hI.rows r' hr'.1
    rw [hu] at hw
    obtain ⟨vs', hvs', hw'⟩ := getVersion_ok.1 hw
    rw [hvs] at hvs'
    cases hvs'
    obtain ⟨d, hd⟩ := restrict_total (hs := hs) w.contentExpansion.keys fun k hk' => hk k ((hI.vers _ _ _ hw).2.2.2 k hk')
    exact ⟨w, d, hw', hd⟩
  have hok := (hI.vers _ _ _ hv).1
  obtain ⟨v', hv', hsv⟩ := hI.rows r hr
  rw [hv] at hv'
  cases hv'
  obtain ⟨d, hd⟩ := restrict_total (hs := hs) v.contentExpansion.keys fun k hk' => hk k ((hI.vers _ _ _ hv).2.2.2 k hk')
  have hmatch : hashDict H .str d = r.semanticVersion := by
    rw [← hsv, match_iff hH hok hd]
    intro k x hx
    have hkt : k ∈ v.contentExpansion.keys := (hok.dom k).2 (Dict.mem_keys.2 ⟨x, hx⟩)
    obtain ⟨y, hy⟩ := Dict.mem_keys.1 (hk k ((hI.vers _ _ _ hv).2.2.2 k hkt))
    rw [hy, (hc k y hy).unique (hm k x hx)]
  rcases lookupLoop_total _ hall with ⟨cv, sv, h3⟩ | ⟨h3, h4⟩
  · have h5 : lookupCall H s (compOf r.preCallUid) r.preCallUid cs = .ok (some (cv, sv)) := heq.trans h3
    obtain ⟨r', hr', b1, b2, b3, w, b4, b5, b6⟩ := lookupCall_sound hH hI hcs h5
    have hrr : r' = r := by
      apply Classical.byContradiction
      intro hne
      have hcase : Conflict v w ∨ Conflict w v := by
        have := hI.pair
        obtain ⟨l1, l2, hl⟩ := List.append_of_mem hr
        rw [hl, List.pairwise_append, List.pairwise_cons] at this
        rw [hl] at hr'
        rcases List.mem_append.1 hr' with h | h
        · exact .inr (this.2.2 r' h r (by simp) b1 w v (by rw [b1, b2]; exact b4) hv)
        · rcases List.mem_cons.1 h with h | h
          · exact absurd h hne
          · exact .inl (this.2.1.1 r' h b1.symm v w hv (by rw [b1, b2]; exact b4))
      have hclash : ∀ k x y, v.semanticExpansion.get? k = some x → w.semanticExpansion.get? k = some y → x = y :=
        fun k x y hx hy => (hm k x hx).unique (b6 k y hy)
      rcases hcase with ⟨k, x, y, c1, c2, c3⟩ | ⟨k, x, y, c1, c2, c3⟩
      · exact c3 (hclash k x y c1 c2)
      · exact c3 (hclash k y x c2 c1).symm
    subst hrr
    rw [h5, ← b2, ← b3]
  · exact absurd hmatch (h4 r hmem v d hvv hd)

end Versioner

/-! ### events -/

/-- What a trace looks like: one root, the component of the call's op, and one node per dependency. -/
def VEvent.Legal (compOf : String → DepKey) : VEvent → Prop
  | .enter cs _ => cs.keys.Nodup
  | .executed uid roots trace _ => roots = [compOf uid] ∧ trace.keys.Nodup
  | .dropVersion _ => True

/-- The invariant of a versioned storage. -/
structure StInv (H : Val → String) (compOf : String → DepKey) (st : VSt) : Prop where
  inv : VInv H compOf st.versioner
  topoD : ∀ k, k ∈ st.versioner.topology.keys → k ∈ st.versioner.nodes.keys
  csNodup : st.codeState.keys.Nodup
  sync : ∀ k, k ∈ st.versioner.topology.keys → ∃ x, CurSem H st.versioner.dags st.codeState k x

theorem StInv.empty (H : Val → String) (compOf : String → DepKey) (strict : Bool) : StInv H compOf ⟨.empty strict, []⟩ :=
  ⟨.empty H compOf strict, fun _ h => absurd h List.not_mem_nil, by simp [Dict.keys], fun _ h => absurd h List.not_mem_nil⟩

/-- The identity under which a traced dependency is recorded: the source of a function as in the code state, the hash of the value of a
global as read. -/
def RecordedAs (H : Val → String) (cs : CodeState) (k : DepKey) : TNode → String → Prop
  | .terminal _ _, _ => False
  | .globalVar a _, h => h = a
  | .callable _ _, h => ∃ src rt, cs.get? k = some (.callable (some src) rt) ∧ h = H (.str src)

/-- What an execution does to the state. -/
theorem executed_spec (hH : Function.Injective H) {st : VSt} (hI : StInv H compOf st) {uid : String} {trace : Dict DepKey TNode}
    {edges : List (DepKey × DepKey)} (hnd : trace.keys.Nodup) :
    ∃ r st', st.executed H uid [compOf uid] trace edges = (r, st') ∧ StInv H compOf st' ∧
      DagsLE st.versioner.dags st'.versioner.dags ∧
      (∀ k cv w, getVersion st.versioner.versions k cv = .ok w → getVersion st'.versioner.versions k cv = .ok w) ∧
      (∀ k n, st.codeState.get? k = some n → st'.codeState.get? k = some n) ∧
      ((∃ e, r = .error e ∧ st'.versioner.df = st.versioner.df) ∨
        ∃ v, r = .ok v ∧ st'.versioner.df = st.versioner.df ++ [⟨uid, v.semanticVersion, v.contentVersion⟩] ∧
          VersionOK H st'.versioner.dags v ∧
          (∀ k n h, (k, n) ∈ trace → RecordedAs H st.codeState k n h →
            ∃ x, v.semanticExpansion.get? k = some x ∧ SemIn st'.versioner.dags k h x) ∧
          (∀ k x, v.semanticExpansion.get? k = some x → CurSem H st'.versioner.dags st'.codeState k x ∨
            ∃ kk dk cv w, (kk, TNode.terminal dk cv) ∈ trace ∧ getVersion st.versioner.versions dk cv = .ok w ∧ w.semanticExpansion.get? k = some x) ∧
          (∀ kk dk cv, (kk, TNode.terminal dk cv) ∈ trace → ∃ w, getVersion st.versioner.versions dk cv = .ok w ∧
            ∀ k x, w.semanticExpansion.get? k = some x → v.semanticExpansion.get? k = some x) ∧
          ∃ w, getVersion st'.versioner.versions (compOf uid) v.contentVersion = .ok w ∧ w.semanticVersion = v.semanticVersion ∧
            ∀ k, w.semanticExpansion.get? k = v.semanticExpansion.get? k) := by
  unfold VSt.executed
  cases ha : applyHypothesis st.versioner.strict st.codeState trace with
  | error e =>
    dsimp only
    exact ⟨_, _, rfl, hI, fun _ _ _ h => h, fun _ _ _ h => h, fun _ _ h => h, .inl ⟨e, rfl, rfl⟩⟩
  | ok trace' =>
    dsimp only
    obtain ⟨a1, a2, a3⟩ := applyHypothesis_spec _ _ ha
    have hnd' : (Dict.keys trace').Nodup := hnd.sublist a3
    have htk : ∀ k, k ∈ (st.versioner.updateTopology trace' edges).topology.keys ↔
        k ∈ st.versioner.topology.keys ∨ ∃ n, (k, n) ∈ trace' ∧ ∀ a b, n ≠ .terminal a b := by
      intro k
      exact topologyFold_keys trace' st.versioner.topology k
    have hsub : ∀ k, k ∈ st.versioner.topology.keys → k ∈ (st.versioner.updateTopology trace' edges).topology.keys :=
      fun k hk => (htk k).2 (.inl hk)
    have hI1 : VInv H compOf (st.versioner.updateTopology trace' edges) :=
      ⟨⟨hI.inv.keysD, hI.inv.keysV, hI.inv.dagOK, hI.inv.dagHead, hI.inv.dagsNodup⟩, fun k hk => hsub k (hI.inv.topo k hk), fun k cv v hv => by
        obtain ⟨b1, b2, b3, b4⟩ := hI.inv.vers k cv v hv
        exact ⟨b1, b2, b3, fun k' hk' => hsub k' (b4 k' hk')⟩, hI.inv.vnodup, hI.inv.rows, hI.inv.pair⟩
    have hcont : ∀ k n, (k, n) ∈ trace' → (∃ a b, n = .terminal a b) ∨ ∃ c, n.content = some c := by
      intro k n hm
      obtain ⟨n0, _, h0⟩ := a1 k n hm
      rcases hypNode_some h0 with ⟨⟨a, b, rfl⟩, rfl⟩ | ⟨a, b, rfl, rfl, _⟩ | ⟨src, rt, rt', rep, rfl, rfl, _⟩
      · exact .inl ⟨a, b, rfl⟩
      · exact .inr ⟨_, rfl⟩
      · exact .inr ⟨_, rfl⟩
    have hnonterm : ∀ {n : TNode} {c : Content}, n.content = some c → ∀ a b, n ≠ .terminal a b := by
      rintro n c h a b rfl
      cases h
    obtain ⟨r, t, p0, p1, p2, p3, p4, p5, p6, p7, p8⟩ := processTrace_spec hH hI1 (uid := uid) hnd'
      (fun k n c hm hc => (htk k).2 (.inr ⟨n, hm, hnonterm hc⟩)) hcont
    rw [p0]
    dsimp only
    have hle : DagsLE st.versioner.dags t.dags := fun k h s ⟨d, c, h1, h2, h3⟩ => ⟨d, c, p4 k d h1, h2, h3⟩
    have hcsk : ∀ k n, st.codeState.get? k = some n → (addGlobals st.codeState trace').get? k = some n :=
      addGlobals_old trace' st.codeState
    have hcur : ∀ k n c, (k, n) ∈ trace' → n.content = some c → ∃ n', (addGlobals st.codeState trace').get? k = some n' ∧ n'.content = some c := by
      intro k n c hm hc
      obtain ⟨n0, _, h0⟩ := a1 k n hm
      rcases hypNode_some h0 with ⟨⟨a, b, rfl⟩, rfl⟩ | ⟨a, b, rfl, rfl, hg⟩ | ⟨src, rt, rt', rep, rfl, rfl, hg⟩
      · cases hc
      · cases hh : st.codeState.get? k with
        | none => exact ⟨_, addGlobals_new trace' _ k a b hnd' hm (Dict.get?_eq_none.1 hh), hc⟩
        | some hn' => exact ⟨hn', hcsk k hn' hh, (hg hn' hh).trans hc⟩
      · exact ⟨_, hcsk k _ hg, hc⟩
    refine ⟨_, _, rfl, ⟨p1, ?_, addGlobals_nodup _ _ hI.csNodup, ?_⟩, hle, p7, hcsk, ?_⟩
    · intro k hk
      dsimp only at hk
      rw [p2, htk] at hk
      rcases hk with hk | ⟨n, hm, hn⟩
      · exact p6 k (hI.topoD k hk)
      · rcases hcont k n hm with ⟨a, b, rfl⟩ | ⟨c, hc⟩
        · exact absurd rfl (hn a b)
        · exact (p5 k n c hm hc).1
    · intro k hk
      dsimp only at hk ⊢
      rw [p2, htk] at hk
      have hold : k ∈ st.versioner.topology.keys → ∃ x, CurSem H t.dags (addGlobals st.codeState trace') k x := by
        intro hk
        obtain ⟨x, n, c, h1, h2, h3⟩ := hI.sync k hk
        exact ⟨x, n, c, hcsk k n h1, h2, hle _ _ _ h3⟩
      rcases hk with hk | ⟨n, hm, hn⟩
      · exact hold hk
      · rcases hcont k n hm with ⟨a, b, rfl⟩ | ⟨c, hc⟩
        · exact absurd rfl (hn a b)
        · rcases (p5 k n c hm hc).2 with h | h
          · exact hold (hI.inv.topo k h)
          · obtain ⟨n', h1, h2⟩ := hcur k n c hm hc
            exact ⟨c.hash H, n', c, h1, h2, h⟩
    · rcases p8 with ⟨e, h1, h2⟩ | ⟨v, h1, h2, h3, h4, h4', h4'', h5⟩
      · exact .inl ⟨e, h1, h2⟩
      · refine .inr ⟨v, h1, h2, h3, ?_, ?_, ?_, h5⟩
        rotate_left
        · intro k x hx
          rcases h4' k x hx with ⟨n, c, hm, hc, hs⟩ | ⟨kk, dk, cv, w, hm, hw⟩
          · obtain ⟨n', g1, g2⟩ := hcur k n c hm hc
            exact .inl ⟨n', c, g1, g2, hs⟩
          · obtain ⟨n0, hm0, h0⟩ := a1 kk _ hm
            refine .inr ⟨kk, dk, cv, w, ?_, hw⟩
            rcases hypNode_some h0 with ⟨_, he⟩ | ⟨a, b, rfl, he, _⟩ | ⟨src, rt, rt', rep, rfl, he, _⟩
            · rw [he]; exact hm0
            · cases he
            · cases he
        · intro kk dk cv hm
          obtain ⟨o, ho, ho'⟩ := a2 kk _ hm
          cases ho
          exact h4'' kk dk cv (ho' _ rfl)
        intro k n h hm hrec
        obtain ⟨o, ho, ho'⟩ := a2 k n hm
        cases n with
        | terminal a b => cases hrec
        | globalVar a b =>
          unfold hypNode at ho
          dsimp only at ho
          have : o = some (.globalVar a b) := by
            cases hh : st.codeState.get? k with
            | none => rw [hh] at ho; cases ho; rfl
            | some hn =>
              rw [hh] at ho
              dsimp only at ho
              split at ho
              · cases ho; rfl
              · cases ho
          subst this
          obtain ⟨x, hx, hx'⟩ := h4 k _ (.gv a b) (ho' _ rfl) rfl
          rw [show h = (Content.gv a b).hash H from hrec]
          exact ⟨x, hx, hx'⟩
        | callable rep rt =>
          obtain ⟨src, rt', hg, rfl⟩ := hrec
          unfold hypNode at ho
          dsimp only at ho
          rw [hg] at ho
          dsimp only at ho
          split at ho
          · cases ho
          · cases ho
            exact h4 k _ (.code src) (ho' _ rfl) rfl

theorem step_inv (hH : Function.Injective H) {st : VSt} (hI : StInv H compOf st) {ev : VEvent} (hev : ev.Legal compOf) :
    StInv H compOf (st.step H ev) ∧ DagsLE st.versioner.dags (st.step H ev).versioner.dags := by
  cases ev with
  | enter cs answer =>
    unfold VSt.step syncCodebase
    dsimp only
    cases h : syncDags H cs answer st.versioner.dags with
    | error e => exact ⟨hI, fun _ _ _ h => h⟩
    | ok ds =>
      obtain ⟨h1, h2, h3⟩ := hI.inv.sync h
      exact ⟨⟨h1, hI.topoD, hev, fun k hk => h3 k (hI.topoD k hk)⟩, h2⟩
  | executed uid roots trace edges =>
    obtain ⟨rfl, hnd⟩ := hev
    obtain ⟨r, st', h1, h2, h3, _⟩ := executed_spec hH hI (uid := uid) (edges := edges) hnd
    unfold VSt.step
    dsimp only
    rw [h1]
    exact ⟨h2, h3⟩
  | dropVersion sv => exact ⟨⟨hI.inv.drop sv, hI.topoD, hI.csNodup, hI.sync⟩, fun _ _ _ h => h⟩

theorem VSt.run_append (st : VSt) (a b : List VEvent) : st.run H (a ++ b) = (st.run H a).run H b := List.foldl_append ..

theorem VSt.run_one (st : VSt) (ev : VEvent) : st.run H [ev] = st.step H ev := rfl

theorem run_inv (hH : Function.Injective H) (evs : List VEvent) : ∀ {st : VSt}, StInv H compOf st → (∀ ev ∈ evs, ev.Legal compOf) →
    StInv H compOf (st.run H evs) ∧ DagsLE st.versioner.dags (st.run H evs).versioner.dags := by
  induction evs with
  | nil => intro st hI _; exact ⟨hI, fun _ _ _ h => h⟩
  | cons ev evs ih =>
    intro st hI hev
    obtain ⟨h1, h2⟩ := step_inv hH hI (hev ev (by simp))
    obtain ⟨h3, h4⟩ := ih h1 fun e he => hev e (by simp [he])
    exact ⟨h3, fun k h s hs => h4 k h s (h2 k h s hs)⟩

/-- Every recorded row comes from a successful execution in the past. -/
theorem row_origin (hH : Function.Injective H) (st : VSt) (h0 : st.versioner.df = []) (hI : StInv H compOf st) (evs : List VEvent)
    (hev : ∀ ev ∈ evs, ev.Legal compOf) (r : VRow) (hr : r ∈ (st.run H evs).versioner.df) :
    ∃ pre post trace edges v st', evs = pre ++ .executed r.preCallUid [compOf r.preCallUid] trace edges :: post ∧
      (st.run H pre).executed H r.preCallUid [compOf r.preCallUid] trace edges = (.ok v, st') ∧
      v.semanticVersion = r.semanticVersion ∧ v.contentVersion = r.contentVersion := by
  have hlift : ∀ {l : List VEvent} {ev : VEvent}, (∀ e ∈ l ++ [ev], e.Legal compOf) → (∀ e ∈ l, e.Legal compOf) ∧ ev.Legal compOf :=
    fun h => ⟨fun e he => h e (by simp [he]), h _ (by simp)⟩
  induction evs using List.reverseRecOn with
  | nil =>
    have : (st.run H []).versioner.df = [] := h0
    rw [this] at hr
    cases hr
  | append_singleton l ev ih =>
    obtain ⟨hl, hlev⟩ := hlift hev
    have hIl := (run_inv hH l hI hl).1
    have hrec : r ∈ (st.run H l).versioner.df → ∃ pre post trace edges v st', l ++ [ev] = pre ++ .executed r.preCallUid [compOf r.preCallUid] trace edges :: post ∧
        (st.run H pre).executed H r.preCallUid [compOf r.preCallUid] trace edges = (.ok v, st') ∧
        v.semanticVersion = r.semanticVersion ∧ v.contentVersion = r.contentVersion := by
      intro hr
      obtain ⟨pre, post, trace, edges, v, st', h1, h2⟩ := ih hl hr
      exact ⟨pre, post ++ [ev], trace, edges, v, st', by rw [h1]; simp, h2⟩
    rw [VSt.run_append, VSt.run_one] at hr
    cases ev with
    | enter cs answer =>
      unfold VSt.step syncCodebase at hr
      dsimp only at hr
      cases h : syncDags H cs answer (st.run H l).versioner.dags with
      | error e => rw [h] at hr; exact hrec hr
      | ok ds => rw [h] at hr; exact hrec hr
    | dropVersion sv =>
      unfold VSt.step dropSemanticVersion at hr
      exact hrec (List.mem_filter.1 hr).1
    | executed uid roots trace edges =>
      obtain ⟨rfl, hnd⟩ := hlev
      obtain ⟨res, st', h1, h2, h3, h4, h5, h6⟩ := executed_spec hH hIl (uid := uid) (edges := edges) hnd
      unfold VSt.step at hr
      dsimp only at hr
      rw [h1] at hr
      dsimp only at hr
      rcases h6 with ⟨e, _, hdf⟩ | ⟨v, rfl, hdf, _⟩
      · rw [hdf] at hr; exact hrec hr
      · rw [hdf] at hr
        rcases List.mem_append.1 hr with hr | hr
        · exact hrec hr
        · rw [List.mem_singleton] at hr
          subst hr
          exact ⟨l, [], trace, edges, v, st', rfl, h1, rfl, rfl⟩

/-- A recorded version stays until its semantic version is dropped. -/
theorem row_stays (hH : Function.Injective H) (evs : List VEvent) : ∀ {st : VSt}, StInv H compOf st → (∀ ev ∈ evs, ev.Legal compOf) →
    ∀ (r : VRow), r ∈ st.versioner.df → (∀ sv, .dropVersion sv ∈ evs → sv ≠ r.semanticVersion) →
    ∀ v, getVersion st.versioner.versions (compOf r.preCallUid) r.contentVersion = .ok v →
      r ∈ (st.run H evs).versioner.df ∧ getVersion (st.run H evs).versioner.versions (compOf r.preCallUid) r.contentVersion = .ok v := by
  induction evs with
  | nil => intro st _ _ r hr _ v hv; exact ⟨hr, hv⟩
  | cons ev evs ih =>
    intro st hI hev r hr hnd v hv
    have hstep : r ∈ (st.step H ev).versioner.df ∧ getVersion (st.step H ev).versioner.versions (compOf r.preCallUid) r.contentVersion = .ok v := by
      cases ev with
      | enter cs answer =>
        unfold VSt.step syncCodebase
        dsimp only
        cases h : syncDags H cs answer st.versioner.dags with
        | error e => exact ⟨hr, hv⟩
        | ok ds => exact ⟨hr, hv⟩
      | dropVersion sv =>
        have hne := hnd sv (by simp)
        obtain ⟨v', hv', hs⟩ := hI.inv.rows r hr
        rw [hv] at hv'
        cases hv'
        refine ⟨List.mem_filter.2 ⟨hr, by simpa using hne.symm⟩, ?_⟩
        exact (getVersion_drop hI.inv).2 ⟨hv, by rw [hs]; exact hne.symm⟩
      | executed uid roots trace edges =>
        obtain ⟨rfl, hndt⟩ := hev _ (List.mem_cons_self ..)
        obtain ⟨res, st', h1, h2, h3, h4, h5, h6⟩ := executed_spec hH hI (uid := uid) (edges := edges) hndt
        unfold VSt.step
        dsimp only
        rw [h1]
        refine ⟨?_, h4 _ _ _ hv⟩
        rcases h6 with ⟨e, _, hdf⟩ | ⟨v, rfl, hdf, _⟩
        · rw [hdf]; exact hr
        · rw [hdf]; exact List.mem_append_left _ hr
    exact ih (step_inv hH hI (hev ev (by simp))).1 (fun e he => hev e (by simp [he])) r hstep.1 (fun sv h => hnd sv (by simp [h])) v hstep.2

end Verif
