import Verif.Model.DictStorage
import Verif.Spec.MapSpec
/-!
Refinement of the cached key/value store to a map.
-/
namespace Verif
namespace CachedDict

variable {V : Type}

/-- value of a key in the persistent storage, if any -/
def look (p : SqlDict V) (k : String) : Option V :=
  (p.rows.get? k).or (p.overflow.bind (fun j => Dict.get? j k))

/-- `v` may be written under `k`: keys with a large value are always set to the same value, and
large values need an overflow storage. -/
def Allowed (size : V → Nat) (content : String → V) (thr : Nat) (ovf : Prop) (k : String) (v : V) : Prop :=
  ((size v > thr ∨ size (content k) > thr) → v = content k) ∧ (size v > thr → ovf)

/-- Allowed operation: only `set` is restricted. -/
def Op.Allowed (size : V → Nat) (content : String → V) (thr : Nat) (ovf : Prop) : Op V → Prop
  | .set k v => CachedDict.Allowed size content thr ovf k v
  | _ => True

/-- Invariant of the persistent storage -/
structure PInv (size : V → Nat) (content : String → V) (p : SqlDict V) : Prop where
  ov : ∀ j k v, p.overflow = some j → Dict.get? j k = some v →
    v = content k ∧ size v > p.threshold
  rows : ∀ k v, p.rows.get? k = some v → ¬ size (content k) > p.threshold

theorem get_of_look {p : SqlDict V} {k : String} {v : V} (h : look p k = some v) :
    p.get k = .ok v := by
  unfold look at h
  unfold SqlDict.get Joblib.get
  cases hr : p.rows.get? k with
  | some w => simp [hr] at h; simp [h]
  | none =>
    cases hj : p.overflow with
    | none => simp [hr, hj] at h
    | some j =>
      simp [hr, hj] at h
      simp [h]

theorem get_of_look_none {p : SqlDict V} {k : String} (h : look p k = none) :
    ∃ e, p.get k = .error e := by
  unfold look at h
  unfold SqlDict.get Joblib.get
  cases hr : p.rows.get? k with
  | some w => simp [hr] at h
  | none =>
    cases hj : p.overflow with
    | none => exact ⟨_, rfl⟩
    | some j =>
      simp [hr, hj] at h
      simp [h]

theorem exists_look (p : SqlDict V) (k : String) : p.exists_ k = (look p k).isSome := by
  unfold SqlDict.exists_ look Dict.has Joblib.exists_ Dict.has
  cases p.overflow <;> cases p.rows.get? k <;> simp

theorem set_look {size : V → Nat} {content : String → V} {p : SqlDict V}
    (hp : PInv size content p) {k : String} {v : V}
    (ha : Allowed size content p.threshold (p.overflow ≠ none) k v) :
    ∃ p', p.set size k v = .ok p' ∧ PInv size content p' ∧ p'.threshold = p.threshold ∧
      (p'.overflow ≠ none ↔ p.overflow ≠ none) ∧
      ∀ k', look p' k' = if k' = k then some v else look p k' := by
  unfold SqlDict.set
  by_cases hb : size v > p.threshold
  · have hov := ha.2 hb
    cases hj : p.overflow with
    | none => exact absurd hj hov
    | some j =>
      have hvc := ha.1 (Or.inl hb)
      refine ⟨{ p with overflow := some (j.set k v) }, by simp [hb], ?_, rfl, by simp, ?_⟩
      · constructor
        · intro j' k' v' h1 h2
          simp only [Option.some.injEq] at h1
          subst h1
          unfold Joblib.set at h2
          split at h2
          · exact hp.ov j k' v' hj h2
          · rw [Dict.get?_set] at h2
            split at h2
            · rename_i h; subst h; simp at h2; subst h2; exact ⟨hvc, hb⟩
            · exact hp.ov j k' v' hj h2
        · exact hp.rows
      · intro k'
        unfold look Joblib.set Joblib.exists_ Dict.has
        by_cases hkk : k' = k
        · subst hkk
          have hnr : p.rows.get? k' = none := by
            cases hr : p.rows.get? k' with
            | none => rfl
            | some w =>
              have := hp.rows _ _ hr
              rw [hvc] at hb; exact absurd hb this
          simp only [hnr, Option.none_or, Option.bind_some, if_true]
          cases hg : Dict.get? j k' with
          | none => simp
          | some w =>
            have := (hp.ov j k' w hj hg).1
            simp [hg, this, hvc]
        · simp only [hkk, if_false, hj, Option.bind_some]
          split
          · rfl
          · rw [Dict.get?_set_ne _ _ (Ne.symm hkk)]
  · refine ⟨{ p with rows := p.rows.set k v }, by simp [hb], ?_, rfl, Iff.rfl, ?_⟩
    · constructor
      · exact hp.ov
      · intro k' v' h
        rw [Dict.get?_set] at h
        split at h
        · rename_i hkk; subst hkk
          intro hc
          have := ha.1 (Or.inr hc)
          rw [this] at hb; exact hb hc
        · exact hp.rows _ _ h
    · intro k'
      unfold look
      by_cases hkk : k' = k
      · subst hkk; simp
      · simp [hkk, Dict.get?_set_ne _ v (Ne.symm hkk)]

theorem drop_look {size : V → Nat} {content : String → V} {p : SqlDict V}
    (hp : PInv size content p) (k : String) :
    ∃ p', p.drop k = .ok p' ∧ PInv size content p' ∧ p'.threshold = p.threshold ∧
      (p'.overflow ≠ none ↔ p.overflow ≠ none) ∧
      ∀ k', look p' k' = if k' = k then none else look p k' := by
  have hrows : ∀ k' v, (p.rows.erase k).get? k' = some v → ¬ size (content k') > p.threshold := by
    intro k' v h
    rw [Dict.get?_erase] at h
    split at h
    · simp at h
    · exact hp.rows _ _ h
  unfold SqlDict.drop
  cases hj : p.overflow with
  | none =>
    refine ⟨_, rfl, ⟨?_, hrows⟩, rfl, by simp, ?_⟩
    · intro j k' v h; simp at h
    · intro k'
      unfold look
      simp only [Dict.get?_erase, hj]
      by_cases hkk : k' = k
      · subst hkk; simp
      · simp [hkk, Ne.symm hkk]
  | some j =>
    by_cases he : Joblib.exists_ j k = true
    · simp only [he, if_true, Joblib.drop]
      refine ⟨_, rfl, ⟨?_, hrows⟩, rfl, by simp, ?_⟩
      · intro j' k' v h h2
        simp only [Option.some.injEq] at h
        subst h
        rw [Dict.get?_erase] at h2
        split at h2
        · simp at h2
        · exact hp.ov _ _ _ hj h2
      · intro k'
        unfold look
        simp only [Dict.get?_erase, hj, Option.bind_some]
        by_cases hkk : k' = k
        · subst hkk; simp
        · simp [hkk, Ne.symm hkk]
    · simp only [he]
      refine ⟨_, rfl, ⟨?_, hrows⟩, rfl, by simp, ?_⟩
      · intro j' k' v h; exact hp.ov _ _ _ (hj.trans h)
      · intro k'
        have hno : Dict.get? j k = none := by
          unfold Joblib.exists_ Dict.has at he
          simpa using he
        unfold look
        simp only [Dict.get?_erase, hj, Option.bind_some]
        by_cases hkk : k' = k
        · subst hkk; simp [hno]
        · simp [hkk, Ne.symm hkk]

/-- Simulation relation between the cached store and the map. -/
structure Rel (size : V → Nat) (content : String → V) (c : CachedDict V) (m : MapSpec V) : Prop where
  pinv : PInv size content c.pers
  cur : ∀ k, m.cur k = (c.cache.get? k).or (look c.pers k)
  saved : ∀ k, m.saved k = look c.pers k
  pend : ∀ k, m.pending k ↔ k ∈ c.dirty
  dirtyIn : ∀ k, k ∈ c.dirty → ∃ v, c.cache.get? k = some v
  clean : ∀ k v, k ∉ c.dirty → c.cache.get? k = some v → look c.pers k = some v
  allowed : ∀ k v, c.cache.get? k = some v →
    k ∉ c.dirty ∨ Allowed size content c.pers.threshold (c.pers.overflow ≠ none) k v

theorem mem_addKey {d : List String} {k k' : String} : k' ∈ addKey d k ↔ k' = k ∨ k' ∈ d := by
  unfold addKey
  split
  · constructor
    · exact Or.inr
    · rintro (rfl | h) <;> assumption
  · simp [or_comm]

theorem flush_look {size : V → Nat} {content : String → V} (cache : Dict String V) (ks : List String) :
    ∀ (p : SqlDict V), PInv size content p →
    (∀ k ∈ ks, ∃ v, cache.get? k = some v ∧
      Allowed size content p.threshold (p.overflow ≠ none) k v) →
    ∃ p', flush size cache ks p = (.ok (), p') ∧ PInv size content p' ∧ p'.threshold = p.threshold ∧
      (p'.overflow ≠ none ↔ p.overflow ≠ none) ∧
      ∀ k', look p' k' = if k' ∈ ks then cache.get? k' else look p k' := by
  induction ks with
  | nil =>
    intro p hp _
    exact ⟨p, rfl, hp, rfl, Iff.rfl, by simp⟩
  | cons k ks ih =>
    intro p hp h
    obtain ⟨v, hv, hal⟩ := h k (by simp)
    obtain ⟨p1, h1, hp1, ht1, ho1, hl1⟩ := set_look hp hal
    obtain ⟨p2, h2, hp2, ht2, ho2, hl2⟩ := ih p1 hp1 (by
      intro k' hk'
      obtain ⟨v', hv', ha'⟩ := h k' (List.mem_cons_of_mem _ hk')
      refine ⟨v', hv', ?_⟩
      unfold Allowed at ha' ⊢
      rw [ht1]
      exact ⟨ha'.1, fun hb => ho1.2 (ha'.2 hb)⟩)
    refine ⟨p2, ?_, hp2, ht2.trans ht1, ho2.trans ho1, ?_⟩
    · simp [flush, hv, h1, h2]
    · intro k'
      rw [hl2 k']
      by_cases hm : k' ∈ ks
      · simp [hm]
      · simp only [hm, if_false, hl1 k', List.mem_cons, or_false]
        by_cases hkk : k' = k
        · subst hkk; simp [hv]
        · simp [hkk]

theorem rel_step {size : V → Nat} {content : String → V} {c : CachedDict V} {m : MapSpec V}
    (h : Rel size content c m) (o : Op V)
    (ha : o.Allowed size content c.pers.threshold (c.pers.overflow ≠ none)) :
    ∃ m', MapSpec.Step m o (step size c o).1 m' ∧ Rel size content (step size c o).2 m' ∧
      (step size c o).2.pers.threshold = c.pers.threshold ∧
      ((step size c o).2.pers.overflow ≠ none ↔ c.pers.overflow ≠ none) := by
  cases o with
  | get k =>
    simp only [step, get]
    cases hc : c.cache.get? k with
    | some v =>
      exact ⟨m, .getSome (by rw [h.cur, hc]; rfl), h, rfl, Iff.rfl⟩
    | none =>
      cases hl : look c.pers k with
      | some v =>
        rw [get_of_look hl]
        refine ⟨m, .getSome (by rw [h.cur, hc]; simpa using hl), ?_, rfl, Iff.rfl⟩
        refine ⟨h.pinv, ?_, h.saved, h.pend, ?_, ?_, ?_⟩
        · intro k'
          rw [h.cur]
          simp only [Dict.get?_set]
          by_cases hk : k = k'
          · subst hk; simp [hc, hl]
          · simp [hk]
        · intro k' hk'
          obtain ⟨w, hw⟩ := h.dirtyIn k' hk'
          simp only [Dict.get?_set]
          split
          · exact ⟨_, rfl⟩
          · exact ⟨w, hw⟩
        · intro k' v' hk' hg
          simp only [Dict.get?_set] at hg
          split at hg
          · rename_i hkk; subst hkk; simp at hg; subst hg; exact hl
          · exact h.clean k' v' hk' hg
        · intro k' v' hg
          simp only [Dict.get?_set] at hg
          split at hg
          · rename_i hkk; subst hkk
            left
            intro hd
            obtain ⟨w, hw⟩ := h.dirtyIn _ hd
            rw [hc] at hw; simp at hw
          · exact h.allowed k' v' hg
      | none =>
        obtain ⟨e, he⟩ := get_of_look_none hl
        rw [he]
        exact ⟨m, .getNone (by rw [h.cur, hc, hl]; rfl), h, rfl, Iff.rfl⟩
  | set k v =>
    refine ⟨_, .set, ?_, rfl, Iff.rfl⟩
    simp only [step, set]
    refine ⟨h.pinv, ?_, h.saved, ?_, ?_, ?_, ?_⟩
    · intro k'
      simp only [MapSpec.upd, Dict.get?_set]
      by_cases hk : k' = k
      · subst hk; simp
      · simp [hk, Ne.symm hk, h.cur]
    · intro k'
      simp only [mem_addKey, h.pend]
    · intro k' hk'
      rw [mem_addKey] at hk'
      simp only [Dict.get?_set]
      split
      · exact ⟨_, rfl⟩
      · rename_i hkk
        rcases hk' with rfl | hk'
        · exact absurd rfl hkk
        · exact h.dirtyIn k' hk'
    · intro k' v' hk' hg
      rw [mem_addKey, not_or] at hk'
      simp only [Dict.get?_set, Ne.symm hk'.1, if_false] at hg
      exact h.clean k' v' hk'.2 hg
    · intro k' v' hg
      simp only [Dict.get?_set] at hg
      split at hg
      · rename_i hkk; subst hkk; simp at hg; subst hg
        right; exact ha
      · rename_i hkk
        rcases h.allowed k' v' hg with h1 | h1
        · left; simp [mem_addKey, h1, Ne.symm hkk]
        · right; exact h1
  | exists_ k =>
    refine ⟨m, ?_, h, rfl, Iff.rfl⟩
    have : c.exists_ k = (m.cur k).isSome := by
      unfold exists_ Dict.has
      rw [h.cur, exists_look]
      cases c.cache.get? k <;> simp
    simp only [step, this]
    exact .exists_
  | drop k =>
    obtain ⟨p, h1, hp1, ht1, ho1, hl1⟩ := drop_look h.pinv k
    simp only [step, drop, h1]
    refine ⟨_, .drop, ?_, ht1, ho1⟩
    refine ⟨hp1, ?_, ?_, ?_, ?_, ?_, ?_⟩
    · intro k'
      simp only [MapSpec.upd, hl1, Dict.get?_erase]
      by_cases hk : k' = k
      · subst hk; simp
      · simp [hk, Ne.symm hk, h.cur]
    · intro k'
      simp only [MapSpec.upd, hl1, h.saved]
    · intro k'
      simp [h.pend, and_comm]
    · intro k' hk'
      simp only [ne_eq, decide_not, List.mem_filter, Bool.not_eq_eq_eq_not, Bool.not_true,
        decide_eq_false_iff_not] at hk'
      simp only [Dict.get?_erase, Ne.symm hk'.2, if_false]
      exact h.dirtyIn k' hk'.1
    · intro k' v' hk' hg
      simp only [Dict.get?_erase] at hg
      split at hg
      · simp at hg
      · rename_i hkk
        simp only [hl1, Ne.symm hkk, if_false]
        refine h.clean k' v' (fun hd => hk' ?_) hg
        simp [hd, Ne.symm hkk]
    · intro k' v' hg
      simp only [Dict.get?_erase] at hg
      split at hg
      · simp at hg
      · rcases h.allowed k' v' hg with h2 | h2
        · left; simp [h2]
        · right
          unfold Allowed at h2 ⊢
          simp only [ht1]
          exact ⟨h2.1, fun hb => ho1.2 (h2.2 hb)⟩
  | commit =>
    obtain ⟨p, h1, hp1, ht1, ho1, hl1⟩ := flush_look (size := size) c.cache c.dirty c.pers h.pinv (by
      intro k hk
      obtain ⟨v, hv⟩ := h.dirtyIn k hk
      refine ⟨v, hv, ?_⟩
      rcases h.allowed k v hv with h2 | h2
      · exact absurd hk h2
      · exact h2)
    simp only [step, commit, h1]
    refine ⟨_, .commit, ?_, ht1, ho1⟩
    have hcur : ∀ k, m.cur k = look p k := by
      intro k
      rw [h.cur, hl1]
      by_cases hd : k ∈ c.dirty
      · obtain ⟨v, hv⟩ := h.dirtyIn k hd
        simp [hd, hv]
      · cases hc : c.cache.get? k with
        | none => simp [hd]
        | some v => simp [hd, h.clean k v hd hc]
    refine ⟨hp1, ?_, ?_, by simp, by simp, ?_, by simp⟩
    · intro k
      simp only
      rw [h.cur, ← hcur k, h.cur]
      cases c.cache.get? k <;> simp
    · intro k; exact hcur k
    · intro k v _ hg
      simp only at hg ⊢
      rw [← hcur, h.cur, hg]; rfl
  | clear a =>
    simp only [step, clear]
    by_cases hd : (c.dirty.length > 0 && !a) = true
    · simp only [hd, if_true]
      simp only [Bool.and_eq_true, decide_eq_true_eq, Bool.not_eq_eq_eq_not, Bool.not_true] at hd
      obtain ⟨h1, h2⟩ := hd
      subst h2
      obtain ⟨k, hk⟩ := List.exists_mem_of_length_pos h1
      exact ⟨m, .clearRefused ((h.pend k).2 hk), h, by simp⟩
    · simp only [hd]
      refine ⟨_, .clearOk ?_, ?_, by simp⟩
      · cases a with
        | true => left; rfl
        | false =>
          right
          intro k hk
          have := (h.pend k).1 hk
          simp only [Bool.not_false, Bool.and_true, decide_eq_true_eq, Nat.not_lt,
            Nat.le_zero_eq, List.length_eq_zero_iff] at hd
          rw [hd] at this; simp at this
      · exact ⟨h.pinv, by simp [h.saved], h.saved, by simp, by simp, by simp, by simp⟩
  | reopen =>
    simp only [step, open_]
    exact ⟨_, .reopen, ⟨h.pinv, by simp [h.saved], h.saved, by simp, by simp, by simp, by simp⟩,
      by simp⟩

theorem rel_run {size : V → Nat} {content : String → V} (ops : List (Op V)) :
    ∀ {c : CachedDict V} {m : MapSpec V}, Rel size content c m →
    (∀ o ∈ ops, o.Allowed size content c.pers.threshold (c.pers.overflow ≠ none)) →
    ∃ m', MapSpec.Run m ops (run size c ops).1 m' ∧ Rel size content (run size c ops).2 m' := by
  induction ops with
  | nil => intro c m h _; exact ⟨m, .nil, h⟩
  | cons o os ih =>
    intro c m h ha
    obtain ⟨m1, hs, hr, ht, ho⟩ := rel_step h o (ha o (by simp))
    obtain ⟨m2, hs2, hr2⟩ := ih hr (by
      intro o' ho'
      have := ha o' (List.mem_cons_of_mem _ ho')
      rw [ht]
      cases o' with
      | set k v => exact ⟨this.1, fun hb => ho.2 (this.2 hb)⟩
      | _ => exact this)
    exact ⟨m2, .cons hs hs2, hr2⟩

theorem rel_open (size : V → Nat) (content : String → V) (p : SqlDict V) (hp : PInv size content p) :
    Rel size content (open_ p) { cur := look p, saved := look p, pending := fun _ => False } :=
  ⟨hp, by simp [open_], by simp [open_], by simp [open_], by simp [open_], by simp [open_],
    by simp [open_]⟩

end CachedDict
end Verif
