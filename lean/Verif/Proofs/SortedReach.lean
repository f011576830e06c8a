import Verif.Proofs.AlmostSort
/-!
In a list that is sorted modulo strongly connected components, what is reachable (and does not lead back) comes later.
-/
namespace Verif

variable {K : Type} [DecidableEq K]

theorem before_iff_idx {l : List K} (hn : l.Nodup) {a b : K} : Before l a b ↔ b ∈ l ∧ l.idxOf a < l.idxOf b := by
  constructor
  · rintro ⟨l1, l2, l3, rfl⟩
    have h := List.nodup_append.1 hn
    have h1 := List.nodup_append.1 h.1
    have ha : a ∉ l1 := fun h => h1.2.2 a h a (by simp) rfl
    have hb : b ∉ l1 ++ a :: l2 := fun hb => h.2.2 b hb b (by simp) rfl
    refine ⟨by simp, ?_⟩
    have e1 : (l1 ++ a :: l2 ++ b :: l3).idxOf a = l1.length := by
      rw [List.append_assoc, List.idxOf_append, if_neg ha, List.cons_append, List.idxOf_cons_self]
      omega
    have e2 : (l1 ++ a :: l2 ++ b :: l3).idxOf b = (l1 ++ a :: l2).length := by
      rw [List.idxOf_append, if_neg hb, List.idxOf_cons_self]
      omega
    rw [e1, e2, List.length_append, List.length_cons]
    omega
  · rintro ⟨hb, h⟩
    obtain ⟨l1, l2, rfl, hb'⟩ := List.append_of_mem hb |>.elim fun s h => h.elim fun t e => (⟨s, t, e, by
      subst e
      intro hs
      exact (List.nodup_append.1 hn).2.2 b hs b (by simp) rfl⟩ : ∃ s t, l = s ++ b :: t ∧ b ∉ s)
    have e2 : (l1 ++ b :: l2).idxOf b = l1.length := by
      rw [List.idxOf_append, if_neg hb', List.idxOf_cons_self]
      omega
    rw [e2] at h
    have ha : a ∈ l1 := by
      by_cases ha : a ∈ l1
      · exact ha
      · rw [List.idxOf_append, if_neg ha] at h
        omega
    obtain ⟨s, t, rfl⟩ := List.append_of_mem ha
    exact ⟨s, t, l2, rfl⟩

/-- the positions of a block -/
theorem block_idx {l1 c l2 : List K} (hn : (l1 ++ c ++ l2).Nodup) {y : K} (hy : y ∈ l1 ++ c ++ l2) :
    y ∈ c ↔ l1.length ≤ (l1 ++ c ++ l2).idxOf y ∧ (l1 ++ c ++ l2).idxOf y < l1.length + c.length := by
  have h := List.nodup_append.1 hn
  have h1 := List.nodup_append.1 h.1
  rw [List.append_assoc, List.idxOf_append, List.idxOf_append]
  by_cases m1 : y ∈ l1
  · rw [if_pos m1]
    have := List.idxOf_lt_length_iff.2 m1
    exact ⟨fun hc => absurd rfl (h1.2.2 y m1 y hc), fun ⟨_, _⟩ => by omega⟩
  · rw [if_neg m1]
    by_cases mc : y ∈ c
    · rw [if_pos mc]
      have := List.idxOf_lt_length_iff.2 mc
      exact ⟨fun _ => ⟨by omega, by omega⟩, fun _ => mc⟩
    · rw [if_neg mc]
      exact ⟨fun hc => absurd hc mc, fun ⟨_, _⟩ => by omega⟩

theorem AlmostSorted.reach {nodes : List K} {E : K → K → Prop} {l : List K} (H : AlmostSorted nodes E l) (hn : nodes.Nodup)
    (hE : ∀ a b, E a b → a ∈ nodes ∧ b ∈ nodes) {a b : K} (h : Star E a b) (hab : ¬ Star E b a) : Before l a b := by
  have hl : l.Nodup := H.perm.nodup_iff.2 hn
  have same : ∀ x y z, x ∈ nodes → z ∈ nodes → Star E x y → Star E y x → ¬ (Star E x z ∧ Star E z x) →
      (l.idxOf x < l.idxOf z → l.idxOf y < l.idxOf z) ∧ (l.idxOf z < l.idxOf x → l.idxOf z < l.idxOf y) := by
    intro x y z hx hz hxy hyx hxz
    obtain ⟨l1, c, l2, hc, hmem⟩ := H.block x hx
    have hxl : x ∈ l1 ++ c ++ l2 := hc ▸ H.perm.mem_iff.2 hx
    have hzl : z ∈ l1 ++ c ++ l2 := hc ▸ H.perm.mem_iff.2 hz
    have hyc : y ∈ c := (hmem y).2 ⟨hxy, hyx⟩
    have hyl : y ∈ l1 ++ c ++ l2 := by simp [hyc]
    rw [hc] at hl
    have b1 := (block_idx hl hxl).1 ((hmem x).2 ⟨.refl, .refl⟩)
    have b2 := (block_idx hl hyl).1 hyc
    have b3 : ¬ (l1.length ≤ (l1 ++ c ++ l2).idxOf z ∧ (l1 ++ c ++ l2).idxOf z < l1.length + c.length) :=
      fun hh => hxz ((hmem z).1 ((block_idx hl hzl).2 hh))
    rw [hc]
    omega
  have main : ∀ b, Star E a b → ¬ Star E b a → b ∈ nodes ∧ l.idxOf a < l.idxOf b := by
    intro b h
    induction h with
    | refl => exact fun hh => absurd .refl hh
    | tail h1 hr ih =>
      rename_i c d
      intro hd
      have hcd := hE c d hr
      refine ⟨hcd.2, ?_⟩
      by_cases hca : Star E c a
      · -- `c` and `a` in one block, `d` outside of it
        have hdc : ¬ Star E d c := fun hh => hd (hh.trans hca)
        have hb := (before_iff_idx hl).1 (H.order c d hr hdc)
        exact (same c a d hcd.1 hcd.2 hca h1 (fun hh => hdc hh.2)).1 hb.2
      · obtain ⟨hc, hlt⟩ := ih hca
        by_cases hdc : Star E d c
        · -- `c` and `d` in one block, `a` outside of it
          have ha : a ∈ nodes := by
            rcases h1.head_cases with e | ⟨x, hx, _⟩
            · rw [e]; exact hcd.1
            · exact (hE a x hx).1
          exact (same c d a hc ha (.single hr) hdc (fun hh => hca hh.1)).2 hlt
        · have hb := (before_iff_idx hl).1 (H.order c d hr hdc)
          omega
  obtain ⟨h1, h2⟩ := main b h hab
  exact (before_iff_idx hl).2 ⟨H.perm.mem_iff.2 h1, h2⟩

theorem Before.filter {l : List K} {a b : K} (h : Before l a b) (p : K → Bool) (ha : p a = true) (hb : p b = true) : Before (l.filter p) a b := by
  obtain ⟨l1, l2, l3, rfl⟩ := h
  refine ⟨l1.filter p, l2.filter p, l3.filter p, ?_⟩
  simp [List.filter_append, List.filter_cons, ha, hb]

end Verif
