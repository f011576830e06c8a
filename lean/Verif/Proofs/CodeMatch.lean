import Verif.Proofs.CodeDiff
/-!
The matching blocks are increasing and match.
-/
namespace Verif.CodeDiff

set_option linter.unusedSectionVars false

variable {α : Type} [DecidableEq α] {a b : List α} {alo ahi blo bhi : Nat}

/-- A block between the given positions. -/
structure IsBlock (a b : List α) (alo ahi blo bhi : Nat) (x : Nat × Nat × Nat) : Prop where
  ilo : alo ≤ x.1
  jlo : blo ≤ x.2.1
  ihi : x.1 + x.2.2 ≤ ahi
  jhi : x.2.1 + x.2.2 ≤ bhi
  same : Same a b x.1 x.2.1 (x.1 + x.2.2) (x.2.1 + x.2.2)

/-- What `j2len` says: the matches that end with row `i`. -/
def Lens (a b : List α) (alo blo bhi i : Nat) (j2len : Nat → Nat) : Prop :=
  ∀ j, 0 < j2len j → alo + j2len j ≤ i ∧ blo + j2len j ≤ j + 1 ∧ j < bhi ∧ Same a b (i - j2len j) (j + 1 - j2len j) i (j + 1)

theorem places_sound {x : α} {j : Nat} (h : j ∈ places b x) : b[j]? = some x := by
  unfold places at h
  dsimp only at h
  split at h
  · cases h
  · exact of_decide_eq_true (List.mem_filter.1 h).2

theorem taken {p : Nat → Bool} {j : Nat} {l : List Nat} (h : j ∈ l.takeWhile p) : p j = true := by
  induction l with
  | nil => cases h
  | cons y l ih =>
    rw [List.takeWhile_cons] at h
    split at h
    · rcases List.mem_cons.1 h with rfl | h
      · assumption
      · exact ih h
    · cases h

theorem matchRow_ok {i : Nat} {x : α} {best : Nat × Nat × Nat} {j2len : Nat → Nat} (hx : a[i]? = some x) (hi : alo ≤ i) (hia : i < ahi)
    (hb : IsBlock a b alo ahi blo bhi best) (hl : Lens a b alo blo bhi i j2len) :
    IsBlock a b alo ahi blo bhi (matchRow b blo bhi i x best j2len).1 ∧ Lens a b alo blo bhi (i + 1) (matchRow b blo bhi i x best j2len).2 := by
  unfold matchRow
  have hjs : ∀ j ∈ ((places b x).filter fun j => blo ≤ j).takeWhile fun j => j < bhi, b[j]? = some x ∧ blo ≤ j ∧ j < bhi := fun j hj => by
    have h1 := (List.takeWhile_sublist _).subset hj
    obtain ⟨h2, h3⟩ := List.mem_filter.1 h1
    exact ⟨places_sound h2, of_decide_eq_true h3, of_decide_eq_true (taken hj)⟩
  generalize ((places b x).filter fun j => blo ≤ j).takeWhile (fun j => j < bhi) = js at hjs
  have h0 : Lens a b alo blo bhi (i + 1) fun _ => 0 := fun j h => absurd h (Nat.not_lt_zero _)
  generalize (fun _ => 0 : Nat → Nat) = cur at h0
  induction js generalizing best cur with
  | nil => exact ⟨hb, h0⟩
  | cons j js ih =>
    rw [List.foldl_cons]
    obtain ⟨hbj, hjlo, hjhi⟩ := hjs j List.mem_cons_self
    have hm : alo + ((if j = 0 then 0 else j2len (j - 1)) + 1) ≤ i + 1 ∧ blo + ((if j = 0 then 0 else j2len (j - 1)) + 1) ≤ j + 1 ∧
        Same a b (i + 1 - ((if j = 0 then 0 else j2len (j - 1)) + 1)) (j + 1 - ((if j = 0 then 0 else j2len (j - 1)) + 1)) (i + 1) (j + 1) := by
      have one : Same a b i j (i + 1) (j + 1) := ⟨1, rfl, rfl, fun t ht => by
        have : t = 0 := by omega
        subst this
        exact ⟨x, hx, hbj⟩⟩
      generalize hk : (if j = 0 then 0 else j2len (j - 1)) = k
      cases k with
      | zero => exact ⟨by omega, by omega, by simpa using one⟩
      | succ k =>
        have hj : j ≠ 0 := fun h => by rw [if_pos h] at hk; cases hk
        rw [if_neg hj] at hk
        obtain ⟨h1, h2, _, h3⟩ := hl (j - 1) (by omega)
        rw [hk] at h1 h2 h3
        rw [show j - 1 + 1 = j by omega] at h2 h3
        refine ⟨by omega, by omega, ?_⟩
        rw [show i + 1 - (k + 1 + 1) = i - (k + 1) by omega, show j + 1 - (k + 1 + 1) = j - (k + 1) by omega]
        exact h3.trans one
    generalize (if j = 0 then 0 else j2len (j - 1)) + 1 = k at hm
    obtain ⟨m1, m2, m3⟩ := hm
    refine ih ?_ (fun j hj => hjs j (List.mem_cons_of_mem _ hj)) _ ?_
    · dsimp only
      split
      · refine ⟨?_, ?_, ?_, ?_, ?_⟩
        · show alo ≤ i + 1 - k
          omega
        · show blo ≤ j + 1 - k
          omega
        · show i + 1 - k + k ≤ ahi
          omega
        · show j + 1 - k + k ≤ bhi
          omega
        · show Same a b (i + 1 - k) (j + 1 - k) (i + 1 - k + k) (j + 1 - k + k)
          rw [show i + 1 - k + k = i + 1 by omega, show j + 1 - k + k = j + 1 by omega]
          exact m3
      · exact hb
    · intro j' hj'
      dsimp only at hj' ⊢
      by_cases he : j' = j
      · subst he
        rw [if_pos rfl] at hj' ⊢
        exact ⟨m1, m2, hjhi, m3⟩
      · rw [if_neg he] at hj' ⊢
        exact h0 j' hj'

theorem matchRows_ok : ∀ (m i : Nat) {best : Nat × Nat × Nat} {j2len : Nat → Nat}, alo ≤ i → i + m ≤ ahi → IsBlock a b alo ahi blo bhi best →
    Lens a b alo blo bhi i j2len → IsBlock a b alo ahi blo bhi (matchRows a b blo bhi (List.range' i m) best j2len)
  | 0, _, _, _, _, _, hb, _ => hb
  | m + 1, i, _, _, hi, hia, hb, hl => by
    rw [List.range'_succ]
    unfold matchRows
    split
    · exact hb
    · obtain ⟨h1, h2⟩ := matchRow_ok ‹_› hi (by omega) hb hl
      exact matchRows_ok m (i + 1) (by omega) (by omega) h1 h2

theorem extendLeft_ok (hahi : ahi ≤ a.length) : ∀ (i j k : Nat), IsBlock a b alo ahi blo bhi (i, j, k) → IsBlock a b alo ahi blo bhi (extendLeft a b alo blo i j k)
  | 0, _, _, h => h
  | i + 1, j, k, h => by
    unfold extendLeft
    split
    · rename_i hc
      obtain ⟨h1, h2, h3, h4, h5⟩ := h
      dsimp only at h1 h2 h3 h4 h5
      refine extendLeft_ok hahi i (j - 1) (k + 1) ⟨by dsimp only; omega, by dsimp only; omega, by dsimp only; omega, by dsimp only; omega, ?_⟩
      dsimp only
      have one : Same a b i (j - 1) (i + 1) j := ⟨1, rfl, by omega, fun t ht => by
        have : t = 0 := by omega
        subst this
        have hi : i < a.length := by omega
        exact ⟨a[i], List.getElem?_eq_getElem hi, hc.2.2 ▸ List.getElem?_eq_getElem hi⟩⟩
      rw [show i + (k + 1) = i + 1 + k by omega, show j - 1 + (k + 1) = j + k by omega]
      exact one.trans h5
    · exact h

theorem extendRight_ok (hahi : ahi ≤ a.length) {i j : Nat} : ∀ (m k : Nat), i + k + m ≤ ahi → IsBlock a b alo ahi blo bhi (i, j, k) →
    IsBlock a b alo ahi blo bhi (i, j, extendRight a b bhi i j m k)
  | 0, _, _, h => h
  | m + 1, k, hm, h => by
    unfold extendRight
    split
    · rename_i hc
      obtain ⟨h1, h2, h3, h4, h5⟩ := h
      dsimp only at h1 h2 h3 h4 h5
      refine extendRight_ok hahi m (k + 1) (by omega) ⟨h1, h2, by dsimp only; omega, by dsimp only; omega, ?_⟩
      have one : Same a b (i + k) (j + k) (i + (k + 1)) (j + (k + 1)) := ⟨1, rfl, rfl, fun t ht => by
        have : t = 0 := by omega
        subst this
        have hi : i + k < a.length := by omega
        exact ⟨a[i + k], List.getElem?_eq_getElem hi, hc.2 ▸ List.getElem?_eq_getElem hi⟩⟩
      exact h5.trans one
    · exact h

theorem findLongestMatch_ok (ha : alo ≤ ahi) (hb : blo ≤ bhi) (hahi : ahi ≤ a.length) : IsBlock a b alo ahi blo bhi (findLongestMatch a b alo ahi blo bhi) := by
  unfold findLongestMatch
  have h1 := matchRows_ok (a := a) (b := b) (alo := alo) (ahi := ahi) (blo := blo) (bhi := bhi) (ahi - alo) alo (best := (alo, blo, 0)) (j2len := fun _ => 0)
    (Nat.le_refl _) (by omega) ⟨Nat.le_refl _, Nat.le_refl _, ha, hb, .refl⟩ fun j h => absurd h (Nat.not_lt_zero _)
  dsimp only
  generalize matchRows a b blo bhi (List.range' alo (ahi - alo)) (alo, blo, 0) (fun _ => 0) = best at h1
  have h2 := extendLeft_ok hahi best.1 best.2.1 best.2.2 h1
  generalize extendLeft a b alo blo best.1 best.2.1 best.2.2 = x at h2
  obtain ⟨i, j, k⟩ := x
  have h3 : i + k ≤ ahi := h2.ihi
  exact extendRight_ok hahi (ahi - (i + k)) k (by omega) h2

/-- Blocks in order, between two positions. -/
def Chain (a b : List α) (ihi jhi : Nat) : Nat → Nat → List (Nat × Nat × Nat) → Prop
  | i, j, [] => i ≤ ihi ∧ j ≤ jhi
  | i, j, (x, y, k) :: bs => i ≤ x ∧ j ≤ y ∧ Same a b x y (x + k) (y + k) ∧ Chain a b ihi jhi (x + k) (y + k) bs

theorem Chain.append {i' j' ihi jhi : Nat} : ∀ {bs cs : List (Nat × Nat × Nat)} {i j : Nat}, Chain a b i' j' i j bs → Chain a b ihi jhi i' j' cs →
    Chain a b ihi jhi i j (bs ++ cs)
  | [], [], _, _, h1, h2 => ⟨Nat.le_trans h1.1 h2.1, Nat.le_trans h1.2 h2.2⟩
  | [], (_, _, _) :: _, _, _, h1, h2 => ⟨Nat.le_trans h1.1 h2.1, Nat.le_trans h1.2 h2.2.1, h2.2.2⟩
  | (_, _, _) :: _, _, _, _, h1, h2 => ⟨h1.1, h1.2.1, h1.2.2.1, h1.2.2.2.append h2⟩

theorem Chain.le {ihi jhi : Nat} : ∀ {bs : List (Nat × Nat × Nat)} {i j : Nat}, Chain a b ihi jhi i j bs → i ≤ ihi ∧ j ≤ jhi
  | [], _, _, h => h
  | (_, _, _) :: _, _, _, h => by have := h.2.2.2.le; have := h.1; have := h.2.1; omega

theorem blocksIn_ok : ∀ (f : Nat) {alo ahi blo bhi : Nat}, alo ≤ ahi → blo ≤ bhi → ahi ≤ a.length → Chain a b ahi bhi alo blo (blocksIn a b f alo ahi blo bhi)
  | 0, _, _, _, _, ha, hb, _ => ⟨ha, hb⟩
  | f + 1, alo, ahi, blo, bhi, ha, hb, hl => by
    unfold blocksIn
    have h := findLongestMatch_ok ha hb hl (b := b)
    generalize findLongestMatch a b alo ahi blo bhi = x at h
    obtain ⟨i, j, k⟩ := x
    obtain ⟨h1, h2, h3, h4, h5⟩ := h
    dsimp only at *
    split
    · exact ⟨ha, hb⟩
    · refine Chain.append (i' := i) (j' := j) ?_ ⟨Nat.le_refl _, Nat.le_refl _, h5, ?_⟩
      · split
        · exact blocksIn_ok f h1 h2 (by omega)
        · exact ⟨h1, h2⟩
      · split
        · exact blocksIn_ok f h3 h4 hl
        · exact ⟨h3, h4⟩

theorem collapse_ok {ihi jhi : Nat} : ∀ (bs : List (Nat × Nat × Nat)) {i j i1 j1 k1 : Nat}, i ≤ i1 → j ≤ j1 → Same a b i1 j1 (i1 + k1) (j1 + k1) →
    Chain a b ihi jhi (i1 + k1) (j1 + k1) bs → Chain a b ihi jhi i j (collapse bs i1 j1 k1)
  | [], i, j, i1, j1, k1, hi, hj, hs, h => by
    unfold collapse
    split
    · have := h.1; have := h.2; exact ⟨by omega, by omega⟩
    · exact ⟨hi, hj, hs, h⟩
  | (i2, j2, k2) :: bs, i, j, i1, j1, k1, hi, hj, hs, h => by
    obtain ⟨h1, h2, h3, h4⟩ := h
    unfold collapse
    split
    · rename_i he
      obtain ⟨rfl, rfl⟩ := he
      rw [Nat.add_assoc, Nat.add_assoc] at h3 h4
      exact collapse_ok bs hi hj (hs.trans h3) h4
    · split
      · exact collapse_ok bs (by omega) (by omega) h3 h4
      · exact ⟨hi, hj, hs, collapse_ok bs h1 h2 h3 h4⟩

theorem Chain.blocks : ∀ {bs : List (Nat × Nat × Nat)} {i j : Nat}, Chain a b a.length b.length i j bs → Blocks a b i j (bs ++ [(a.length, b.length, 0)])
  | [], _, _, h => ⟨h.1, h.2, .refl, Nat.le_refl _, Nat.le_refl _, rfl, rfl⟩
  | (x, y, k) :: bs, _, _, h => by
    have := h.2.2.2.le
    exact ⟨h.1, h.2.1, h.2.2.1, by omega, by omega, h.2.2.2.blocks⟩

/-- python's promise about the matching blocks -/
theorem matchingBlocks_ok (a b : List α) : Blocks a b 0 0 (matchingBlocks a b) :=
  (collapse_ok (k1 := 0) _ (Nat.le_refl 0) (Nat.le_refl 0) .refl (blocksIn_ok (a.length + 1) (Nat.zero_le _) (Nat.zero_le _) (Nat.le_refl _))).blocks

end Verif.CodeDiff
