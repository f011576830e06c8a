import Verif.Spec.CodeDiff
/-!
A unified diff shows the whole change.
-/
namespace Verif.CodeDiff

variable {α : Type} {a b : List α} {i j i' j' : Nat}

theorem Same.refl : Same a b i j i j := ⟨0, rfl, rfl, fun _ h => absurd h (Nat.not_lt_zero _)⟩

theorem Same.trans {x y : Nat} (h1 : Same a b i j i' j') (h2 : Same a b i' j' x y) : Same a b i j x y := by
  obtain ⟨k, rfl, rfl, h1⟩ := h1
  obtain ⟨m, rfl, rfl, h2⟩ := h2
  refine ⟨k + m, by omega, by omega, fun t ht => ?_⟩
  by_cases h : t < k
  · exact h1 t h
  · obtain ⟨l, h3, h4⟩ := h2 (t - k) (by omega)
    exact ⟨l, by rw [← h3]; congr 1; omega, by rw [← h4]; congr 1; omega⟩

/-- The part of an opcode: what it says holds. -/
def Good (a b : List α) (c : OpCode) : Prop :=
  c.i1 ≤ c.i2 ∧ c.j1 ≤ c.j2 ∧ c.i2 ≤ a.length ∧ c.j2 ≤ b.length ∧
    match c.tag with
    | .equal => Same a b c.i1 c.j1 c.i2 c.j2
    | .replace => True
    | .delete => c.j1 = c.j2
    | .insert => c.i1 = c.i2

/-- The opcodes lead from the positions `i`, `j` to the ends; what they leave out is the same on both sides. -/
inductive Walk (a b : List α) : Nat → Nat → List OpCode → Prop
  | stop {i j : Nat} : Same a b i j a.length b.length → Walk a b i j []
  | op {i j : Nat} {c : OpCode} {cs : List OpCode} : Same a b i j c.i1 c.j1 → Good a b c → Walk a b c.i2 c.j2 cs → Walk a b i j (c :: cs)

theorem Walk.skip {cs : List OpCode} (h : Same a b i j i' j') (hw : Walk a b i' j' cs) : Walk a b i j cs := by
  cases hw with
  | stop h' => exact .stop (h.trans h')
  | op h1 h2 h3 => exact .op (h.trans h1) h2 h3

theorem Walk.congr {xs ys zs : List OpCode} (hyz : ∀ i j, Walk a b i j ys → Walk a b i j zs) (h : Walk a b i j (xs ++ ys)) : Walk a b i j (xs ++ zs) := by
  induction xs generalizing i j with
  | nil => exact hyz _ _ h
  | cons x xs ih =>
    cases h with
    | op h1 h2 h3 => exact .op h1 h2 (ih h3)

/-- An equal part can be left out, cut at its begin, at its end, or in the middle. -/
theorem Walk.drop {c : OpCode} {cs : List OpCode} (hc : c.tag = .equal) (h : Walk a b i j (c :: cs)) : Walk a b i j cs := by
  cases h with
  | op h1 h2 h3 =>
    have h4 := h2.2.2.2.2
    rw [hc] at h4
    exact (h3.skip h4).skip h1

theorem Walk.split {c : OpCode} {cs : List OpCode} (hc : c.tag = .equal) (n : Nat) (h : Walk a b i j (c :: cs)) :
    Walk a b i j ({ c with i2 := min c.i2 (c.i1 + n), j2 := min c.j2 (c.j1 + n) } :: cs) ∧
    Walk a b i j ({ c with i1 := max c.i1 (c.i2 - n), j1 := max c.j1 (c.j2 - n) } :: cs) ∧
    (n + n < c.i2 - c.i1 → Walk a b i j ({ c with i2 := min c.i2 (c.i1 + n), j2 := min c.j2 (c.j1 + n) } ::
      { c with i1 := max c.i1 (c.i2 - n), j1 := max c.j1 (c.j2 - n) } :: cs)) := by
  obtain ⟨tag, i1, i2, j1, j2⟩ := c
  cases h with
  | op h1 h2 h3 =>
    obtain ⟨g1, g2, g3, g4, g5⟩ := h2
    dsimp only at hc g1 g2 g3 g4 g5 h1 h3 ⊢
    subst hc
    dsimp only at g5
    obtain ⟨k, rfl, rfl, hk⟩ := g5
    have part : ∀ x y, x ≤ y → y ≤ k → Same a b (i1 + x) (j1 + x) (i1 + y) (j1 + y) := fun x y hx hy =>
      ⟨y - x, by omega, by omega, fun t ht => by
        obtain ⟨l, h5, h6⟩ := hk (x + t) (by omega)
        exact ⟨l, by rw [← h5]; congr 1; omega, by rw [← h6]; congr 1; omega⟩⟩
    have e1 : min (i1 + k) (i1 + n) = i1 + min k n := by omega
    have e2 : min (j1 + k) (j1 + n) = j1 + min k n := by omega
    have e3 : max i1 (i1 + k - n) = i1 + (k - n) := by omega
    have e4 : max j1 (j1 + k - n) = j1 + (k - n) := by omega
    rw [e1, e2, e3, e4]
    have front : ∀ m, m ≤ k → Good a b ⟨.equal, i1, i1 + m, j1, j1 + m⟩ := fun m hm =>
      ⟨by dsimp only; omega, by dsimp only; omega, by dsimp only; omega, by dsimp only; omega, part 0 m (by omega) hm⟩
    have back : ∀ m, m ≤ k → Good a b ⟨.equal, i1 + m, i1 + k, j1 + m, j1 + k⟩ := fun m hm =>
      ⟨by dsimp only; omega, by dsimp only; omega, by dsimp only; omega, by dsimp only; omega, part m k hm (by omega)⟩
    refine ⟨.op h1 (front _ (by omega)) (h3.skip (part _ _ (by omega) (by omega))), .op (h1.trans (part 0 _ (by omega) (by omega))) (back _ (by omega)) h3, fun hn => ?_⟩
    exact .op h1 (front _ (by omega)) (.op (part _ _ (by omega) (by omega)) (back _ (by omega)) h3)

theorem opcodes_walk : ∀ (bs : List (Nat × Nat × Nat)) (i j : Nat), i ≤ a.length → j ≤ b.length → Blocks a b i j bs → Walk a b i j (opcodes bs i j)
  | [], i, j, _, _, h => .stop (by obtain ⟨rfl, rfl⟩ := h; exact .refl)
  | (x, y, k) :: bs, i, j, hi, hj, h => by
    obtain ⟨h1, h2, hs, hx, hy, h3⟩ := h
    have hk : x + k ≤ a.length ∧ y + k ≤ b.length := by
      obtain ⟨k', e1, _, hs⟩ := hs
      have : k' = k := by omega
      subst this
      cases k' with
      | zero => exact ⟨hx, hy⟩
      | succ m =>
        obtain ⟨l, h5, h6⟩ := hs m (by omega)
        have := (List.getElem?_eq_some_iff.1 h5).1
        have := (List.getElem?_eq_some_iff.1 h6).1
        omega
    have ih := opcodes_walk bs (x + k) (y + k) hk.1 hk.2 h3
    have mid : Walk a b x y ((if k = 0 then [] else [⟨.equal, x, x + k, y, y + k⟩]) ++ opcodes bs (x + k) (y + k)) := by
      split
      · rename_i h0
        subst h0
        exact ih
      · exact .op .refl ⟨by dsimp only; omega, by dsimp only; omega, hk.1, hk.2, hs⟩ ih
    unfold opcodes
    rw [List.append_assoc]
    split
    · exact .op .refl ⟨h1, h2, hx, hy, trivial⟩ mid
    · split
      · have : j = y := by omega
        subst this
        exact .op .refl ⟨h1, h2, hx, hy, rfl⟩ mid
      · have : i = x := by omega
        subst this
        split
        · exact .op .refl ⟨h1, h2, hx, hy, rfl⟩ mid
        · have : j = y := by omega
          subst this
          exact mid

theorem fixFirst_walk {n : Nat} {cs : List OpCode} (h : Walk a b i j cs) : Walk a b i j (fixFirst n cs) := by
  cases cs with
  | nil => exact h
  | cons c cs =>
    simp only [fixFirst]
    split
    · exact (h.split ‹_› n).2.1
    · exact h

theorem fixLast_walk {n : Nat} : ∀ {cs : List OpCode} {i j : Nat}, Walk a b i j cs → Walk a b i j (fixLast n cs)
  | [], _, _, h => h
  | [c], _, _, h => by
    unfold fixLast
    split
    · exact (h.split ‹_› n).1
    · exact h
  | c :: d :: cs, _, _, h => by
    unfold fixLast
    cases h with
    | op h1 h2 h3 => exact .op h1 h2 (fixLast_walk h3)

theorem groups_walk {n : Nat} : ∀ (cs g : List OpCode) {i j : Nat}, Walk a b i j (g ++ cs) → Walk a b i j (groups n cs g).flatten
  | [], g, _, _, h => by
    rw [List.append_nil] at h
    unfold groups
    split
    · exact h
    · split
      · exact h.drop ‹_›
      · simpa using h
    · simpa using h
  | c :: cs, g, _, _, h => by
    unfold groups
    split
    · rename_i hc
      rw [List.flatten_cons, List.append_assoc]
      refine h.congr fun i j h => ?_
      refine Walk.congr (xs := [_]) (ys := { c with i1 := max c.i1 (c.i2 - n), j1 := max c.j1 (c.j2 - n) } :: cs) (fun i j h => ?_) ((h.split hc.1 n).2.2 hc.2)
      exact groups_walk cs _ h
    · exact groups_walk cs _ (by rw [List.append_assoc]; exact h)

/-- No group is empty. -/
theorem groups_ne {n : Nat} : ∀ (cs g : List OpCode), ∀ x ∈ groups n cs g, x ≠ []
  | [], g, x, hx => by
    unfold groups at hx
    split at hx
    · cases hx
    · split at hx
      · cases hx
      · rw [List.mem_singleton.1 hx]; exact List.cons_ne_nil _ _
    · rw [List.mem_singleton.1 hx]; assumption
  | c :: cs, g, x, hx => by
    unfold groups at hx
    split at hx
    · rcases List.mem_cons.1 hx with rfl | hx
      · simp
      · exact groups_ne cs _ x hx
    · exact groups_ne cs _ x hx

theorem grouped_walk {n : Nat} {cs : List OpCode} (h : Walk a b 0 0 cs) : Walk a b 0 0 (groupedOpcodes n cs).flatten := by
  unfold groupedOpcodes
  split
  · rename_i h0
    subst h0
    have : (groups n (fixLast n (fixFirst n [⟨.equal, 0, 1, 0, 1⟩])) []).flatten = [] := by
      have h1 : fixLast n (fixFirst n [⟨.equal, 0, 1, 0, 1⟩]) = [⟨.equal, max 0 (1 - n), min 1 (max 0 (1 - n) + n), max 0 (1 - n), min 1 (max 0 (1 - n) + n)⟩] := rfl
      rw [h1]
      unfold groups
      rw [if_neg (by dsimp only; omega)]
      rfl
    rw [this]
    exact h
  · exact groups_walk _ [] (fixLast_walk (fixFirst_walk h))

/-! ### the lines -/

abbrev mark (c : Char) (l : List Char) : List Char := c :: l

theorem slice_cons {i j : Nat} {l : α} (h : a[i]? = some l) (hij : i < j) : slice a i j = l :: slice a (i + 1) j := by
  obtain ⟨hi, rfl⟩ := List.getElem?_eq_some_iff.1 h
  unfold slice
  rw [List.drop_eq_getElem_cons hi, show j - i = (j - (i + 1)) + 1 by omega, List.take_succ_cons]

theorem slice_nil {i j : Nat} (h : j ≤ i) : slice a i j = [] := by
  unfold slice
  rw [show j - i = 0 by omega, List.take_zero]

theorem drop_cons {i : Nat} {l : α} (h : a[i]? = some l) : a.drop i = l :: a.drop (i + 1) := by
  obtain ⟨hi, rfl⟩ := List.getElem?_eq_some_iff.1 h
  exact List.drop_eq_getElem_cons hi

theorem Shows.skip {mk : Char → α → α} {out : List α} (h : Same a b i j i' j') (hs : Shows mk (a.drop i') (b.drop j') out) : Shows mk (a.drop i) (b.drop j) out := by
  obtain ⟨k, rfl, rfl, h⟩ := h
  induction k generalizing i j with
  | zero => exact hs
  | succ k ih =>
    obtain ⟨l, h1, h2⟩ := h 0 (by omega)
    rw [Nat.add_zero] at h1 h2
    rw [drop_cons h1, drop_cons h2]
    refine .hidden l (ih (fun t ht => ?_) (by rwa [show i + 1 + k = i + (k + 1) by omega, show j + 1 + k = j + (k + 1) by omega]))
    obtain ⟨l, h3, h4⟩ := h (t + 1) (by omega)
    exact ⟨l, by rw [← h3]; congr 1; omega, by rw [← h4]; congr 1; omega⟩

theorem Shows.keep {mk : Char → α → α} {out : List α} (h : Same a b i j i' j') (hs : Shows mk (a.drop i') (b.drop j') out) :
    Shows mk (a.drop i) (b.drop j) ((slice a i i').map (mk ' ') ++ out) := by
  obtain ⟨k, rfl, rfl, h⟩ := h
  induction k generalizing i j with
  | zero => rw [slice_nil (by omega)]; exact hs
  | succ k ih =>
    obtain ⟨l, h1, h2⟩ := h 0 (by omega)
    rw [Nat.add_zero] at h1 h2
    rw [drop_cons h1, drop_cons h2, slice_cons h1 (by omega)]
    have := ih (i := i + 1) (j := j + 1) (fun t ht => by
      obtain ⟨l, h3, h4⟩ := h (t + 1) (by omega)
      exact ⟨l, by rw [← h3]; congr 1; omega, by rw [← h4]; congr 1; omega⟩)
      (by rwa [show i + 1 + k = i + (k + 1) by omega, show j + 1 + k = j + (k + 1) by omega])
    rw [show i + 1 + k = i + (k + 1) by omega] at this
    exact .context l this

theorem Shows.remove {mk : Char → α → α} {new out : List α} (hi : i ≤ i') (hl : i' ≤ a.length) (hs : Shows mk (a.drop i') new out) :
    Shows mk (a.drop i) new ((slice a i i').map (mk '-') ++ out) := by
  obtain ⟨k, rfl⟩ := Nat.exists_eq_add_of_le hi
  clear hi
  induction k generalizing i with
  | zero => rw [slice_nil (by omega)]; exact hs
  | succ k ih =>
    have h1 : a[i]? = some a[i] := List.getElem?_eq_getElem (by omega)
    rw [drop_cons h1, slice_cons h1 (by omega)]
    have := ih (i := i + 1) (by omega) (by rwa [show i + 1 + k = i + (k + 1) by omega])
    rw [show i + 1 + k = i + (k + 1) by omega] at this
    exact .removed _ this

theorem Shows.add {mk : Char → α → α} {old out : List α} (hi : j ≤ j') (hl : j' ≤ b.length) (hs : Shows mk old (b.drop j') out) :
    Shows mk old (b.drop j) ((slice b j j').map (mk '+') ++ out) := by
  obtain ⟨k, rfl⟩ := Nat.exists_eq_add_of_le hi
  clear hi
  induction k generalizing j with
  | zero => rw [slice_nil (by omega)]; exact hs
  | succ k ih =>
    have h1 : b[j]? = some b[j] := List.getElem?_eq_getElem (by omega)
    rw [drop_cons h1, slice_cons h1 (by omega)]
    have := ih (j := j + 1) (by omega) (by rwa [show j + 1 + k = j + (k + 1) by omega])
    rw [show j + 1 + k = j + (k + 1) by omega] at this
    exact .added _ this

theorem walk_shows {a b : List (List Char)} {cs : List OpCode} (h : Walk a b i j cs) : Shows mark (a.drop i) (b.drop j) (cs.flatMap (codeLines a b)) := by
  induction h with
  | stop h =>
    refine Shows.skip h ?_
    rw [List.drop_length, List.drop_length]
    exact .nil
  | @op i j c cs h1 h2 _ ih =>
    obtain ⟨tag, i1, i2, j1, j2⟩ := c
    obtain ⟨g1, g2, g3, g4, g5⟩ := h2
    refine Shows.skip h1 ?_
    rw [List.flatMap_cons]
    unfold codeLines
    dsimp only at *
    cases tag with
    | equal => exact .keep g5 ih
    | replace =>
      dsimp only
      rw [List.append_assoc]
      exact .remove g1 g3 (.add g2 g4 ih)
    | delete =>
      dsimp only at g5 ⊢
      subst g5
      exact .remove g1 g3 ih
    | insert =>
      dsimp only at g5 ⊢
      subst g5
      exact .add g2 g4 ih

theorem groupLines_filter {a b : List (List Char)} (gs : List (List OpCode)) : (gs.flatMap (groupLines a b)).filter (fun l => !isHeader l) =
    (gs.flatten.flatMap (codeLines a b)).filter fun l => !isHeader l := by
  induction gs with
  | nil => rfl
  | cons g gs ih =>
    rw [List.flatMap_cons, List.filter_append, List.flatten_cons, List.flatMap_append, List.filter_append, ih]
    congr 1
    unfold groupLines
    rw [List.filter_append]
    split
    · rw [List.filter_cons_of_neg (by simp [isHeader, starts]), List.filter_nil, List.nil_append]
    · rw [List.filter_nil, List.nil_append]

/-- Only headers and lines that look like one are left out. -/
theorem diffLines_eq {n : Nat} {a b : List (List Char)} :
    (unifiedDiff n a b).filter (fun l => !isHeader l) =
      ((groupedOpcodes n (opcodes (matchingBlocks a b) 0 0)).flatten.flatMap (codeLines a b)).filter fun l => !isHeader l := by
  unfold unifiedDiff
  split
  · rename_i h
    rw [h]
    rfl
  · rw [List.filter_cons_of_neg (by decide), List.filter_cons_of_neg (by decide), groupLines_filter]

end Verif.CodeDiff
