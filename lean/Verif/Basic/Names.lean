/-!
Generated names: `f"elts_{i}"`, `f"output_{i}"` and parsing them back.
-/
namespace Verif

/-- `f"{p}_{i}"` -/
def idxName (p : String) (i : Nat) : String := p ++ "_" ++ toString i

/-- storage.py:548, model.py:410 -/
def eltName (i : Nat) : String := idxName "elts" i

/-- `dump_output_name` without names (utils.py:95-96) -/
def outputName (i : Nat) : String := idxName "output" i

/-- `parse_output_name` (utils.py:99-100): `int(name.split("_")[-1])`. A last part that is not a decimal
number gives `none` (python raises `ValueError`; signs, spaces and underscores inside numbers, which `int`
would accept, are not modelled). -/
def parseOutputName (name : String) : Option Nat :=
  let ds := (name.toList.reverse.takeWhile (· ≠ '_')).reverse
  if ds ≠ [] ∧ ds.all Char.isDigit then some (Nat.ofDigitChars 10 ds 0) else none

theorem idxName_toList (p : String) (i : Nat) :
    (idxName p i).toList = p.toList ++ '_' :: Nat.toDigits 10 i := by
  simp [idxName, toString, Nat.repr_eq_ofList_toDigits]

theorem toDigits_inj {i j : Nat} (h : Nat.toDigits 10 i = Nat.toDigits 10 j) : i = j := by
  have h1 := Nat.ofDigitChars_toDigits (b := 10) (n := i) (by decide) (by decide)
  have h2 := Nat.ofDigitChars_toDigits (b := 10) (n := j) (by decide) (by decide)
  rw [h] at h1; exact h1.symm.trans h2

theorem idxName_inj {p : String} {i j : Nat} (h : idxName p i = idxName p j) : i = j := by
  have := congrArg String.toList h
  rw [idxName_toList, idxName_toList] at this
  have := List.append_cancel_left this
  simp only [List.cons.injEq, true_and] at this
  exact toDigits_inj this

theorem takeWhile_append_stop {α : Type} (p : α → Bool) (l : List α) (a : α) (r : List α)
    (hl : ∀ x ∈ l, p x = true) (ha : p a = false) : (l ++ a :: r).takeWhile p = l := by
  induction l with
  | nil => simp [ha]
  | cons x l ih =>
    simp only [List.cons_append, List.takeWhile_cons, hl x (by simp), if_true]
    rw [ih (fun y hy => hl y (List.mem_cons_of_mem _ hy))]

theorem parse_idxName (p : String) (i : Nat) : parseOutputName (idxName p i) = some i := by
  have hd : ∀ x ∈ Nat.toDigits 10 i, x.isDigit = true :=
    fun x hx => Nat.isDigit_of_mem_toDigits (by decide) (by decide) hx
  have hds : ((idxName p i).toList.reverse.takeWhile (· ≠ '_')).reverse = Nat.toDigits 10 i := by
    rw [idxName_toList, List.reverse_append, List.reverse_cons, List.append_assoc, List.singleton_append,
      takeWhile_append_stop, List.reverse_reverse]
    · intro x hx
      rw [List.mem_reverse] at hx
      have := hd x hx
      simp only [ne_eq, decide_not, Bool.not_eq_eq_eq_not, Bool.not_true, decide_eq_false_iff_not]
      rintro rfl
      revert this; decide
    · simp
  have hne : Nat.toDigits 10 i ≠ [] := by
    intro h
    have h1 := Nat.ofDigitChars_toDigits (b := 10) (n := i) (by decide) (by decide)
    cases i with
    | zero => revert h; decide
    | succ i => rw [h] at h1; simp [Nat.ofDigitChars] at h1
  unfold parseOutputName
  rw [hds, if_pos]
  · rw [Nat.ofDigitChars_toDigits (by decide) (by decide)]
  · refine ⟨hne, ?_⟩
    rw [List.all_eq_true]
    exact hd

end Verif
