import Verif.Model.Value
/-!
An injective "hash": a prefix code for python values. It shows that the hypothesis "no hash collisions" can be
met, and serves in examples.
-/
namespace Verif

/-- decimal number and a stop character -/
def encNat (n : Nat) : List Char := Nat.toDigits 10 n ++ [':']

/-- length-prefixed string -/
def encStr (s : String) : List Char := encNat s.toList.length ++ s.toList

/-- several strings -/
def encStrs : List String → List Char
  | [] => []
  | s :: ss => encStr s ++ encStrs ss

mutual
/-- the code of a value -/
def encVal : Val → List Char
  | .none => ['n']
  | .int (.ofNat n) => 'i' :: encNat n
  | .int (.negSucc n) => 'j' :: encNat n
  | .str s => 's' :: encStr s
  | .list xs => 'l' :: (encNat xs.length ++ encVals xs)
  | .tuple xs => 't' :: (encNat xs.length ++ encVals xs)
  | .dict ks vs => 'd' :: (encNat ks.length ++ (encStrs ks ++ (encNat vs.length ++ encVals vs)))
  | .obj n => 'o' :: encNat n
  | .ptr s => 'p' :: encStr s
/-- several values -/
def encVals : List Val → List Char
  | [] => []
  | v :: vs => encVal v ++ encVals vs
end

/-- the injective hash -/
def encH (v : Val) : String := String.ofList (encVal v)

theorem digits_ne_colon (n : Nat) : ∀ c ∈ Nat.toDigits 10 n, (c != ':') = true := by
  intro c hc
  have h := Nat.isDigit_of_mem_toDigits (by decide) (by decide) hc
  simp only [bne_iff_ne]
  rintro rfl
  exact absurd h (by decide)

theorem encNat_inj {n m : Nat} {r r' : List Char} (h : encNat n ++ r = encNat m ++ r') : n = m ∧ r = r' := by
  simp only [encNat, List.append_assoc, List.singleton_append] at h
  have h1 := takeWhile_append_stop (fun c : Char => c != ':') (Nat.toDigits 10 n) ':' r (digits_ne_colon n) (by decide)
  have h2 := takeWhile_append_stop (fun c : Char => c != ':') (Nat.toDigits 10 m) ':' r' (digits_ne_colon m) (by decide)
  rw [h, h2] at h1
  have := toDigits_inj h1.symm
  subst this
  simpa using h

theorem encStr_inj {s t : String} {r r' : List Char} (h : encStr s ++ r = encStr t ++ r') : s = t ∧ r = r' := by
  simp only [encStr, List.append_assoc] at h
  obtain ⟨h1, h2⟩ := encNat_inj h
  obtain ⟨h3, h4⟩ := List.append_inj h2 h1
  exact ⟨String.toList_inj.1 h3, h4⟩

theorem encStrs_inj : ∀ {ss ts : List String} {r r' : List Char}, ss.length = ts.length →
    encStrs ss ++ r = encStrs ts ++ r' → ss = ts ∧ r = r'
  | [], [], r, r', _, h => ⟨rfl, by simpa [encStrs] using h⟩
  | [], _ :: _, _, _, hl, _ => by simp at hl
  | _ :: _, [], _, _, hl, _ => by simp at hl
  | s :: ss, t :: ts, r, r', hl, h => by
    simp only [encStrs, List.append_assoc] at h
    obtain ⟨h1, h2⟩ := encStr_inj h
    obtain ⟨h3, h4⟩ := encStrs_inj (by simpa using hl) h2
    exact ⟨by rw [h1, h3], h4⟩

mutual
theorem encVal_inj : ∀ (u v : Val) (r r' : List Char), encVal u ++ r = encVal v ++ r' → u = v ∧ r = r'
  | .none, v, r, r', h => by
    cases v with
    | int n => cases n <;> simp [encVal] at h
    | _ => first | (simp [encVal] at h; done) | (simp [encVal] at h; exact ⟨rfl, h⟩)
  | .int (.ofNat n), v, r, r', h => by
    cases v with
    | int m => cases m with
      | ofNat m =>
        simp only [encVal, List.cons_append, List.cons.injEq, true_and] at h
        obtain ⟨h1, h2⟩ := encNat_inj h
        exact ⟨by rw [h1], h2⟩
      | negSucc m => simp [encVal] at h
    | _ => simp [encVal] at h
  | .int (.negSucc n), v, r, r', h => by
    cases v with
    | int m => cases m with
      | negSucc m =>
        simp only [encVal, List.cons_append, List.cons.injEq, true_and] at h
        obtain ⟨h1, h2⟩ := encNat_inj h
        exact ⟨by rw [h1], h2⟩
      | ofNat m => simp [encVal] at h
    | _ => simp [encVal] at h
  | .str s, v, r, r', h => by
    cases v with
    | int n => cases n <;> simp [encVal] at h
    | str t =>
      simp only [encVal, List.cons_append, List.cons.injEq, true_and] at h
      obtain ⟨h1, h2⟩ := encStr_inj h
      exact ⟨by rw [h1], h2⟩
    | _ => simp [encVal] at h
  | .obj s, v, r, r', h => by
    cases v with
    | int n => cases n <;> simp [encVal] at h
    | obj t =>
      simp only [encVal, List.cons_append, List.cons.injEq, true_and] at h
      obtain ⟨h1, h2⟩ := encNat_inj h
      exact ⟨by rw [h1], h2⟩
    | _ => simp [encVal] at h
  | .ptr s, v, r, r', h => by
    cases v with
    | int n => cases n <;> simp [encVal] at h
    | ptr t =>
      simp only [encVal, List.cons_append, List.cons.injEq, true_and] at h
      obtain ⟨h1, h2⟩ := encStr_inj h
      exact ⟨by rw [h1], h2⟩
    | _ => simp [encVal] at h
  | .list xs, v, r, r', h => by
    cases v with
    | int n => cases n <;> simp [encVal] at h
    | list ys =>
      simp only [encVal, List.cons_append, List.cons.injEq, true_and, List.append_assoc] at h
      obtain ⟨h1, h2⟩ := encNat_inj h
      obtain ⟨h3, h4⟩ := encVals_inj xs ys r r' h1 h2
      exact ⟨by rw [h3], h4⟩
    | _ => simp [encVal] at h
  | .tuple xs, v, r, r', h => by
    cases v with
    | int n => cases n <;> simp [encVal] at h
    | tuple ys =>
      simp only [encVal, List.cons_append, List.cons.injEq, true_and, List.append_assoc] at h
      obtain ⟨h1, h2⟩ := encNat_inj h
      obtain ⟨h3, h4⟩ := encVals_inj xs ys r r' h1 h2
      exact ⟨by rw [h3], h4⟩
    | _ => simp [encVal] at h
  | .dict ks xs, v, r, r', h => by
    cases v with
    | int n => cases n <;> simp [encVal] at h
    | dict ls ys =>
      simp only [encVal, List.cons_append, List.cons.injEq, true_and, List.append_assoc] at h
      obtain ⟨h1, h2⟩ := encNat_inj h
      obtain ⟨h3, h4⟩ := encStrs_inj h1 h2
      obtain ⟨h5, h6⟩ := encNat_inj h4
      obtain ⟨h7, h8⟩ := encVals_inj xs ys r r' h5 h6
      exact ⟨by rw [h3, h7], h8⟩
    | _ => simp [encVal] at h
theorem encVals_inj : ∀ (us vs : List Val) (r r' : List Char), us.length = vs.length →
    encVals us ++ r = encVals vs ++ r' → us = vs ∧ r = r'
  | [], [], r, r', _, h => ⟨rfl, by simpa [encVals] using h⟩
  | [], _ :: _, _, _, hl, _ => by simp at hl
  | _ :: _, [], _, _, hl, _ => by simp at hl
  | u :: us, v :: vs, r, r', hl, h => by
    simp only [encVals, List.append_assoc] at h
    obtain ⟨h1, h2⟩ := encVal_inj u v _ _ h
    obtain ⟨h3, h4⟩ := encVals_inj us vs r r' (by simpa using hl) h2
    exact ⟨by rw [h1, h3], h4⟩
end

theorem encH_inj (u v : Val) (h : encH u = encH v) : u = v := by
  have := congrArg String.toList h
  simp only [encH, String.toList_ofList] at this
  exact (encVal_inj u v [] [] (by simpa using this)).1

end Verif
