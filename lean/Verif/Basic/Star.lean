/-!
Reflexive-transitive closure of a relation, and counting lemmas used for termination arguments.
-/
namespace Verif

/-- Reflexive-transitive closure. -/
inductive Star {α : Type} (R : α → α → Prop) (a : α) : α → Prop
  | refl : Star R a a
  | tail {b c : α} : Star R a b → R b c → Star R a c

namespace Star

variable {α : Type} {R : α → α → Prop}

theorem single {a b : α} (h : R a b) : Star R a b := .tail .refl h

theorem trans {a b c : α} (h : Star R a b) (h' : Star R b c) : Star R a c := by
  induction h' with
  | refl => exact h
  | tail _ hr ih => exact .tail ih hr

theorem head {a b c : α} (h : R a b) (h' : Star R b c) : Star R a c := (single h).trans h'

theorem head_cases {a c : α} (h : Star R a c) : a = c ∨ ∃ b, R a b ∧ Star R b c := by
  induction h with
  | refl => exact .inl rfl
  | tail _ hr ih =>
    rcases ih with rfl | ⟨b, hb, hbc⟩
    · exact .inr ⟨_, hr, .refl⟩
    · exact .inr ⟨b, hb, .tail hbc hr⟩

/-- The closure of the reversed relation is the reversed closure. -/
theorem swap {a b : α} (h : Star R a b) : Star (fun x y => R y x) b a := by
  induction h with
  | refl => exact .refl
  | tail _ hr ih => exact .head hr ih

theorem swap_iff {a b : α} : Star (fun x y => R y x) b a ↔ Star R a b :=
  ⟨fun h => h.swap, fun h => h.swap⟩

theorem mono {S : α → α → Prop} (hRS : ∀ a b, R a b → S a b) {a b : α} (h : Star R a b) : Star S a b := by
  induction h with
  | refl => exact .refl
  | tail _ hr ih => exact .tail ih (hRS _ _ hr)

/-- A set that contains the start and is closed contains everything reachable. -/
theorem closed {P : α → Prop} {a b : α} (h : Star R a b) (ha : P a)
    (hc : ∀ x y, P x → R x y → P y) : P b := by
  induction h with
  | refl => exact ha
  | tail _ hr ih => exact hc _ _ ih hr

end Star

/-- Shrinking the set of counted elements by at least one present element. -/
theorem countP_lt_of_imp {α : Type} (p q : α → Bool) (l : List α) (h : ∀ a ∈ l, q a = true → p a = true)
    (x : α) (hx : x ∈ l) (hp : p x = true) (hq : q x = false) : l.countP q < l.countP p := by
  induction l with
  | nil => simp at hx
  | cons a l ih =>
    have hle : l.countP q ≤ l.countP p := List.countP_mono_left (fun b hb => h b (List.mem_cons_of_mem _ hb))
    rcases List.mem_cons.1 hx with rfl | hx
    · rw [List.countP_cons_of_pos hp, List.countP_cons_of_neg (by simp [hq])]
      omega
    · have := ih (fun b hb => h b (List.mem_cons_of_mem _ hb)) hx
      rw [List.countP_cons, List.countP_cons]
      have := h a (by simp)
      by_cases hqa : q a = true
      · simp [hqa, this hqa]; omega
      · simp [hqa]; split <;> omega

end Verif
