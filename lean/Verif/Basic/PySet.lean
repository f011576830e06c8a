import Verif.Basic.Dict
/-!
Python sets as lists without repetitions. The order of the list stands for the (arbitrary) iteration order, so a
statement about all lists covers all iteration orders.
-/
namespace Verif

namespace PySet

variable {α : Type} [DecidableEq α]

/-- `s.add(x)` -/
def add (s : List α) (x : α) : List α := if x ∈ s then s else s ++ [x]

/-- `s | t` -/
def union (s t : List α) : List α := t.foldl add s

/-- `s & t` -/
def inter (s t : List α) : List α := s.filter (· ∈ t)

/-- `s - t` -/
def diff (s t : List α) : List α := s.filter (· ∉ t)

/-- `s.remove(x)` for an element that is present, `s.discard(x)` in general -/
def remove (s : List α) (x : α) : List α := s.filter (· ≠ x)

/-- `set(l)` -/
def ofList (l : List α) : List α := l.foldl add []

/-- `s <= t` -/
def subset (s t : List α) : Bool := s.all (· ∈ t)

@[simp] theorem mem_add {s : List α} {x y : α} : y ∈ add s x ↔ y ∈ s ∨ y = x := by
  unfold add
  split
  · constructor
    · exact .inl
    · rintro (h | rfl) <;> assumption
  · simp

theorem nodup_add {s : List α} (h : s.Nodup) (x : α) : (add s x).Nodup := by
  unfold add
  split
  · exact h
  · rename_i hx
    rw [List.nodup_append]
    refine ⟨h, by simp, ?_⟩
    intro a ha b hb
    simp only [List.mem_singleton] at hb
    subst hb
    rintro rfl
    exact hx ha

@[simp] theorem mem_union {s t : List α} {y : α} : y ∈ union s t ↔ y ∈ s ∨ y ∈ t := by
  unfold union
  induction t generalizing s with
  | nil => simp
  | cons a t ih => simp [ih, or_assoc]

theorem nodup_union {s : List α} (h : s.Nodup) (t : List α) : (union s t).Nodup := by
  unfold union
  induction t generalizing s with
  | nil => exact h
  | cons a t ih => exact ih (nodup_add h a)

@[simp] theorem mem_inter {s t : List α} {y : α} : y ∈ inter s t ↔ y ∈ s ∧ y ∈ t := by simp [inter]

theorem nodup_inter {s : List α} (h : s.Nodup) (t : List α) : (inter s t).Nodup := h.filter _

@[simp] theorem mem_diff {s t : List α} {y : α} : y ∈ diff s t ↔ y ∈ s ∧ y ∉ t := by simp [diff]

theorem nodup_diff {s : List α} (h : s.Nodup) (t : List α) : (diff s t).Nodup := h.filter _

@[simp] theorem mem_remove {s : List α} {x y : α} : y ∈ remove s x ↔ y ∈ s ∧ y ≠ x := by simp [remove]

theorem nodup_remove {s : List α} (h : s.Nodup) (x : α) : (remove s x).Nodup := h.filter _

@[simp] theorem mem_ofList {l : List α} {y : α} : y ∈ ofList l ↔ y ∈ l := by
  have := @mem_union α _ [] l y
  simpa [union, ofList] using this

theorem nodup_ofList (l : List α) : (ofList l).Nodup := nodup_union List.nodup_nil l

theorem subset_iff {s t : List α} : subset s t = true ↔ ∀ x ∈ s, x ∈ t := by simp [subset]

end PySet

/-- Equality of sets. -/
def SetEq {α : Type} (s t : List α) : Prop := ∀ x, x ∈ s ↔ x ∈ t

namespace SetEq
variable {α : Type} {s t u : List α}
theorem refl (s : List α) : SetEq s s := fun _ => Iff.rfl
theorem symm (h : SetEq s t) : SetEq t s := fun x => (h x).symm
theorem trans (h : SetEq s t) (h' : SetEq t u) : SetEq s u := fun x => (h x).trans (h' x)
end SetEq

end Verif
