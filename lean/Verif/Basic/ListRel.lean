/-!
Pointwise relation of two lists.
-/
namespace Verif

inductive All2 {α β : Type} (R : α → β → Prop) : List α → List β → Prop
  | nil : All2 R [] []
  | cons {a b as bs} : R a b → All2 R as bs → All2 R (a :: as) (b :: bs)

namespace All2

variable {α β γ : Type} {R S : α → β → Prop}

@[simp] theorem nil_left {bs : List β} : All2 R [] bs ↔ bs = [] := by
  constructor
  · intro h; cases h; rfl
  · rintro rfl; exact .nil

@[simp] theorem nil_right {as : List α} : All2 R as [] ↔ as = [] := by
  constructor
  · intro h; cases h; rfl
  · rintro rfl; exact .nil

@[simp] theorem cons_cons {a : α} {as : List α} {b : β} {bs : List β} :
    All2 R (a :: as) (b :: bs) ↔ R a b ∧ All2 R as bs := by
  constructor
  · intro h; cases h with | cons h1 h2 => exact ⟨h1, h2⟩
  · rintro ⟨h1, h2⟩; exact .cons h1 h2

theorem length_eq {as : List α} {bs : List β} (h : All2 R as bs) : as.length = bs.length := by
  induction h with
  | nil => rfl
  | cons _ _ ih => simp [ih]

theorem imp (hi : ∀ a b, R a b → S a b) {as : List α} {bs : List β} (h : All2 R as bs) : All2 S as bs := by
  induction h with
  | nil => exact .nil
  | cons h _ ih => exact .cons (hi _ _ h) ih

theorem imp_mem {as : List α} {bs : List β} (h : All2 R as bs) (hi : ∀ a ∈ as, ∀ b ∈ bs, R a b → S a b) :
    All2 S as bs := by
  induction h with
  | nil => exact .nil
  | cons h _ ih =>
    exact .cons (hi _ (by simp) _ (by simp) h)
      (ih fun a ha b hb => hi a (List.mem_cons_of_mem _ ha) b (List.mem_cons_of_mem _ hb))

/-- A functional relation determines the right list. -/
theorem functional (hf : ∀ a b b', R a b → R a b' → b = b') {as : List α} :
    ∀ {bs bs' : List β}, All2 R as bs → All2 R as bs' → bs = bs' := by
  induction as with
  | nil => intro bs bs' h h'; cases h; cases h'; rfl
  | cons a as ih =>
    intro bs bs' h h'
    cases h with
    | cons h1 h2 =>
      cases h' with
      | cons h1' h2' => rw [hf _ _ _ h1 h1', ih h2 h2']

theorem map_left {f : γ → α} {cs : List γ} {bs : List β} :
    All2 R (cs.map f) bs ↔ All2 (fun c b => R (f c) b) cs bs := by
  induction cs generalizing bs with
  | nil => simp
  | cons c cs ih => cases bs <;> simp [ih]

theorem map_right {f : γ → β} {as : List α} {cs : List γ} :
    All2 R as (cs.map f) ↔ All2 (fun a c => R a (f c)) as cs := by
  induction as generalizing cs with
  | nil => cases cs <;> simp
  | cons a as ih => cases cs <;> simp [ih]

theorem append {as as' : List α} {bs bs' : List β} (h : All2 R as bs) (h' : All2 R as' bs') :
    All2 R (as ++ as') (bs ++ bs') := by
  induction h with
  | nil => exact h'
  | cons h _ ih => exact .cons h ih

theorem get? {as : List α} {bs : List β} (h : All2 R as bs) (i : Nat) {a : α} (ha : as[i]? = some a) :
    ∃ b, bs[i]? = some b ∧ R a b := by
  induction h generalizing i with
  | nil => simp at ha
  | cons h _ ih =>
    cases i with
    | zero => simp at ha; subst ha; exact ⟨_, rfl, h⟩
    | succ i => simp at ha; simpa using ih i ha

theorem get?_right {as : List α} {bs : List β} (h : All2 R as bs) (i : Nat) {b : β} (hb : bs[i]? = some b) :
    ∃ a, as[i]? = some a ∧ R a b := by
  induction h generalizing i with
  | nil => simp at hb
  | cons h _ ih =>
    cases i with
    | zero => simp at hb; subst hb; exact ⟨_, rfl, h⟩
    | succ i => simp at hb; simpa using ih i hb

theorem mem_left {as : List α} {bs : List β} (h : All2 R as bs) {a : α} (ha : a ∈ as) : ∃ b ∈ bs, R a b := by
  induction h with
  | nil => simp at ha
  | cons h _ ih =>
    rcases List.mem_cons.1 ha with rfl | ha
    · exact ⟨_, by simp, h⟩
    · obtain ⟨b, hb, hr⟩ := ih ha
      exact ⟨b, by simp [hb], hr⟩

theorem mem_right {as : List α} {bs : List β} (h : All2 R as bs) {b : β} (hb : b ∈ bs) : ∃ a ∈ as, R a b := by
  induction h with
  | nil => simp at hb
  | cons h _ ih =>
    rcases List.mem_cons.1 hb with rfl | hb
    · exact ⟨_, by simp, h⟩
    · obtain ⟨a, ha, hr⟩ := ih hb
      exact ⟨a, by simp [ha], hr⟩

end All2

end Verif
