import Verif.Model.CodeDiff
/-!
What a diff is to show, and what python's `difflib` promises.
-/
namespace Verif.CodeDiff

/-- Reading `old` and `new` from top to bottom, `out` shows every line that was removed with a minus and every line that was added with a plus, in order. Lines that are the
same in both may be shown (after a blank) or left out. -/
inductive Shows {α : Type} (mark : Char → α → α) : List α → List α → List α → Prop
  | nil : Shows mark [] [] []
  | hidden (l : α) {old new out : List α} : Shows mark old new out → Shows mark (l :: old) (l :: new) out
  | context (l : α) {old new out : List α} : Shows mark old new out → Shows mark (l :: old) (l :: new) (mark ' ' l :: out)
  | removed (l : α) {old new out : List α} : Shows mark old new out → Shows mark (l :: old) new (mark '-' l :: out)
  | added (l : α) {old new out : List α} : Shows mark old new out → Shows mark old (l :: new) (mark '+' l :: out)

/-- `a[i:i'] == b[j:j']`, inside both -/
def Same {α : Type} (a b : List α) (i j i' j' : Nat) : Prop :=
  ∃ k, i' = i + k ∧ j' = j + k ∧ ∀ t, t < k → ∃ l, a[i + t]? = some l ∧ b[j + t]? = some l

/-- The matching blocks as documented: increasing in both, equal on both sides, the last one at both ends. -/
def Blocks {α : Type} (a b : List α) : Nat → Nat → List (Nat × Nat × Nat) → Prop
  | i, j, [] => i = a.length ∧ j = b.length
  | i, j, (x, y, k) :: bs => i ≤ x ∧ j ≤ y ∧ Same a b x y (x + k) (y + k) ∧ x ≤ a.length ∧ y ≤ b.length ∧ Blocks a b (x + k) (y + k) bs

/-- What a terminal shows of a line: escape sequences, up to the next `m`, are colors. -/
def visible : List Char → List Char
  | [] => []
  | c :: cs => if c = '\x1b' then inEscape cs else c :: visible cs
where
  inEscape : List Char → List Char
    | [] => []
    | c :: cs => if c = 'm' then visible cs else inEscape cs

end Verif.CodeDiff
