import Verif.Spec.RoundTrip
/-!
What is garbage in the database.
-/
namespace Verif

/-- An input or output of a call in the database has the history id `h`. -/
def UsedHid (s : St) (h : String) : Prop := ∃ r ∈ s.calls.pers, r.refHid = h

/-- An input or output of a call in the database has the content id `c`. -/
def UsedCid (s : St) (c : String) : Prop := ∃ r ∈ s.calls.pers, r.refCid = c

/-- From `s` to `s'`, precisely the refs and values that no call in the database uses were deleted, and nothing else. -/
structure GarbageGone (s s' : St) : Prop where
  refs : ∀ h r, s'.shapes.pers.get h = .ok r ↔ s.shapes.pers.get h = .ok r ∧ UsedHid s h
  values : ∀ c v, s'.atoms.pers.get c = .ok v ↔ s.atoms.pers.get c = .ok v ∧ UsedCid s c
  calls : s'.calls = s.calls
  ops : s'.ops = s.ops

mutual
/-- `P` holds of the history ids of all refs inside the ref. -/
def Nested (P : String → Prop) : Ref → Prop
  | .atom .. => True
  | .coll _ _ _ _ _ es => Nesteds P es
/-- and of those of the refs themselves -/
def Nesteds (P : String → Prop) : List Ref → Prop
  | [] => True
  | r :: rs => (P r.hid ∧ Nested P r) ∧ Nesteds P rs
end

/-- The elements of collections used by calls in the database are used by calls in the database. -/
def EltsUsed (s : St) : Prop := ∀ h, UsedHid s h → ∀ r, (s.shapes.get h).1 = .ok r → Nested (UsedHid s) r

end Verif
