import Verif.Basic.Dict
/-!
Canonical (key-sorted) form of a dictionary. The content hash of a python dictionary does not depend on
the insertion order (joblib hashes the sorted items), so hash preimages are built from this form.
-/
namespace Verif

variable {α β : Type}

/-- insert by key -/
def insKey (p : String × α) : List (String × α) → List (String × α)
  | [] => [p]
  | q :: l => if p.1 ≤ q.1 then p :: q :: l else q :: insKey p l

/-- sort by key -/
def canon : List (String × α) → List (String × α)
  | [] => []
  | p :: l => insKey p (canon l)

theorem perm_insKey (p : String × α) (l : List (String × α)) : (insKey p l).Perm (p :: l) := by
  induction l with
  | nil => exact List.Perm.refl _
  | cons q l ih =>
    simp only [insKey]
    split
    · exact List.Perm.refl _
    · exact (List.Perm.cons q ih).trans (List.Perm.swap p q l)

theorem perm_canon (l : List (String × α)) : (canon l).Perm l := by
  induction l with
  | nil => exact List.Perm.refl _
  | cons p l ih => exact (perm_insKey p _).trans (List.Perm.cons p ih)

theorem mem_canon {l : List (String × α)} {p : String × α} : p ∈ canon l ↔ p ∈ l := (perm_canon l).mem_iff

theorem insKey_map (f : String → α → β) (p : String × α) (l : List (String × α)) :
    insKey (p.1, f p.1 p.2) (l.map fun q => (q.1, f q.1 q.2)) = (insKey p l).map fun q => (q.1, f q.1 q.2) := by
  induction l with
  | nil => rfl
  | cons q l ih =>
    simp only [insKey, List.map_cons]
    split
    · rfl
    · rw [ih]; rfl

/-- Sorting only looks at the keys. -/
theorem canon_map (f : String → α → β) (l : List (String × α)) :
    canon (l.map fun q => (q.1, f q.1 q.2)) = (canon l).map fun q => (q.1, f q.1 q.2) := by
  induction l with
  | nil => rfl
  | cons p l ih => simp only [canon, List.map_cons, ih, insKey_map]

theorem canon_length (l : List (String × α)) : (canon l).length = l.length := (perm_canon l).length_eq

/-- Lookup is not affected by sorting if there are no duplicate keys. -/
theorem get?_canon {l : List (String × α)} (h : (Dict.keys l).Nodup) (k : String) :
    Dict.get? (canon l) k = Dict.get? l k := by
  have hn : (Dict.keys (canon l)).Nodup := ((perm_canon l).map _).nodup_iff.2 h
  cases hg : Dict.get? l k with
  | none =>
    rw [Dict.get?_eq_none] at hg ⊢
    intro hm
    exact hg (((perm_canon l).map _).mem_iff.1 hm)
  | some v =>
    rw [Dict.get?_eq_some_iff hn]
    exact mem_canon.2 ((Dict.get?_eq_some_iff h).1 hg)

end Verif
