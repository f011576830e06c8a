/-!
Python dictionaries as association lists in insertion order.

`Dict.set` overwrites in place or appends (python keeps the position of an existing key),
`Dict.erase` removes every entry of the key.
-/

namespace Verif

/-- A python dictionary: association list, first entry of a key counts. -/
abbrev Dict (K V : Type) := List (K × V)

namespace Dict

variable {K V W : Type} [DecidableEq K]

/-- `d.get(k)` -/
def get? : Dict K V → K → Option V
  | [], _ => none
  | (k', v) :: d, k => if k' = k then some v else get? d k

/-- `d[k] = v` -/
def set : Dict K V → K → V → Dict K V
  | [], k, v => [(k, v)]
  | (k', v') :: d, k, v => if k' = k then (k, v) :: d else (k', v') :: set d k v

/-- `del d[k]` for a key that is present; no effect otherwise -/
def erase (d : Dict K V) (k : K) : Dict K V := d.filter (fun p => p.1 ≠ k)

/-- `d.keys()` -/
def keys (d : Dict K V) : List K := d.map (·.1)

/-- `d.values()` -/
def vals (d : Dict K V) : List V := d.map (·.2)

/-- `k in d` -/
def has (d : Dict K V) (k : K) : Bool := (d.get? k).isSome

/-- `d.update(e)` -/
def update (d e : Dict K V) : Dict K V := e.foldl (fun acc p => acc.set p.1 p.2) d

/-- `{k: f(v) for k, v in d.items()}` -/
def mapVals (f : V → W) (d : Dict K V) : Dict K W := d.map (fun p => (p.1, f p.2))

@[simp] theorem get?_nil (k : K) : get? ([] : Dict K V) k = none := rfl

theorem get?_cons (k' : K) (v : V) (d : Dict K V) (k : K) :
    get? ((k', v) :: d) k = if k' = k then some v else get? d k := rfl

theorem get?_set (d : Dict K V) (k : K) (v : V) (k' : K) :
    (d.set k v).get? k' = if k = k' then some v else d.get? k' := by
  induction d with
  | nil => simp [set, get?]
  | cons p d ih =>
    obtain ⟨a, b⟩ := p
    by_cases h : a = k
    · subst h
      simp only [set, if_true, get?]
      split <;> rfl
    · simp only [set, if_neg h, get?, ih]
      by_cases h2 : a = k'
      · subst h2; simp [Ne.symm h]
      · simp [h2]

@[simp] theorem get?_set_self (d : Dict K V) (k : K) (v : V) : (d.set k v).get? k = some v := by
  simp [get?_set]

theorem get?_set_ne (d : Dict K V) {k k' : K} (v : V) (h : k ≠ k') :
    (d.set k v).get? k' = d.get? k' := by
  simp [get?_set, h]

theorem get?_erase (d : Dict K V) (k k' : K) :
    (d.erase k).get? k' = if k = k' then none else d.get? k' := by
  induction d with
  | nil => simp [erase]
  | cons p d ih =>
    obtain ⟨a, b⟩ := p
    simp only [erase] at ih ⊢
    by_cases h : a = k
    · subst h
      simp only [ne_eq, not_true_eq_false, decide_false, Bool.false_eq_true, not_false_eq_true,
        List.filter_cons_of_neg, ih, get?]
      split <;> simp_all
    · rw [List.filter_cons_of_pos (by simpa using h)]
      simp only [get?, ih]
      by_cases h2 : a = k'
      · subst h2; simp [Ne.symm h]
      · simp [h2]

theorem mem_keys {d : Dict K V} {k : K} : k ∈ d.keys ↔ ∃ v, d.get? k = some v := by
  induction d with
  | nil => simp [keys]
  | cons p d ih =>
    obtain ⟨a, b⟩ := p
    simp only [keys, List.map_cons, List.mem_cons, get?] at ih ⊢
    by_cases h : a = k
    · simp [h]
    · simp [h, Ne.symm h, ih]

theorem has_iff {d : Dict K V} {k : K} : d.has k = true ↔ k ∈ d.keys := by
  rw [mem_keys, has, Option.isSome_iff_exists]

theorem get?_eq_none {d : Dict K V} {k : K} : d.get? k = none ↔ k ∉ d.keys := by
  rw [mem_keys]
  cases h : d.get? k <;> simp

theorem mem_keys_set {d : Dict K V} {k k' : K} {v : V} :
    k' ∈ (d.set k v).keys ↔ k' = k ∨ k' ∈ d.keys := by
  simp only [mem_keys, get?_set]
  by_cases h : k = k'
  · simp [h]
  · simp [h, Ne.symm h]

theorem mem_keys_erase {d : Dict K V} {k k' : K} :
    k' ∈ (d.erase k).keys ↔ k' ≠ k ∧ k' ∈ d.keys := by
  simp only [mem_keys, get?_erase]
  by_cases h : k = k'
  · simp [h]
  · simp [h, Ne.symm h]

theorem mem_of_get? {d : Dict K V} {k : K} {v : V} (h : d.get? k = some v) : (k, v) ∈ d := by
  induction d with
  | nil => simp at h
  | cons p d ih =>
    obtain ⟨a, b⟩ := p
    simp only [get?] at h
    by_cases hk : a = k
    · simp [hk] at h; simp [hk, h]
    · simp [hk] at h; exact List.mem_cons_of_mem _ (ih h)

/-- with distinct keys, membership and lookup agree -/
theorem get?_eq_some_iff {d : Dict K V} (hd : d.keys.Nodup) {k : K} {v : V} :
    d.get? k = some v ↔ (k, v) ∈ d := by
  refine ⟨mem_of_get?, ?_⟩
  induction d with
  | nil => simp
  | cons p d ih =>
    obtain ⟨a, b⟩ := p
    simp only [keys, List.map_cons, List.nodup_cons] at hd
    intro h
    simp only [get?]
    rcases List.mem_cons.1 h with h | h
    · cases h; simp
    · have : a ≠ k := by
        rintro rfl
        exact hd.1 (List.mem_map.2 ⟨_, h, rfl⟩)
      simp [this, ih hd.2 h]

theorem keys_set (d : Dict K V) (k : K) (v : V) :
    (d.set k v).keys = if k ∈ d.keys then d.keys else d.keys ++ [k] := by
  induction d with
  | nil => simp [set, keys]
  | cons p d ih =>
    obtain ⟨a, b⟩ := p
    by_cases h : a = k
    · simp [set, h, keys]
    · simp only [set, h, if_false]
      simp only [keys, List.map_cons, List.mem_cons] at ih ⊢
      simp only [Ne.symm h, false_or, ih]
      split <;> simp_all

theorem nodup_set {d : Dict K V} (h : d.keys.Nodup) (k : K) (v : V) : (d.set k v).keys.Nodup := by
  rw [keys_set]
  split
  · exact h
  · rw [List.nodup_append]
    refine ⟨h, by simp, ?_⟩
    intro a ha b hb
    simp at hb
    subst hb
    rintro rfl
    contradiction

theorem nodup_erase {d : Dict K V} (h : d.keys.Nodup) (k : K) : (d.erase k).keys.Nodup := by
  unfold keys erase at *
  exact List.Nodup.sublist (List.Sublist.map _ List.filter_sublist) h

theorem get?_append (d e : Dict K V) (k : K) :
    get? (d ++ e) k = (d.get? k).or (e.get? k) := by
  induction d with
  | nil => simp
  | cons p d ih =>
    obtain ⟨a, b⟩ := p
    simp only [List.cons_append, get?]
    split <;> simp_all

theorem get?_update (d e : Dict K V) (he : e.keys.Nodup) (k : K) :
    (d.update e).get? k = (e.get? k).or (d.get? k) := by
  induction e generalizing d with
  | nil => simp [update]
  | cons p e ih =>
    obtain ⟨a, b⟩ := p
    simp only [keys, List.map_cons, List.nodup_cons] at he
    have := ih (d.set a b) he.2
    simp only [update, List.foldl_cons] at this ⊢
    rw [this, get?_set, get?_cons]
    by_cases h : a = k
    · subst h
      have : get? e a = none := get?_eq_none.2 he.1
      simp [this]
    · simp [h]

theorem get?_mapVals (f : V → W) (d : Dict K V) (k : K) :
    (d.mapVals f).get? k = (d.get? k).map f := by
  induction d with
  | nil => rfl
  | cons p d ih =>
    obtain ⟨a, b⟩ := p
    simp only [mapVals, List.map_cons, get?] at ih ⊢
    split <;> simp_all

omit [DecidableEq K] in
@[simp] theorem keys_mapVals (f : V → W) (d : Dict K V) : (d.mapVals f).keys = d.keys := by
  simp [mapVals, keys]

end Dict
end Verif
