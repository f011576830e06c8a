import Verif.Model.SetDict
/-!
C55: the helpers on set-valued and adjacency dictionaries.

Specification: a set-valued dictionary stands for the relation `InSet d k x` ("x is listed under k"), an adjacency
dictionary for the relation `InAdj d n l m`.
-/
namespace Verif.Props

open Verif

/-- `x in d[k]` -/
def InSet {K V : Type} [DecidableEq K] (d : Dict K (List V)) (k : K) (x : V) : Prop := ∃ s, d.get? k = some s ∧ x ∈ s

/-- `m in d[n][label]` -/
def InAdj (d : Adj) (n label m : String) : Prop := ∃ s, d.get? n = some s ∧ InSet s label m

theorem get?_mapKeys {V : Type} (ks : List String) (f : String → V) (k : String) :
    Dict.get? (ks.map fun k => (k, f k)) k = if k ∈ ks then some (f k) else none := by
  induction ks with
  | nil => simp
  | cons a ks ih =>
    simp only [List.map_cons, Dict.get?, ih, List.mem_cons]
    by_cases h : a = k
    · simp [h]
    · simp [h, Ne.symm h]

theorem get?_filterMapKeys {V : Type} (ks : List String) (f : String → Option V) (k : String) :
    Dict.get? (ks.filterMap fun k => (f k).map fun v => (k, v)) k = if k ∈ ks then f k else none := by
  induction ks with
  | nil => simp
  | cons a ks ih =>
    simp only [List.filterMap_cons, List.mem_cons]
    by_cases h : a = k
    · subst h
      cases hf : f a with
      | none => simp [ih, hf]
      | some v => simp [Dict.get?]
    · cases hf : f a with
      | none => simp [ih, Ne.symm h]
      | some v => simp [Dict.get?, h, ih, Ne.symm h]

theorem mem_getOr {V : Type} {d : Dict String (List V)} {k : String} {x : V} : x ∈ getOr d k ↔ InSet d k x := by
  unfold getOr InSet
  cases d.get? k <;> simp

@[simp] theorem mem_keysOr {V W : Type} {a : Dict String V} {b : Dict String W} {k : String} :
    k ∈ keysOr a b ↔ k ∈ a.keys ∨ k ∈ b.keys := by simp [keysOr]

@[simp] theorem mem_keysAnd {V W : Type} {a : Dict String V} {b : Dict String W} {k : String} :
    k ∈ keysAnd a b ↔ k ∈ a.keys ∧ k ∈ b.keys := by simp [keysAnd]

theorem InSet.key {K V : Type} [DecidableEq K] {d : Dict K (List V)} {k : K} {x : V} (h : InSet d k x) : k ∈ d.keys := by
  obtain ⟨s, hs, _⟩ := h
  exact Dict.mem_keys.2 ⟨s, hs⟩

theorem inSet_union {a b : SetDict} {k x : String} : InSet (setdictUnion a b) k x ↔ InSet a k x ∨ InSet b k x := by
  unfold setdictUnion
  rw [← mem_getOr]
  rw [getOr, get?_mapKeys]
  split
  · simp only [Option.getD_some, PySet.mem_union, mem_getOr]
  · rename_i h
    simp only [mem_keysOr, not_or] at h
    constructor
    · intro h'; simp at h'
    · rintro (h' | h')
      · exact absurd h'.key h.1
      · exact absurd h'.key h.2

theorem inSet_inter {a b : SetDict} {k x : String} : InSet (setdictInter a b) k x ↔ InSet a k x ∧ InSet b k x := by
  unfold setdictInter
  rw [← mem_getOr]
  rw [getOr, get?_mapKeys]
  split
  · simp only [Option.getD_some, PySet.mem_inter, mem_getOr]
  · rename_i h
    simp only [mem_keysAnd] at h
    constructor
    · intro h'; simp at h'
    · rintro ⟨h1, h2⟩
      exact absurd ⟨h1.key, h2.key⟩ h

theorem keys_mapKeys {V : Type} (ks : List String) (f : String → V) : Dict.keys (ks.map fun k => (k, f k)) = ks := by
  simp [Dict.keys, Function.comp_def]

/-- C55, set-valued dictionaries: the union (intersection) has the union (intersection) of the keys and under each key
the union (intersection) of the values; no key is repeated. -/
theorem C55_setdict_union_intersection (a b : SetDict) :
    (∀ k x, InSet (setdictUnion a b) k x ↔ InSet a k x ∨ InSet b k x) ∧
    (∀ k, k ∈ (setdictUnion a b).keys ↔ k ∈ a.keys ∨ k ∈ b.keys) ∧ (setdictUnion a b).keys.Nodup ∧
    (∀ k x, InSet (setdictInter a b) k x ↔ InSet a k x ∧ InSet b k x) ∧
    (∀ k, k ∈ (setdictInter a b).keys ↔ k ∈ a.keys ∧ k ∈ b.keys) ∧ (setdictInter a b).keys.Nodup := by
  refine ⟨fun _ _ => inSet_union, ?_, ?_, fun _ _ => inSet_inter, ?_, ?_⟩
  · intro k; unfold setdictUnion; rw [keys_mapKeys]; exact mem_keysOr
  · unfold setdictUnion; rw [keys_mapKeys]; exact PySet.nodup_union (PySet.nodup_ofList _) _
  · intro k; unfold setdictInter; rw [keys_mapKeys]; exact mem_keysAnd
  · unfold setdictInter; rw [keys_mapKeys]; exact PySet.nodup_inter (PySet.nodup_ofList _) _

example : setdictUnion [("a", ["1"]), ("b", [])] [("a", ["2", "1"]), ("c", ["3"])] =
    [("a", ["1", "2"]), ("b", []), ("c", ["3"])] := by decide +kernel

theorem inAdj_getOr {d : Adj} {n l m : String} : InSet (getOr d n) l m ↔ InAdj d n l m := by
  unfold InAdj getOr
  cases d.get? n with
  | none => simp [InSet]
  | some s => simp

theorem inAdj_key {d : Adj} {n l m : String} (h : InAdj d n l m) : n ∈ d.keys := by
  obtain ⟨s, hs, _⟩ := h
  exact Dict.mem_keys.2 ⟨s, hs⟩

/-- C55, adjacency dictionaries: the same, one level deeper. -/
theorem C55_adjacency_union_intersection (a b : Adj) :
    (∀ n l m, InAdj (adjUnion a b) n l m ↔ InAdj a n l m ∨ InAdj b n l m) ∧
    (∀ n, n ∈ (adjUnion a b).keys ↔ n ∈ a.keys ∨ n ∈ b.keys) ∧
    (∀ n l m, InAdj (adjInter a b) n l m ↔ InAdj a n l m ∧ InAdj b n l m) ∧
    (∀ n, n ∈ (adjInter a b).keys ↔ n ∈ a.keys ∧ n ∈ b.keys) := by
  refine ⟨?_, ?_, ?_, ?_⟩
  · intro n l m
    rw [← inAdj_getOr]
    rw [adjUnion, getOr, get?_mapKeys]
    split
    · rw [Option.getD_some, inSet_union, inAdj_getOr, inAdj_getOr]
    · rename_i h
      simp only [mem_keysOr, not_or] at h
      constructor
      · intro h'; simp [InSet] at h'
      · rintro (h' | h')
        · exact absurd (inAdj_key h') h.1
        · exact absurd (inAdj_key h') h.2
  · intro k; unfold adjUnion; rw [keys_mapKeys]; exact mem_keysOr
  · intro n l m
    rw [← inAdj_getOr]
    rw [adjInter, getOr, get?_mapKeys]
    split
    · rw [Option.getD_some, inSet_inter, inAdj_getOr, inAdj_getOr]
    · rename_i h
      simp only [mem_keysAnd] at h
      constructor
      · intro h'; simp [InSet] at h'
      · rintro ⟨h1, h2⟩
        exact absurd ⟨inAdj_key h1, inAdj_key h2⟩ h
  · intro k; unfold adjInter; rw [keys_mapKeys]; exact mem_keysAnd

/-- C55, dictionaries of single values: the left value wins on common keys. -/
theorem C55_dict_union_intersection {V : Type} (a b : Dict String V) (k : String) :
    (dictUnion a b).get? k = (a.get? k).or (b.get? k) ∧
    (dictInter a b).get? k = if k ∈ b.keys then a.get? k else none := by
  constructor
  · unfold dictUnion
    rw [get?_filterMapKeys]
    split
    · rfl
    · rename_i h
      simp only [mem_keysOr, not_or] at h
      rw [Dict.get?_eq_none.2 h.1, Dict.get?_eq_none.2 h.2]; rfl
  · unfold dictInter
    rw [get?_filterMapKeys]
    by_cases hb : k ∈ b.keys
    · by_cases ha : k ∈ a.keys
      · simp [ha, hb]
      · simp [ha, hb, Dict.get?_eq_none.2 ha]
    · simp [hb]

theorem mem_foldl_union {ss : List (List String)} {s : List String} {x : String} :
    x ∈ ss.foldl PySet.union s ↔ x ∈ s ∨ ∃ t ∈ ss, x ∈ t := by
  induction ss generalizing s with
  | nil => simp
  | cons a ss ih => simp [ih, or_assoc]

theorem mem_nullableUnion {ss : List (List String)} {x : String} : x ∈ nullableUnion ss ↔ ∃ t ∈ ss, x ∈ t := by
  cases ss with
  | nil => simp [nullableUnion]
  | cons s ss => simp [nullableUnion, mem_foldl_union]

theorem mem_foldl_inter {ss : List (List String)} {s : List String} {x : String} :
    x ∈ ss.foldl PySet.inter s ↔ x ∈ s ∧ ∀ t ∈ ss, x ∈ t := by
  induction ss generalizing s with
  | nil => simp
  | cons a ss ih => simp [ih, and_assoc]

theorem mem_nullableInter {ss : List (List String)} {x : String} : x ∈ nullableInter ss ↔ ss ≠ [] ∧ ∀ t ∈ ss, x ∈ t := by
  cases ss with
  | nil => simp [nullableInter]
  | cons s ss => simp [nullableInter, mem_foldl_inter]

/-! ### adjacency from edges -/

theorem inSet_set {K V : Type} [DecidableEq K] {d : Dict K (List V)} {k k' : K} {s : List V} {x : V} :
    InSet (d.set k s) k' x ↔ if k = k' then x ∈ s else InSet d k' x := by
  unfold InSet
  rw [Dict.get?_set]
  split <;> simp

theorem inAdj_add {d : Adj} {n l m n' l' m' : String} :
    InAdj (adjAdd d n l m) n' l' m' ↔ InAdj d n' l' m' ∨ (n = n' ∧ l = l' ∧ m = m') := by
  rw [← inAdj_getOr, ← inAdj_getOr]
  unfold adjAdd
  rw [show getOr (d.set n (Dict.set (getOr d n) l (PySet.add (getOr (getOr d n) l) m))) n' =
    if n = n' then Dict.set (getOr d n) l (PySet.add (getOr (getOr d n) l) m) else getOr d n' by
      rw [getOr, Dict.get?_set]; split <;> rfl]
  by_cases hn : n = n'
  · subst hn
    simp only [if_true, inSet_set, true_and]
    by_cases hl : l = l'
    · subst hl
      simp [PySet.mem_add, mem_getOr, eq_comm]
    · simp [hl]
  · simp [hn]

theorem inAdj_foldl (f : String × String × String → String × String × String) (es : List (String × String × String)) :
    ∀ (d : Adj) (n l m : String), InAdj (es.foldl (fun d e => adjAdd d (f e).1 (f e).2.2 (f e).2.1) d) n l m ↔
      InAdj d n l m ∨ ∃ e ∈ es, f e = (n, m, l) := by
  induction es with
  | nil => simp
  | cons e es ih =>
    intro d n l m
    rw [List.foldl_cons, ih, inAdj_add]
    have : (f e).1 = n ∧ (f e).2.2 = l ∧ (f e).2.1 = m ↔ f e = (n, m, l) := by
      constructor
      · rintro ⟨rfl, rfl, rfl⟩; rfl
      · intro h; rw [h]; exact ⟨rfl, rfl, rfl⟩
    rw [this, or_assoc]
    simp

theorem inAdj_support {d : Adj} {n n' l m : String} : InAdj (adjSupport d n) n' l m ↔ InAdj d n' l m := by
  unfold adjSupport
  split
  · rfl
  · rename_i h
    rw [Dict.has_iff] at h
    unfold InAdj
    rw [Dict.get?_set]
    by_cases hn : n = n'
    · subst hn
      simp [InSet, Dict.get?_eq_none.2 h]
    · simp [hn]

theorem inAdj_supports {ns : List String} : ∀ {d : Adj} {n l m : String}, InAdj (ns.foldl adjSupport d) n l m ↔ InAdj d n l m := by
  induction ns with
  | nil => simp
  | cons a ns ih => intro d n l m; rw [List.foldl_cons, ih, inAdj_support]

theorem key_support {d : Adj} {n k : String} : k ∈ (adjSupport d n).keys ↔ k ∈ d.keys ∨ k = n := by
  unfold adjSupport
  split
  · rename_i h
    rw [Dict.has_iff] at h
    constructor
    · exact .inl
    · rintro (h' | rfl) <;> assumption
  · rw [Dict.mem_keys_set]; exact Or.comm

theorem key_supports {ns : List String} : ∀ {d : Adj} {k : String}, k ∈ (ns.foldl adjSupport d).keys ↔ k ∈ d.keys ∨ k ∈ ns := by
  induction ns with
  | nil => simp
  | cons a ns ih => intro d k; rw [List.foldl_cons, ih, key_support]; simp [or_assoc]

/-- C55, adjacency: the outgoing and the incoming dictionary both hold exactly the given edges, so each is the other
one reversed; with a node support every node of it has an entry in both. -/
theorem C55_adjacency_from_edges (edges : List (String × String × String)) (support : Option (List String)) :
    (∀ s d l, InAdj (adjFromEdges edges support).1 s l d ↔ (s, d, l) ∈ edges) ∧
    (∀ s d l, InAdj (adjFromEdges edges support).2 d l s ↔ (s, d, l) ∈ edges) ∧
    (∀ ns, support = some ns → ∀ n ∈ ns, n ∈ (adjFromEdges edges support).1.keys ∧ n ∈ (adjFromEdges edges support).2.keys) := by
  have h1 : ∀ s d l, InAdj (edges.foldl (fun d e => adjAdd d e.1 e.2.2 e.2.1) []) s l d ↔ (s, d, l) ∈ edges := by
    intro s d l
    rw [inAdj_foldl (fun e => e)]
    simp [InAdj]
  have h2 : ∀ s d l, InAdj (edges.foldl (fun d e => adjAdd d e.2.1 e.2.2 e.1) []) d l s ↔ (s, d, l) ∈ edges := by
    intro s d l
    rw [inAdj_foldl (fun e => (e.2.1, e.1, e.2.2))]
    simp only [InAdj, Dict.get?_nil, reduceCtorEq, false_and, exists_false, Prod.mk.injEq, false_or]
    constructor
    · rintro ⟨e, he, rfl, rfl, rfl⟩; exact he
    · intro h; exact ⟨_, h, rfl, rfl, rfl⟩
  cases support with
  | none => exact ⟨h1, h2, by simp⟩
  | some ns =>
    refine ⟨?_, ?_, ?_⟩
    · intro s d l; rw [← h1]; exact inAdj_supports
    · intro s d l; rw [← h2]; exact inAdj_supports
    · rintro _ ⟨⟩ n hn
      exact ⟨key_supports.2 (.inr hn), key_supports.2 (.inr hn)⟩

example : adjFromEdges [("x", "f", "a"), ("f", "y", "output_0"), ("z", "f", "a")] (some ["w"]) =
    ([("x", [("a", ["f"])]), ("f", [("output_0", ["y"])]), ("z", [("a", ["f"])]), ("w", [])],
     [("f", [("a", ["x", "z"])]), ("y", [("output_0", ["f"])]), ("w", [])]) := by decide +kernel

/-! ### inverting a dictionary -/

theorem invert_foldl {K V : Type} [DecidableEq V] (d : Dict K V) : ∀ (out : Dict V (List K)) (v : V),
    (d.foldl (fun out p => out.set p.2 ((out.get? p.2).getD [] ++ [p.1])) out).get? v =
      if (d.filter (fun p => decide (p.2 = v))) = [] then out.get? v
      else some ((out.get? v).getD [] ++ (d.filter (fun p => decide (p.2 = v))).map (·.1)) := by
  induction d with
  | nil => simp
  | cons p d ih =>
    intro out v
    rw [List.foldl_cons, ih, Dict.get?_set]
    by_cases hv : p.2 = v
    · rw [if_pos hv, List.filter_cons_of_pos (by simpa using hv)]
      split
      · rename_i h; simp [h, hv]
      · simp [hv]
    · rw [if_neg hv, List.filter_cons_of_neg (by simpa using hv)]

/-- C55, inverting: a value is a key of the inverted dictionary iff it occurs, and it is mapped to the keys that carried it,
each once, in their order. -/
theorem C55_invert_groups_keys {K V : Type} [DecidableEq V] (d : Dict K V) (v : V) :
    (invertDict d).get? v = if v ∈ d.vals then some ((d.filter fun p => decide (p.2 = v)).map (·.1)) else none := by
  unfold invertDict
  rw [invert_foldl]
  have : (d.filter (fun p => decide (p.2 = v))) = [] ↔ v ∉ d.vals := by
    simp only [List.filter_eq_nil_iff, decide_eq_true_eq, Dict.vals, List.mem_map, not_exists, not_and]
  by_cases h : v ∈ d.vals
  · rw [if_neg (by rw [this]; simpa using h), if_pos h]; simp
  · rw [if_pos (by rw [this]; exact h), if_neg h]; simp

/-- Hence the entries can be recovered: `k ↦ v` is an entry iff `k` is listed under `v`. -/
theorem C55_invert_recovers {K V : Type} [DecidableEq V] (d : Dict K V) (k : K) (v : V) :
    (k, v) ∈ d ↔ InSet (invertDict d) v k := by
  unfold InSet
  rw [C55_invert_groups_keys]
  constructor
  · intro h
    have hv : v ∈ d.vals := List.mem_map.2 ⟨(k, v), h, rfl⟩
    rw [if_pos hv]
    exact ⟨_, rfl, List.mem_map.2 ⟨(k, v), by simpa using h, rfl⟩⟩
  · rintro ⟨s, hs, hk⟩
    split at hs
    · cases hs
      obtain ⟨p, hp, rfl⟩ := List.mem_map.1 hk
      simp only [List.mem_filter, decide_eq_true_eq] at hp
      obtain ⟨hp, rfl⟩ := hp
      exact hp
    · cases hs

example : invertDict [("a", 1), ("b", 2), ("c", 1)] = [(1, ["a", "c"]), (2, ["b"])] := by decide

/-- `is_subdict`: every entry of `a` is an entry of `b`. -/
theorem C55_is_subdict {V : Type} [DecidableEq V] (a b : Dict String V) :
    isSubdict a b = true ↔ ∀ k v, a.get? k = some v → b.get? k = some v := by
  unfold isSubdict
  simp only [ne_eq, decide_not, List.all_eq_true, Bool.and_eq_true, Bool.not_eq_eq_eq_not, Bool.not_true,
    decide_eq_false_iff_not, decide_eq_true_eq]
  constructor
  · intro h k v hk
    rw [← (h k (Dict.mem_keys.2 ⟨v, hk⟩)).2, hk]
  · intro h k hk
    obtain ⟨v, hv⟩ := Dict.mem_keys.1 hk
    rw [h k v hv, hv]
    simp

end Verif.Props
