import Verif.Proofs.DictStorage
/-!
# Properties C12 and C13: the key/value store

C12: the two-level store behaves like one map. C13: overflow files are invisible.
-/
namespace Verif
namespace Props

open CachedDict

variable {V : Type}

/-- A fresh persistent storage: no rows; overflow directory configured (and empty) or not. -/
def freshSql (V : Type) (withOverflow : Bool) (threshold : Nat) : SqlDict V :=
  { rows := [], overflow := if withOverflow then some [] else none, threshold := threshold }

/-- The discipline that makes an overflow directory sound: a key under which a large value is
written is always written with the same value (true for content-addressed tables). -/
def WriteOnceIfLarge (size : V → Nat) (threshold : Nat) (withOverflow : Bool) (ops : List (CachedDict.Op V)) : Prop :=
  (∀ k v w, .set k v ∈ ops → .set k w ∈ ops → size v > threshold → w = v) ∧
  (∀ k v, .set k v ∈ ops → size v > threshold → withOverflow = true)

theorem freshSql_pinv (size : V → Nat) (content : String → V) (b : Bool) (thr : Nat) :
    PInv size content (freshSql V b thr) := by
  constructor
  · intro j k v h1 h2
    unfold freshSql at h1
    cases b
    · simp at h1
    · simp at h1; subst h1; simp at h2
  · intro k v h; simp [freshSql] at h

theorem look_fresh (b : Bool) (thr : Nat) (k : String) : look (freshSql V b thr) k = none := by
  cases b <;> simp [look, freshSql]

/-- A value chosen for each key such that all writes agree with it as far as required. -/
theorem exists_content (size : V → Nat) (thr : Nat) (b : Bool) (ops : List (CachedDict.Op V)) [Nonempty V]
    (h : WriteOnceIfLarge size thr b ops) :
    ∃ content : String → V, ∀ k v, .set k v ∈ ops →
      Allowed size content thr (b = true) k v := by
  classical
  refine ⟨fun k => if hk : ∃ v, .set k v ∈ ops ∧ size v > thr then hk.choose
    else if hk2 : ∃ v, .set k v ∈ ops then hk2.choose else Classical.ofNonempty, ?_⟩
  intro k v hv
  refine ⟨?_, fun hb => h.2 k v hv hb⟩
  intro hor
  by_cases hk : ∃ v, .set k v ∈ ops ∧ size v > thr
  · simp only [hk, dif_pos]
    exact h.1 k _ v hk.choose_spec.1 hv hk.choose_spec.2
  · exfalso
    have hsmall : ∀ w, .set k w ∈ ops → ¬ size w > thr := fun w hw hb => hk ⟨w, hw, hb⟩
    simp only [hk, dif_neg, not_false_eq_true] at hor
    rcases hor with hor | hor
    · exact hsmall v hv hor
    · have hk2 : ∃ v, .set k v ∈ ops := ⟨v, hv⟩
      simp only [hk2, dif_pos] at hor
      exact hsmall _ hk2.choose_spec hor

/-- **C13 (and C12 in general form).** Whatever the threshold, with or without an overflow directory,
and for every sequence of reads, writes, existence checks, deletions, commits, cache clears and
re-openings in which keys with large values are write-once, the caller sees exactly what a
single dictionary with a saved copy would show.

Missing for the full claim: keys that are re-written with another large value; that case is
refuted by `C13_overflow_refuted`. -/
theorem C13_overflow_invisible_partial [Nonempty V] (size : V → Nat) (thr : Nat) (withOverflow : Bool)
    (ops : List (CachedDict.Op V)) (h : WriteOnceIfLarge size thr withOverflow ops) :
    ∃ m', MapSpec.Run MapSpec.empty ops (run size (open_ (freshSql V withOverflow thr)) ops).1 m' := by
  obtain ⟨content, hc⟩ := exists_content size thr withOverflow ops h
  obtain ⟨m', h1, _⟩ := rel_run (size := size) (content := content) ops
    (rel_open size content _ (freshSql_pinv size content withOverflow thr)) (by
      intro o ho
      cases o with
      | set k v =>
        have := hc k v ho
        refine ⟨this.1, fun hb => ?_⟩
        have := this.2 hb
        simp [open_, freshSql, this]
      | _ => trivial)
  refine ⟨m', ?_⟩
  have he : (MapSpec.empty : MapSpec V) = MapSpec.mk (look (freshSql V withOverflow thr))
      (look (freshSql V withOverflow thr)) (fun _ => False) := by
    unfold MapSpec.empty
    congr 1 <;> (funext k; rw [look_fresh])
  rw [he]; exact h1

/-- The hypothesis is met by a run which writes a large value twice, deletes it and writes it again,
and by small values that change. -/
example : WriteOnceIfLarge (V := Nat) id 10 true
    [.set "a" 50, .commit, .set "b" 1, .set "a" 50, .commit, .drop "a", .set "b" 2, .set "a" 50, .commit, .reopen, .get "a"] := by
  constructor
  · intro k v w h1 h2 hb
    simp at h1 h2
    rcases h1 with h1 | h1 | h1 | h1 | h1 <;> rcases h2 with h2 | h2 | h2 | h2 | h2 <;>
      simp_all
  · intro k v _ _; rfl

/-- What that run shows. -/
example : (run id (open_ (freshSql Nat true 10))
    [.set "a" 50, .commit, .set "b" 1, .set "a" 50, .commit, .drop "a", .exists_ "a", .set "b" 2, .set "a" 50, .commit, .reopen, .get "a", .get "b"]).1
    = [.unit, .unit, .unit, .unit, .unit, .unit, .bool false, .unit, .unit, .unit, .unit, .val 50, .val 2] := by
  decide

/-- **C12.** When all values fit into the table, no discipline is needed: for every sequence of
operations the two-level store answers exactly as one dictionary with a saved copy. -/
theorem C12_cached_store_is_map [Nonempty V] (size : V → Nat) (thr : Nat) (withOverflow : Bool)
    (ops : List (CachedDict.Op V)) (h : ∀ k v, .set k v ∈ ops → size v ≤ thr) :
    ∃ m', MapSpec.Run MapSpec.empty ops (run size (open_ (freshSql V withOverflow thr)) ops).1 m' :=
  C13_overflow_invisible_partial size thr withOverflow ops
    ⟨fun k v _ hv _ hb => absurd hb (Nat.not_lt.2 (h k v hv)),
     fun k v hv hb => absurd hb (Nat.not_lt.2 (h k v hv))⟩

/-- A run that overwrites keys, and in which the cache clear is refused, then allowed. -/
example : (run (fun _ => 0) (open_ (freshSql String false 0))
    [.set "k" "v1", .commit, .set "k" "v2", .clear false, .get "k", .clear true, .get "k", .get "z"]).1
    = [.unit, .unit, .unit, .raised .valueError, .val "v2", .unit, .val "v1", .raised .keyError] := by
  decide

/-- The specification is not trivially satisfied: it forbids showing a value that was never written. -/
example (m : MapSpec Nat) : ¬ MapSpec.Run MapSpec.empty [.set "k" 1, .get "k"] [.unit, .val 2] m := by
  intro h
  cases h with
  | cons h1 h2 =>
    cases h1
    cases h2 with
    | cons h3 h4 =>
      cases h3 with
      | getSome h5 => simp [MapSpec.upd] at h5

/-- **C13 refuted in general.** A key first written with a small and then with a large value keeps
showing the small one after re-opening, so the run is not one of a dictionary. -/
theorem C13_overflow_refuted :
    ∃ (ops : List (CachedDict.Op Nat)),
      ¬ ∃ m', MapSpec.Run MapSpec.empty ops (run id (open_ (freshSql Nat true 10)) ops).1 m' := by
  refine ⟨[.set "k" 1, .commit, .set "k" 50, .commit, .reopen, .get "k"], ?_⟩
  rintro ⟨m', h⟩
  have hr : (run id (open_ (freshSql Nat true 10))
      [.set "k" 1, .commit, .set "k" 50, .commit, .reopen, .get "k"]).1
      = [.unit, .unit, .unit, .unit, .unit, .val 1] := by decide
  rw [hr] at h
  cases h with
  | cons h1 h =>
  cases h1
  cases h with
  | cons h1 h =>
  cases h1
  cases h with
  | cons h1 h =>
  cases h1
  cases h with
  | cons h1 h =>
  cases h1
  cases h with
  | cons h1 h =>
  cases h1
  cases h with
  | cons h1 h =>
  cases h1 with
  | getSome h5 => simp [MapSpec.upd] at h5

/-- A persistent storage in which rows and overflow files do not overlap: then the three ways of
reading everything agree with reading key by key. -/
def Disjoint (p : SqlDict V) : Prop :=
  ∀ j k, p.overflow = some j → k ∈ p.rows.keys → k ∉ Dict.keys j

/-- **C13, listing.** In a storage without shadowed files, `keys`, `exists` and `load_all` list
exactly the keys (and values) that `get` returns. -/
theorem C13_listing_agrees_partial (p : SqlDict V) (hd : Disjoint p)
    (hj : ∀ j, p.overflow = some j → (Dict.keys j).Nodup) (k : String) :
    (k ∈ p.keys ↔ p.exists_ k = true) ∧
    (p.exists_ k = true ↔ ∃ v, p.get k = .ok v) ∧
    (∀ v, p.loadAll.get? k = some v ↔ p.get k = .ok v) := by
  have key : ∀ v, p.get k = .ok v ↔ look p k = some v := by
    intro v
    constructor
    · intro h
      cases hl : look p k with
      | none => obtain ⟨e, he⟩ := get_of_look_none hl; rw [h] at he; cases he
      | some w => have := get_of_look hl; rw [h] at this; cases this; rfl
    · exact get_of_look
  refine ⟨?_, ?_, ?_⟩
  · rw [exists_look]
    unfold SqlDict.keys look
    cases ho : p.overflow with
    | none => simp [Option.isSome_iff_exists, Dict.mem_keys]
    | some j =>
      simp only [List.mem_append, Joblib.keys, Dict.mem_keys, Option.bind_some]
      cases p.rows.get? k <;> simp [Option.isSome_iff_exists]
  · rw [exists_look, Option.isSome_iff_exists]
    simp only [key]
  · intro v
    rw [key]
    unfold SqlDict.loadAll look
    cases ho : p.overflow with
    | none => simp
    | some j =>
      simp only [Option.bind_some]
      rw [Dict.get?_update _ _ (hj j ho)]
      cases h1 : p.rows.get? k with
      | none => simp
      | some w =>
        have : Dict.get? j k = none := Dict.get?_eq_none.2 (hd j k ho (Dict.mem_keys.2 ⟨w, h1⟩))
        simp [this]

/-- Such a storage, with both kinds of entries. -/
example : Disjoint (V := Nat) { rows := [("a", 1)], overflow := some [("b", 50)], threshold := 10 } := by
  intro j k h1 h2
  simp at h1; subst h1
  simp [Dict.keys] at h2 ⊢
  subst h2; decide

end Props
end Verif
