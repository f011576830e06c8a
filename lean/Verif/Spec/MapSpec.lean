import Verif.Model.DictStorage
/-!
Specification of a key/value store: one dictionary in memory (`cur`), the last saved dictionary
(`saved`), and the set of keys written since they were last saved (`pending`). No cache, no files, no
threshold.
-/
namespace Verif

/-- Abstract state of a key/value store. -/
structure MapSpec (V : Type) where
  cur : String → Option V
  saved : String → Option V
  pending : String → Prop

namespace MapSpec

variable {V : Type}

/-- Function update. -/
def upd (m : String → Option V) (k : String) (o : Option V) : String → Option V :=
  fun k' => if k' = k then o else m k'

/-- Specified effect of an operation on the abstract state. -/
inductive Step : MapSpec V → CachedDict.Op V → CachedDict.Out V → MapSpec V → Prop
  | getSome {m k v} : m.cur k = some v → Step m (.get k) (.val v) m
  | getNone {m k e} : m.cur k = none → Step m (.get k) (.raised e) m
  | set {m k v} : Step m (.set k v) .unit
      { m with cur := upd m.cur k (some v), pending := fun k' => k' = k ∨ m.pending k' }
  | exists_ {m k} : Step m (.exists_ k) (.bool (m.cur k).isSome) m
  | drop {m k} : Step m (.drop k) .unit
      { cur := upd m.cur k none, saved := upd m.saved k none,
        pending := fun k' => k' ≠ k ∧ m.pending k' }
  | commit {m} : Step m .commit .unit { m with saved := m.cur, pending := fun _ => False }
  | clearOk {m} {a : Bool} : (a = true ∨ ∀ k, ¬ m.pending k) → Step m (.clear a) .unit
      { m with cur := m.saved, pending := fun _ => False }
  | clearRefused {m k} : m.pending k → Step m (.clear false) (.raised .valueError) m
  | reopen {m} : Step m .reopen .unit { m with cur := m.saved, pending := fun _ => False }

/-- Specified behaviour of a sequence of operations. -/
inductive Run : MapSpec V → List (CachedDict.Op V) → List (CachedDict.Out V) → MapSpec V → Prop
  | nil {m} : Run m [] [] m
  | cons {m o r m' os rs m''} : Step m o r m' → Run m' os rs m'' → Run m (o :: os) (r :: rs) m''

/-- The empty store. -/
def empty : MapSpec V := { cur := fun _ => none, saved := fun _ => none, pending := fun _ => False }

end MapSpec
end Verif
