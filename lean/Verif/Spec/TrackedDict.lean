import Verif.Model.TrackedDict
/-!
What python code does without any tracing, and what a change of the program leaves as it was.
-/
namespace Verif.Props

open Verif Track

/-- Run code of module `m`: what is returned or raised, and the names of the modules afterwards. `none` if this takes too long. -/
def plainRun (o : Objects) (p : Prog) : Nat → String → Code → Env → Option (Except Nat Obj × Env)
  | 0, _, _, _ => none
  | _ + 1, _, .ret v, g => some (.ok v, g)
  | _ + 1, _, .exc e, g => some (.error e, g)
  | n + 1, m, .load x next, g => plainRun o p n m (next (g m x)) g
  | n + 1, m, .attr m' x next, g => plainRun o p n m (next (g m' x)) g
  | n + 1, m, .store x v next, g => plainRun o p n m next fun m' x' => if m' = m ∧ x' = x then some v else g m' x'
  | n + 1, m, .call f arg next, g =>
    match o.kind f with
    | .function fo =>
      match plainRun o p n fo.modul (p.body f arg) g with
      | none => none
      | some (r, g') => plainRun o p n m (next r) g'
    | _ => none

/-- The variable `k` has this value now, as far as the hash tells. -/
def Current (o : Objects) (g : Env) (k : DKey) (h : String) : Prop :=
  ∃ a, g k.1 k.2 = some a ∧ o.kind a = .value ∧ (o.hash a).getD "UNKNOWN_GLOBAL_VAR" = h

/-- What the tracer has not seen is the same. -/
def SameUnseen (p p' : Prog) (g g' : Env) : Unseen → Prop
  | .binding m x | .unhashable m x | .foreign m x | .untracked m x | .attr m x | .off m x => g' m x = g m x
  | .call f => p'.body f = p.body f
  | .lost _ _ | .stored _ _ => False

/-- The functions with this key have not changed. -/
def SameFunction (o : Objects) (p p' : Prog) (k : DKey) : Prop := ∀ a fo, o.kind a = .function fo → (fo.modul, fo.qualname) = k → p'.body a = p.body a

/-- Nothing is there that the tracer objects to: functions of the traced modules are tracked, classes are of other modules, values can be hashed
(or need not), and if the storage is strict no tracked function has closure variables. -/
structure Trackable (o : Objects) (cfg : Cfg) : Prop where
  functions : ∀ a f, o.kind a = .function f → o.owned f.modul = true → f.registered = true
  classes : ∀ a m r, o.kind a = .cls m r → o.owned m = false
  values : cfg.skipUnhashable = true ∨ ∀ a, o.kind a = .value → ∃ h, o.hash a = some h
  closures : ∀ a f, o.kind a = .function f → f.wrapper = true → cfg.strict = true → f.closure = false

/-- No tracked function writes names of its module. -/
def Calm (l : List Unseen) : Prop := ∀ m x, Unseen.lost m x ∉ l

/-- The hash tells values apart. -/
def Hashed (o : Objects) : Prop := ∀ a b h, o.kind a = .value → o.kind b = .value → o.hash a = some h → (o.hash b).getD "UNKNOWN_GLOBAL_VAR" = h → a = b

end Verif.Props
