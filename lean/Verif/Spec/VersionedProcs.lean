import Verif.Model.VersionedProcs
import Verif.Spec.Versioned
/-!
How processes are expected to use a versioned database.
-/
namespace Verif.Props

open Verif Tracer

variable {V M : Type} (H : Val → String) (enc : DKey → DepKey) (ops : Ops V)

/-- Each process uses its storage properly (see `Proper`). -/
def WProper (sem : DepKey → String → M) (w : VWorld V) : VWorld.Cmd → Prop
  | .opens _ _ _ => True
  | .ends _ => True
  | .change pid _ => ∀ p, w.procs pid = some p → p.run.depth = 0
  | .enter pid cs answer => ∀ p, w.procs pid = some p → Proper H enc ops sem p.run (.enter cs answer)
  | .exit pid => ∀ p, w.procs pid = some p → 0 < p.run.depth
  | .call pid uid => ∀ p, w.procs pid = some p → Visible enc ops p.run.src uid
  | .dropVersion _ _ _ => True

def WProperAll (sem : DepKey → String → M) : VWorld V → List VWorld.Cmd → Prop
  | _, [] => True
  | w, c :: cs => WProper H enc ops sem w c ∧ WProperAll sem (VWorld.step H enc ops w c) cs

/-- A version is dropped only by a process that is alone and has nothing left to write, and nothing depends on it. -/
def Careful (w : VWorld V) : VWorld.Cmd → Prop
  | .dropVersion pid _ dependents => dependents = [] ∧ (∀ q, q ≠ pid → w.procs q = none) ∧ ∀ p, w.procs pid = some p → p.dirty = []
  | _ => True

def CarefulAll : VWorld V → List VWorld.Cmd → Prop
  | _, [] => True
  | w, c :: cs => Careful w c ∧ CarefulAll (VWorld.step H enc ops w c) cs

/-- One process at a time, and nothing is dropped. -/
def Solo (w : VWorld V) : VWorld.Cmd → Prop
  | .opens _ _ _ => ∀ q, w.procs q = none
  | .dropVersion _ _ _ => False
  | _ => True

def SoloAll : VWorld V → List VWorld.Cmd → Prop
  | _, [] => True
  | w, c :: cs => Solo w c ∧ SoloAll (VWorld.step H enc ops w c) cs

/-- The process goes on, and nothing is dropped. -/
def GoesOn (pid : Nat) : VWorld.Cmd → Prop
  | .opens q _ _ => q ≠ pid
  | .ends q => q ≠ pid
  | .dropVersion _ _ _ => False
  | _ => True

end Verif.Props
