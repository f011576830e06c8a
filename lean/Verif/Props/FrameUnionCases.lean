import Verif.Props.Frame
import Verif.Props.FrameUnion
/-!
C42, concrete cases: the hypotheses are met, and where the full statement fails.
-/
namespace Verif.Props

open Verif CFrame Ex

namespace Ex

/-- `cf(g)` after `z = g(x, x)` -/
def buildOnlyG : List FOp := .addVar "a" :: buildG

def frameG : CFrame := ((runOps {} buildOnlyG).toOption).getD {}

theorem wf_frameG : Wf (· ∈ recd) frameG := wf_builds recOk wf_empty (builds_of (by decide +kernel : buildB recd {} buildOnlyG = some frameG))

theorem compat_of {V : Type} [DecidableEq V] {a b : Dict String V} (h : (a.keys.all fun k => decide (b.get? k = none ∨ b.get? k = a.get? k)) = true) :
    Compat a b := by
  intro k v w h1 h2
  have := of_decide_eq_true (List.all_eq_true.1 h k (Dict.mem_keys.2 ⟨v, h1⟩))
  rw [h1, h2] at this
  rcases this with h | h
  · cases h
  · cases h; rfl

theorem sameStore_FG : SameStore frameF frameG := sameStore_of_wf recOk wf_frameF wf_frameG (compat_of (by decide +kernel))

end Ex

/-- The union of the frames of `f` and `g` (which share the variable `a`) exists in both orders, and is the frame of both. -/
example : (frameF.union frameG).toOption.map (fun g => (g.vs, g.fs)) =
    some ([("a", ["x"]), ("var_0", ["y"]), ("o", ["z"])], [("f", ["c1"]), ("g", ["c3"])]) := by decide +kernel

example : ∃ g, frameG.union frameF = .ok g := by
  refine ⟨unionRaw frameG frameF, union_ok.2 ⟨rfl, check_iff.1 (by decide +kernel)⟩⟩

/-- The intersection has the variable `a` only. -/
example : (frameF.inter frameG).vs = [("a", ["x"])] ∧ (frameF.inter frameG).fs = [] ∧ (frameF.inter frameG).check = true := by decide +kernel

/-- Refutation: the union of two consistent frames over the same storage can fail: the one has a call that the other's edge
requires to have its input in `a`. -/
theorem C42_refuted_union_total :
    let a := ((runOps {} [.addFunc "f", .addVar "a", .addEdge "a" "f" "a"]).toOption).getD {}
    let b := ((runOps {} [.addFunc "f", .addCall "f" c1]).toOption).getD {}
    a.check = true ∧ b.check = true ∧ a.union b = .error .assertionError := by decide +kernel

/-- Refutation: the union is not associative: the first two have no union, but the first has one with the union of the other two. -/
theorem C42_refuted_union_assoc :
    let a := ((runOps {} [.addFunc "f", .addVar "a", .addEdge "a" "f" "a"]).toOption).getD {}
    let b := ((runOps {} [.addFunc "f", .addCall "f" c1]).toOption).getD {}
    let c := ((runOps {} [.addVar "a", .addRef "a" x]).toOption).getD {}
    (a.union b >>= fun ab => ab.union c) = .error .assertionError ∧ ((b.union c >>= fun bc => a.union bc).toOption.map check) = some true := by
  decide +kernel

/-- Refutation: the intersection of two consistent frames that have the same value in differently named variables. -/
theorem C42_refuted_intersection_consistent :
    let a := ((runOps {} [.addVar "v", .addRef "v" x]).toOption).getD {}
    let b := ((runOps {} [.addVar "w", .addRef "w" x]).toOption).getD {}
    a.check = true ∧ b.check = true ∧ (a.inter b).check = false := by decide +kernel

end Verif.Props
