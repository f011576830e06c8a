import Verif.Proofs.CFrameExpandReuse
import Verif.Props.FrameExpand
/-!
C48: expanding a frame with nodes being reused (`reuse_existing=True`, the default).
-/
namespace Verif.Props

open Verif CFrame Ex

/-- C48: `expand_back()`, `expand_forward()` (recursive or not) and `expand_all()` with `reuse_existing=True` neither fail nor run
for ever, on any frame with variables whose functions have calls, each of one op only; what is added are recorded calls. Nothing is said
about all of them being found, see `C48_refuted_reuse_stops`. -/
theorem C48_reuse_terminates {R : FCall → Prop} (hR : RecOk R) {F V : String → Prop} {f : CFrame} (H : Base R f) (N : NamesApart R F V f) (U : Full f)
    (hne : f.vs.keys ≠ []) {rec : List FCall} (hrec : ∀ c ∈ rec, R c) (skip : Bool) :
    (∀ dir recursive, ∃ g K, (∀ k, K ≤ k → f.expandAllVars rec dir true skip recursive k = .ok g) ∧ Base R g ∧ Full g ∧ Grows (· ∈ rec) f g) ∧
    (∃ g K, (∀ rounds k, K ≤ rounds → K ≤ k → f.expandAll rec true skip rounds k (setLen f.refs.keys + setLen f.calls.keys) = .ok g) ∧ Base R g ∧ Full g ∧ Grows (· ∈ rec) f g) := by
  have E : Steady R F V f := ⟨⟨H, N⟩, U, hne⟩
  refine ⟨fun dir recursive => ?_, ?_⟩
  · obtain ⟨g, h1, h2, h3, _⟩ := expandAllVars_total hR hrec (dir := dir) (skip := skip) (recursive := recursive) _ f E (Nat.le_refl _)
    exact ⟨g, _, h1, h2.ready.base, h2.full, h3⟩
  · obtain ⟨g, h1, h2, h3⟩ := expandAll_total hR hrec (skip := skip) H
      (K := room rec f * ((allLabels rec .back).card + 1) + room rec f * ((allLabels rec .forward).card + 1))
      (fun dir => by cases dir <;> simp only [Side.flip] <;> omega) (eltBound rec f) f E .refl (Nat.le_refl _) (by omega)
    exact ⟨g, max (room rec f * ((allLabels rec .back).card + 1) + room rec f * ((allLabels rec .forward).card + 1) + 1) (eltBound rec f + 1),
      fun rounds k a b => h1 rounds k (by omega) (by omega), h2.ready.base, h2.full, h3⟩

/-! ### cases -/

/-- A check of `Full`. -/
def fullB (f : CFrame) : Bool :=
  decide f.fs.keys.Nodup && f.fs.keys.all (fun n => !(getOr f.fs n).isEmpty) &&
  f.fs.keys.all fun n => (getOr f.fs n).all fun h => (getOr f.fs n).all fun h' => (f.calls.get? h).all fun c => (f.calls.get? h').all fun c' => decide (c.op = c'.op)

theorem full_of {f : CFrame} (h : fullB f = true) : Full f := by
  simp only [fullB, Bool.and_eq_true, decide_eq_true_eq, List.all_eq_true, Bool.not_eq_true', List.isEmpty_eq_false_iff] at h
  obtain ⟨⟨h1, h2⟩, h3⟩ := h
  refine ⟨h1, fun n hn => ?_, fun n c c' a1 a2 a3 a4 => ?_⟩
  · obtain ⟨x, hx⟩ := List.exists_mem_of_ne_nil _ (h2 n hn)
    exact ⟨x, mem_getOr.1 hx⟩
  · have := h3 n a1.key c.hid (mem_getOr.2 a1) c'.hid (mem_getOr.2 a3)
    rw [a2, a4] at this
    simpa using this

namespace Ex
/-- the frame of the value `s2` with the call that made it -/
def frameK1 : CFrame := (((frameOf s2).expandOnce ks .back true false ["v"]).toOption).getD {}
theorem base_K1 : Base (· ∈ ks) frameK1 :=
  ((C48_only_adds_partial wf_s2.base (namesApart_of (cs := ['f']) (by decide +kernel)) (rec := ks) fun _ h => h).1 .back true false ["v"] frameK1
    (by decide +kernel) (by decide +kernel)).1
end Ex

example : RecOk (· ∈ ks) ∧ Base (· ∈ ks) frameK1 ∧ NamesApart (· ∈ ks) (Begins ['f']) (fun v => ¬ Begins ['f'] v) frameK1 ∧ Full frameK1 ∧ frameK1.vs.keys ≠ [] ∧
    frameK1.fs = [("f", ["k1"])] := ⟨recOkS, base_K1, namesApart_of (by decide +kernel), full_of (by decide +kernel), by decide +kernel, by decide +kernel⟩
example : (frameK1.expandAll ks true false 10 10 3).toOption.map (fun g => (g.vs, g.fs)) =
    some ([("v", ["s2", "s1", "s3", "s4"]), ("a", ["s1", "s0", "s2", "s3", "s4"])], [("f", ["k1", "k0", "k2", "k3"])]) := by
  set_option maxRecDepth 20000 in decide +kernel

namespace Ex
/-- the same value, and a function without calls -/
def frameHollow : CFrame := (frameOf s2).addFunc "f_0"
theorem wf_hollow : Wf (· ∈ ks) frameHollow := wf_addFunc wf_s2 (by decide +kernel)
end Ex

/-- Refutation: with a function without calls, as remains when its calls are dropped, expanding raises `NotImplementedError`; it does
not without reuse. -/
theorem C48_refuted_hollow : Wf (· ∈ ks) frameHollow ∧ frameHollow.expandAllVars ks .back true false true 10 = .error .notImplemented ∧
    (frameHollow.expandAllVars ks .back false false true 10).toOption.isSome = true := by
  refine ⟨wf_hollow, ?_, ?_⟩ <;> (set_option maxRecDepth 20000 in decide +kernel)

end Verif.Props
