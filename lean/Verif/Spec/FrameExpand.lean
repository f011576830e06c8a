import Verif.Spec.FrameReach
import Verif.Proofs.CFrameBuild
/-!
What it means that a frame is another one with some recorded calls added; names that keep functions and variables apart.
-/
namespace Verif.CFrame

/-- `g` has all of `f`; the calls it has in addition are among `S`, the values it has in addition are inputs or outputs of those,
in a variable that is joined with the function of the call accordingly. -/
structure Grows (S : FCall → Prop) (f g : CFrame) : Prop where
  var : ∀ v, f.IsVar v → g.IsVar v
  func : ∀ n, f.IsFunc n → g.IsFunc n
  edge : ∀ s d l, f.HasEdge s d l → g.HasEdge s d l
  ref : ∀ v h, f.HasRef v h → g.HasRef v h
  call : ∀ n h, f.HasCall n h → g.HasCall n h
  newRef : ∀ v h, g.HasRef v h → f.HasRef v h ∨ ∃ n c, S c ∧ g.HasCall n c.hid ∧
    ((∃ p ∈ c.inputs, g.HasEdge v n (nameProj c.op p.1) ∧ p.2.hid = h) ∨ ∃ p ∈ c.outputs, g.HasEdge n v (nameProj c.op p.1) ∧ p.2.hid = h)
  newCall : ∀ n h, g.HasCall n h → f.HasCall n h ∨ ∃ c, S c ∧ c.hid = h
  object : ∀ h c, g.calls.get? h = some c → f.calls.get? h = some c ∨ (S c ∧ c.hid = h)

/-- The call `c` is in the function `n`, the value `x` is an output of it (back) or an input (forward), and the frame has the edge
that says so between `n` and the variable `v`. -/
def Attached (f : CFrame) (dir : Side) (v x n : String) (c : FCall) : Prop :=
  f.HasCall n c.hid ∧ f.calls.get? c.hid = some c ∧ ∃ p ∈ ioRefs dir c, p.2.hid = x ∧ Joined f dir v n (nameProj c.op p.1)

/-- The value `x` is in the variable `v`, but no call of the frame is known there to have created it (back) or to use it
(forward). -/
def Unattached (f : CFrame) (dir : Side) (v x : String) : Prop := f.HasRef v x ∧ ∀ n c, ¬ Attached f dir v x n c

/-- The call has created the value (back), it uses the value (forward). -/
def Touches (dir : Side) (c : FCall) (x : String) : Prop := ∃ p ∈ ioRefs dir c, p.2.hid = x

/-- Names of functions and names of variables are kept apart: the names that the ops and their arguments give rise to, and those
that the frame has, are function names (`F`) or variable names (`V`). -/
structure NamesApart (R : FCall → Prop) (F V : String → Prop) (f : CFrame) : Prop where
  apart : ∀ n, F n → ¬ V n
  op : ∀ c, R c → F c.op ∧ ∀ i, F (idxName c.op i)
  arg : ∀ c p, R c → (p ∈ c.inputs ∨ p ∈ c.outputs) → (numbered (nameProj c.op p.1) = none → V (nameProj c.op p.1)) ∧
    ∀ i, V (idxName (stem (nameProj c.op p.1)) i)
  func : ∀ n, f.IsFunc n → F n
  var : ∀ v, f.IsVar v → V v

/-- Every function has a call, and all its calls are calls of the same op. -/
structure Full (f : CFrame) : Prop where
  keys : f.fs.keys.Nodup
  call : ∀ n, f.IsFunc n → ∃ h, f.HasCall n h
  same : ∀ n c c', f.HasCall n c.hid → f.calls.get? c.hid = some c → f.HasCall n c'.hid → f.calls.get? c'.hid = some c' → c.op = c'.op

end Verif.CFrame
