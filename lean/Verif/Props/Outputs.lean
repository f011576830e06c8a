import Verif.Proofs.Outputs
import Verif.Props.Memo
/-!
C26: outputs come back in order.
-/
namespace Verif.Props

open Verif

theorem returnsTuple_plain {nout : Nout} {ret : Val} {vs : List Val} (h : returnsTuple nout ret = .ok vs) :
    vs = plainResults ret := by
  unfold returnsTuple at h
  split at h
  · cases h; rfl
  · rename_i v hv
    cases h
    unfold plainResults
    split
    · exact absurd rfl (hv _)
    · rfl
  · cases h; rfl
  · cases h
  · split at h <;> cases h; rfl
  · cases h

theorem all2_get {α : Type} {d : Dict String α} : ∀ {ks : List String} {rs vs : List α},
    All2 (fun k r => Dict.get? d k = some r) ks rs → ks.length = vs.length →
    (∀ p ∈ ks.zip vs, Dict.get? d p.1 = some p.2) → rs = vs
  | [], _, vs, .nil, hl, _ => by cases vs with
    | nil => rfl
    | cons => simp at hl
  | k :: ks, _, [], .cons h1 h2, hl, _ => by simp at hl
  | k :: ks, _, v :: vs, .cons h1 h2, hl, hz => by
    have h3 := hz (k, v) (by simp)
    rw [h1] at h3
    cases h3
    rw [all2_get h2 (by simpa using hl) (fun p hp => hz p (by simp [hp]))]

/-- C26. Let the function return `ret` (one value or a tuple), let `outs` be the outputs as named for the storage, and
`f` whatever becomes of a single value (wrapping, saving, loading). However the outputs are permuted in between, `op` hands back the
images of exactly the values the function returned, in the order of the function's return value.
Hypothesis: output names, if given, are distinct and as many as there are values; without it the claim is false
(`C26_refuted`). -/
theorem C26_outputs_in_order_partial {α : Type} (nout : Nout) (names : Option (List String)) (ann : RetAnn) (ret : Val)
    (outs : List (String × Val × Ty)) (h : parseReturns nout names ann ret = .ok outs)
    (hn : NamesOK names (plainResults ret).length) (f : Val → α) (d : Dict String α)
    (hp : List.Perm d (outs.map fun p => (p.1, f p.2.1))) :
    orderedOutputs names d = .ok ((plainResults ret).map f) := by
  obtain ⟨vs, h1, h2⟩ := parseReturns_shape h
  have hvs := returnsTuple_plain h1
  subst hvs
  have h3 := h2 hn
  have heq : (outs.map fun p => (p.1, f p.2.1)) = (outNamesOf names (plainResults ret).length).zip ((plainResults ret).map f) := by
    have : (outs.map fun p => (p.1, f p.2.1)) = (outs.map fun p => (p.1, p.2.1)).map fun q => (q.1, f q.2) := by
      rw [List.map_map]; rfl
    rw [this, h3, List.zip_map_right]
    rfl
  have hlen : (outNamesOf names (plainResults ret).length).length = ((plainResults ret).map f).length := by
    rw [outNamesOf_length, List.length_map]
  rw [heq] at hp
  have hkeys : List.Perm (Dict.keys d) (outNamesOf names (plainResults ret).length) := by
    have := hp.map Prod.fst
    rwa [List.map_fst_zip (by omega)] at this
  have hnd : (Dict.keys d).Nodup := hkeys.nodup_iff.2 (outNamesOf_nodup hn)
  obtain ⟨rs, h4, h5⟩ := orderedOutputs_spec hn hnd (fun k => hkeys.mem_iff)
  rw [h4, all2_get h5 hlen (fun p hpz => (Dict.get?_eq_some_iff hnd).2 (hp.mem_iff.2 hpz))]

/-- two named outputs, permuted in between -/
example : orderedOutputs (some ["down", "up"]) [("up", Val.int 6), ("down", Val.int 4)] = .ok [.int 4, .int 6] :=
  C26_outputs_in_order_partial (.exactly 2) (some ["down", "up"]) .none (.tuple [.int 4, .int 6])
    [("down", .int 4, .atom), ("up", .int 6, .atom)] rfl ⟨by decide, rfl⟩ id _ (.swap _ _ _)

/-- eleven unnamed outputs: `output_10` is not sorted before `output_2` -/
example (outs : List (String × Val × Ty))
    (h : parseReturns .auto none .none (.tuple ((List.range 11).map fun (i : Nat) => .int i)) = .ok outs) :
    orderedOutputs none ((outs.map fun p => (p.1, p.2.1)).reverse) = .ok ((List.range 11).map fun (i : Nat) => .int i) := by
  have := C26_outputs_in_order_partial .auto none .none _ _ h trivial id _ (List.reverse_perm _)
  simpa [plainResults] using this

/-- `@op(output_names=["lo"]) def f(x): return x - 1, x + 1` -/
def fewNames : OpDef := { Ex.both with nout := .auto, outNames := some ["lo"] }

/-- C26 is false if fewer output names than outputs are given: the second output is dropped. -/
theorem C26_refuted : (runProg Ex.W.cfg [] (.fresh none 100) [.call fewNames (Ex.arg1 (.raw (.int 4)))]).1 = [.returned 1] ∧
    ((Cmd.call fewNames (Ex.arg1 (.raw (.int 4)))).plain []).1 = .returned 2 := by decide +kernel

end Verif.Props
