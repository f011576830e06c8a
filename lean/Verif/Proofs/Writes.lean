import Verif.Proofs.Recorded
/-!
Relations between storages that hold across every read and write of the tables.
-/
namespace Verif

/-- `R` is a preorder that holds between the storages before and after a read, caching a value, and running a body. -/
structure Unwraps (R : St → St → Prop) : Prop extends Reads R where
  atomsSet : ∀ c v, Pres R (atomsSet c v)
  log : ∀ op args, Pres R (logExec op args)

/-- `R` is a preorder that holds between the storages before and after a read or a write. -/
structure Writes (R : St → St → Prop) : Prop extends Unwraps R where
  shapesSet : ∀ h r, Pres R (shapesSet h r)
  opsSet : ∀ n, Pres R (opsSet n)

section
variable {R : St → St → Prop} (hR : Unwraps R) (cfg : Cfg)
include hR

mutual
theorem pres_unwrapRef : ∀ (r : Ref), Pres R (unwrapRef cfg r)
  | .atom _ _ (some v) => by rw [unwrapRef]; exact Pres.pure hR.ord _
  | .atom c h none => by
    rw [unwrapRef]
    refine Pres.bind hR.ord (pres_loadRef hR.toReads _ _ _) (fun r => ?_)
    match r with
    | .atom _ _ (some v) => exact Pres.bind hR.ord (hR.atomsSet _ _) (fun _ => Pres.pure hR.ord _)
    | .atom _ _ none => exact Pres.raise hR.ord _
    | .coll .. => exact Pres.raise hR.ord _
  | .coll k c h m keys elts => by
    rw [unwrapRef]
    refine Pres.ite (fun _ => ?_) (fun _ => Pres.raise hR.ord _)
    refine Pres.bind hR.ord (pres_unwrapRefs elts) (fun es => ?_)
    cases k <;> exact Pres.pure hR.ord _
theorem pres_unwrapRefs : ∀ (rs : List Ref), Pres R (unwrapRefs cfg rs)
  | [] => by rw [unwrapRefs]; exact Pres.pure hR.ord _
  | r :: rs => by
    rw [unwrapRefs]
    exact Pres.bind hR.ord (pres_unwrapRef r) (fun _ => Pres.bind hR.ord (pres_unwrapRefs rs) (fun _ => Pres.pure hR.ord _))
end

mutual
theorem pres_unwrapArg : ∀ (a : Arg), Pres R (unwrapArg cfg a)
  | .ref r => by rw [unwrapArg]; exact pres_unwrapRef hR cfg r
  | .val v => by rw [unwrapArg]; exact Pres.pure hR.ord _
  | .ptr _ _ => by rw [unwrapArg]; exact Pres.pure hR.ord _
  | .list xs => by rw [unwrapArg]; exact Pres.bind hR.ord (pres_unwrapArgs xs) (fun _ => Pres.pure hR.ord _)
  | .dict ks xs => by rw [unwrapArg]; exact Pres.bind hR.ord (pres_unwrapArgs xs) (fun _ => Pres.pure hR.ord _)
theorem pres_unwrapArgs : ∀ (as : List Arg), Pres R (unwrapArgs cfg as)
  | [] => by rw [unwrapArgs]; exact Pres.pure hR.ord _
  | r :: rs => by
    rw [unwrapArgs]
    exact Pres.bind hR.ord (pres_unwrapArg r) (fun _ => Pres.bind hR.ord (pres_unwrapArgs rs) (fun _ => Pres.pure hR.ord _))
end

theorem pres_bodyArg (a : Arg) : Pres R (bodyArg cfg a) := by
  cases a with
  | ptr _ _ => exact Pres.pure hR.ord _
  | _ => exact pres_unwrapArg hR cfg _

theorem pres_callInternal (d : OpDef) (args : List BArg) : Pres R (callInternal cfg d args) := by
  unfold callInternal
  refine Pres.bind hR.ord (pres_wrapInputs hR.toReads cfg _) (fun p => ?_)
  refine Pres.bind hR.ord (pres_lookupCall hR.toReads cfg _ _ _ _) (fun o => ?_)
  cases o with
  | some c => exact Pres.pure hR.ord _
  | none =>
    refine Pres.bind hR.ord (Pres.read hR.ord _) (fun _ => Pres.ite (fun _ => ?_) (fun _ => Pres.raise hR.ord _))
    refine Pres.bind hR.ord (Pres.mapM' hR.ord _ (fun a _ => Pres.bind hR.ord (pres_bodyArg hR cfg _) (fun _ => Pres.pure hR.ord _))) (fun _ => ?_)
    refine Pres.bind hR.ord (hR.log _ _) (fun _ => ?_)
    refine Pres.bind hR.ord (Pres.lift hR.ord _) (fun _ => Pres.bind hR.ord (Pres.lift hR.ord _) (fun _ => ?_))
    refine Pres.bind hR.ord (Pres.mapM' hR.ord _ (fun a _ => Pres.bind hR.ord (pres_wrapOutput hR.toReads cfg _ _ _) (fun _ => Pres.pure hR.ord _))) (fun _ => ?_)
    exact Pres.pure hR.ord _

theorem pres_call (hsave : ∀ c, Pres R (saveCall c)) (d : OpDef) (args : List BArg) : Pres R (call cfg d args) := by
  unfold call
  refine Pres.bind hR.ord (pres_callInternal hR cfg d args) (fun p => ?_)
  refine Pres.bind hR.ord (hsave _) (fun _ => ?_)
  refine Pres.bind hR.ord (Pres.forM' hR.ord _ (fun c _ => hsave c)) (fun _ => ?_)
  exact Pres.lift hR.ord _
end

mutual
theorem pres_saveRef {R : St → St → Prop} (hR : Writes R) : ∀ (r : Ref), Pres R (saveRef r)
  | .atom c h o => by
    unfold saveRef
    refine Pres.bind hR.ord (Pres.read hR.ord _) (fun _ => Pres.ite (fun _ => Pres.pure hR.ord _) (fun _ => ?_))
    refine Pres.bind hR.ord ?_ (fun _ => hR.shapesSet _ _)
    cases o with
    | none => exact Pres.pure hR.ord _
    | some v => exact hR.atomsSet _ _
  | .coll k c h m keys elts => by
    unfold saveRef
    refine Pres.bind hR.ord (Pres.read hR.ord _) (fun _ => Pres.ite (fun _ => Pres.pure hR.ord _) (fun _ => ?_))
    refine Pres.ite (fun _ => ?_) (fun _ => Pres.raise hR.ord _)
    exact Pres.bind hR.ord (hR.shapesSet _ _) (fun _ => pres_saveRefs hR elts)
theorem pres_saveRefs {R : St → St → Prop} (hR : Writes R) : ∀ (rs : List Ref), Pres R (saveRefs rs)
  | [] => by unfold saveRefs; exact Pres.pure hR.ord _
  | r :: rs => by unfold saveRefs; exact Pres.bind hR.ord (pres_saveRef hR r) (fun _ => pres_saveRefs hR rs)
end

/-- Saving a call: nothing happens if it is recorded; otherwise its op and refs are written and then the call. -/
theorem pres_saveCall {R : St → St → Prop} (hR : Writes R) (c : CallObj)
    (hsave : ∀ s, s.calls.exists_ c.hid = false → R s { s with calls := s.calls.save c.toRec }) : Pres R (saveCall c) := by
  intro s
  have hsave' : ∀ s', s'.calls = s.calls → s.calls.exists_ c.hid = false → R s' { s' with calls := s'.calls.save c.toRec } :=
    fun s' h h' => hsave s' (by rw [h]; exact h')
  have heq : saveCall c s = if s.calls.exists_ c.hid then (.ok (), s) else
      M.bind (do if ← M.read (fun s => s.ops.exists_ c.op) then M.pure () else opsSet c.op)
        (fun _ => M.bind (saveRefs (c.inputs.map (·.2) ++ c.outputs.map (·.2)))
          (fun _ s => (.ok (), { s with calls := s.calls.save c.toRec }))) s := by
    unfold saveCall
    show M.bind _ _ s = _
    unfold M.bind
    simp only [M.read]
    split <;> rfl
  rw [heq]
  cases hex : s.calls.exists_ c.hid with
  | true => exact hR.ord.refl s
  | false =>
    simp only [Bool.false_eq_true, if_false]
    have hops : Pres R (do if ← M.read (fun s => s.ops.exists_ c.op) then M.pure () else opsSet c.op) :=
      Pres.bind hR.ord (Pres.read hR.ord _) (fun _ => Pres.ite (fun _ => Pres.pure hR.ord _) (fun _ => hR.opsSet _))
    have qops : Pres Quiet (do if ← M.read (fun s => s.ops.exists_ c.op) then M.pure () else opsSet c.op) :=
      Pres.bind Quiet.ord (Pres.read Quiet.ord _) (fun _ => Pres.ite (fun _ => Pres.pure Quiet.ord _) (fun _ => quiet_opsSet _))
    have h1 := hops s
    have q1 := qops s
    unfold M.bind
    cases hm : (do if ← M.read (fun s => s.ops.exists_ c.op) then M.pure () else opsSet c.op : M Unit) s with
    | mk x s1 =>
      rw [hm] at h1 q1
      cases x with
      | error e => exact h1
      | ok _ =>
        dsimp only
        have h2 := pres_saveRefs hR (c.inputs.map (·.2) ++ c.outputs.map (·.2)) s1
        have q2 := quiet_saveRefs (c.inputs.map (·.2) ++ c.outputs.map (·.2)) s1
        cases hm2 : saveRefs (c.inputs.map (·.2) ++ c.outputs.map (·.2)) s1 with
        | mk y s2 =>
          rw [hm2] at h2 q2
          cases y with
          | error e => exact hR.ord.trans h1 h2
          | ok _ => exact hR.ord.trans (hR.ord.trans h1 h2) (hsave' s2 (q2.calls.trans q1.calls) hex)

end Verif
