import Verif.Model.Storage
/-!
The storage does not depend on the log of executed bodies.
-/
namespace Verif

/-- replace the log -/
def St.withLog (s : St) (l : List (String × List (String × Val))) : St := { s with log := l }

/-- `m` neither reads nor writes the log. -/
def LogFree {α : Type} (m : M α) : Prop := ∀ s l, m (s.withLog l) = ((m s).1, (m s).2.withLog l)

theorem LogFree.log {α : Type} {m : M α} (h : LogFree m) (s : St) : (m s).2.log = s.log := by
  have := h s s.log
  have e : s.withLog s.log = s := rfl
  rw [e] at this
  have h2 := congrArg (fun x => x.2.log) this
  exact h2

namespace LogFree
variable {α β : Type}

theorem pure (a : α) : LogFree (M.pure a) := fun _ _ => rfl
theorem raise (e : Err) : LogFree (M.raise e : M α) := fun _ _ => rfl
theorem lift (x : Except Err α) : LogFree (M.lift x) := fun _ _ => rfl
theorem read {f : St → α} (hf : ∀ s l, f (s.withLog l) = f s) : LogFree (M.read f) := fun s l => by
  show (Except.ok (f (s.withLog l)), s.withLog l) = (Except.ok (f s), s.withLog l)
  rw [hf]

theorem bind {m : M α} {f : α → M β} (hm : LogFree m) (hf : ∀ a, LogFree (f a)) : LogFree (m >>= f) := by
  intro s l
  show M.bind m f (s.withLog l) = ((M.bind m f s).1, (M.bind m f s).2.withLog l)
  unfold M.bind
  rw [hm s l]
  cases hms : m s with
  | mk x s' =>
    cases x with
    | ok a => exact hf a s' l
    | error e => rfl

theorem ite {c : Prop} [Decidable c] {m m' : M α} (h : LogFree m) (h' : LogFree m') : LogFree (if c then m else m') := by
  split
  · exact h
  · exact h'

theorem mapM' {f : β → M α} (l : List β) (h : ∀ b, LogFree (f b)) : LogFree (M.mapM' f l) := by
  induction l with
  | nil => exact pure _
  | cons b l ih => exact bind (h b) (fun _ => bind ih (fun _ => pure _))

theorem forM' {f : β → M Unit} (l : List β) (h : ∀ b, LogFree (f b)) : LogFree (M.forM' f l) := by
  induction l with
  | nil => exact pure _
  | cons b l ih => exact bind (h b) (fun _ => ih)

end LogFree

theorem logFree_shapesGet (h : String) : LogFree (shapesGet h) := fun _ _ => rfl
theorem logFree_shapesSet (h : String) (r : Ref) : LogFree (shapesSet h r) := fun _ _ => rfl
theorem logFree_atomsGet (h : String) : LogFree (atomsGet h) := fun _ _ => rfl
theorem logFree_atomsSet (h : String) (r : Val) : LogFree (atomsSet h r) := fun _ _ => rfl
theorem logFree_opsGet (h : String) : LogFree (opsGet h) := fun _ _ => rfl
theorem logFree_opsSet (h : String) : LogFree (opsSet h) := fun _ _ => rfl

mutual
theorem logFree_saveRef : ∀ r : Ref, LogFree (saveRef r)
  | .atom c h o => by
    unfold saveRef
    refine .bind (.read fun _ _ => rfl) (fun b => .ite (.pure _) ?_)
    cases o with
    | none => exact .bind (.pure _) (fun _ => logFree_shapesSet _ _)
    | some v => exact .bind (logFree_atomsSet _ _) (fun _ => logFree_shapesSet _ _)
  | .coll k c h inMem keys elts => by
    unfold saveRef
    refine .bind (.read fun _ _ => rfl) (fun b => .ite (.pure _) (.ite ?_ (.raise _)))
    exact .bind (logFree_shapesSet _ _) (fun _ => logFree_saveRefs elts)
theorem logFree_saveRefs : ∀ rs : List Ref, LogFree (saveRefs rs)
  | [] => by unfold saveRefs; exact .pure _
  | r :: rs => by unfold saveRefs; exact .bind (logFree_saveRef r) (fun _ => logFree_saveRefs rs)
end

theorem logFree_loadRef : ∀ (n : Nat) (h : String) (b : Bool), LogFree (loadRef n h b)
  | 0, _, _ => .raise _
  | n + 1, h, b => by
    unfold loadRef
    refine .bind (logFree_shapesGet h) (fun r => ?_)
    cases r with
    | atom c h' o => exact .ite (.pure _) (.bind (logFree_atomsGet c) (fun _ => .pure _))
    | coll k c h' m keys elts =>
      refine .ite ?_ (.raise _)
      refine .bind (.mapM' _ (fun e => logFree_loadRef n _ _)) (fun es => ?_)
      cases k <;> exact .pure _

section
variable (cfg : Cfg)

mutual
theorem logFree_unwrapRef : ∀ r : Ref, LogFree (unwrapRef cfg r)
  | .atom _ _ (some v) => by unfold unwrapRef; exact .pure _
  | .atom c h none => by
    unfold unwrapRef
    refine .bind (logFree_loadRef _ _ _) (fun r => ?_)
    cases r with
    | atom c' h' o =>
      cases o with
      | none => exact .raise _
      | some v => exact .bind (logFree_atomsSet _ _) (fun _ => .pure _)
    | coll => exact .raise _
  | .coll k _ _ inMem keys elts => by
    unfold unwrapRef
    refine .ite (.bind (logFree_unwrapRefs elts) (fun vs => ?_)) (.raise _)
    cases k <;> exact .pure _
theorem logFree_unwrapRefs : ∀ rs : List Ref, LogFree (unwrapRefs cfg rs)
  | [] => by unfold unwrapRefs; exact .pure _
  | r :: rs => by
    unfold unwrapRefs
    exact .bind (logFree_unwrapRef r) (fun _ => .bind (logFree_unwrapRefs rs) (fun _ => .pure _))
end

mutual
theorem logFree_unwrapArg : ∀ a : Arg, LogFree (unwrapArg cfg a)
  | .ref r => by unfold unwrapArg; exact logFree_unwrapRef cfg r
  | .val v => by unfold unwrapArg; exact .pure _
  | .list xs => by unfold unwrapArg; exact .bind (logFree_unwrapArgs xs) (fun _ => .pure _)
  | .dict ks xs => by unfold unwrapArg; exact .bind (logFree_unwrapArgs xs) (fun _ => .pure _)
  | .ptr _ _ => by unfold unwrapArg; exact .pure _
theorem logFree_unwrapArgs : ∀ as : List Arg, LogFree (unwrapArgs cfg as)
  | [] => by unfold unwrapArgs; exact .pure _
  | a :: as => by
    unfold unwrapArgs
    exact .bind (logFree_unwrapArg a) (fun _ => .bind (logFree_unwrapArgs as) (fun _ => .pure _))
end

theorem logFree_bodyArg (a : Arg) : LogFree (bodyArg cfg a) := by
  cases a with
  | ptr _ _ => exact .pure _
  | _ => exact logFree_unwrapArg cfg _

theorem logFree_getCallFromData (d : CallData) : LogFree (getCallFromData cfg d) := by
  unfold getCallFromData
  refine .bind (logFree_opsGet _) (fun _ => ?_)
  refine .bind (.mapM' _ (fun e => .bind (logFree_loadRef _ _ _) (fun _ => .pure _))) (fun _ => ?_)
  exact .bind (.mapM' _ (fun e => .bind (logFree_loadRef _ _ _) (fun _ => .pure _))) (fun _ => .pure _)

theorem logFree_lookupCall (op : String) (v : Int) (ns : Option (List String)) (inputs : List (String × Ref)) :
    LogFree (lookupCall cfg op v ns inputs) := by
  unfold lookupCall
  refine .bind (.read fun _ _ => rfl) (fun _ => .ite ?_ ?_)
  · refine .bind (fun _ _ => rfl) (fun d => .bind (logFree_getCallFromData cfg d) (fun _ => .pure _))
  · refine .bind (.read fun _ _ => rfl) (fun _ => .ite ?_ (.pure _))
    refine .bind (fun _ _ => rfl) (fun d => .bind (logFree_getCallFromData cfg d) (fun c => ?_))
    exact .bind (.lift _) (fun _ => .bind (.lift _) (fun _ => .pure _))

theorem logFree_structCall (op out : String) (inputs : List (String × Ref)) (compute : Except Err Ref) :
    LogFree (structCall cfg op out inputs compute) := by
  unfold structCall
  refine .bind (logFree_lookupCall cfg _ _ _ _) (fun o => ?_)
  cases o with
  | some c => exact .pure _
  | none => exact .bind (.read fun _ _ => rfl) (fun _ => .ite (.bind (.lift _) (fun _ => .pure _)) (.raise _))

theorem logFree_construct : ∀ (ty : Ty) (a : Arg), LogFree (construct cfg ty a)
  | .atom, a => by
    cases a <;> first | exact .pure _ | exact .raise _
  | .unsupported, a => by
    cases a <;> first | exact .pure _ | exact .raise _
  | .coll k t, a => by
    have key : ∀ a, LogFree (do
        let (keys, items) ← M.lift (argItems k a)
        let rs ← M.mapM' (construct cfg t) items
        let refs := rs.map (·.1)
        let main ← structCall cfg (builderName k) (builderOut k) ((structNames k keys refs.length).zip refs)
          (.ok (makeColl cfg k keys refs))
        match main.outputs with
        | [] => M.raise .indexError
        | (_, out) :: _ => M.pure (out, rs.flatMap (·.2) ++ [main]) : M (Ref × List CallObj)) := by
      intro a
      refine .bind (.lift _) (fun p => ?_)
      refine .bind (.mapM' _ (fun b => logFree_construct t b)) (fun rs => ?_)
      refine .bind (logFree_structCall cfg _ _ _ _) (fun main => ?_)
      cases main.outputs with
      | nil => exact .raise _
      | cons p ps => exact .pure _
    cases a with
    | ref r => exact .pure _
    | val v => exact key _
    | list xs => exact key _
    | dict ks xs => exact key _
    | ptr i o => exact key _

theorem logFree_destruct : ∀ (ty : Ty) (r : Ref), LogFree (destruct cfg ty r)
  | ty, .atom c h o => by
    cases ty <;> exact .pure _
  | .atom, .coll .. => .raise _
  | .unsupported, .coll .. => .raise _
  | .coll k t, .coll k' c h inMem keys elts => by
    unfold destruct
    refine .ite (.ite ?_ (.raise _)) (.raise _)
    refine .bind (.mapM' _ (fun idx => ?_)) (fun rs => .pure _)
    refine .bind (logFree_structCall cfg _ _ _ _) (fun call => ?_)
    cases Dict.get? call.outputs (getitemOut k) with
    | none => exact .raise _
    | some elt => exact .bind (logFree_destruct t elt) (fun _ => .pure _)

theorem logFree_wrapOutput (hid : String) (v : Val) (ty : Ty) : LogFree (wrapOutput cfg hid v ty) := by
  unfold wrapOutput
  cases ty with
  | atom => exact .pure _
  | coll k t => exact .bind (logFree_construct cfg _ _) (fun _ => logFree_destruct cfg _ _)
  | unsupported => exact .bind (logFree_construct cfg _ _) (fun _ => logFree_destruct cfg _ _)

theorem logFree_wrapInputs (args : List BArg) : LogFree (wrapInputs cfg args) := by
  unfold wrapInputs
  exact .bind (.mapM' _ (fun a => .bind (logFree_construct cfg _ _) (fun _ => .pure _))) (fun _ => .pure _)

theorem logFree_saveCall (c : CallObj) : LogFree (saveCall c) := by
  unfold saveCall
  refine .bind (.read fun _ _ => rfl) (fun _ => .ite (.pure _) ?_)
  refine .bind (.bind (.read fun _ _ => rfl) (fun _ => .ite (.pure _) (logFree_opsSet _))) (fun _ => ?_)
  exact .bind (logFree_saveRefs _) (fun _ => fun _ _ => rfl)

end
end Verif
