import Verif.Spec.Identity
import Verif.Proofs.LogFree
/-!
What the identity of a call depends on.
-/
namespace Verif

theorem Arg.forgets_eq (as : List Arg) : Arg.forgets as = as.map Arg.forget := by
  induction as with
  | nil => rfl
  | cons a as ih => rw [Arg.forgets, ih]; rfl

theorem mapM'_map {α β γ : Type} (f : β → M γ) (g : α → β) (l : List α) : M.mapM' f (l.map g) = M.mapM' (fun a => f (g a)) l := by
  induction l with
  | nil => rfl
  | cons a l ih => rw [List.map_cons, M.mapM', M.mapM', ih]

theorem mapM'_congr {α β : Type} {f g : α → M β} {l : List α} (h : ∀ a ∈ l, f a = g a) : M.mapM' f l = M.mapM' g l := by
  induction l with
  | nil => rfl
  | cons a l ih => rw [M.mapM', M.mapM', h a (by simp), ih (fun b hb => h b (by simp [hb]))]

section
variable (cfg : Cfg)

theorem argItems_forget (k : Kind) (a : Arg) :
    argItems k a.forget = (argItems k a).map fun p => (p.1, p.2.map Arg.forget) := by
  cases a with
  | ref r => cases k <;> rfl
  | ptr i o => cases k <;> rfl
  | list xs => cases k <;> simp [Arg.forget, argItems, Arg.forgets_eq, Except.map]
  | dict ks xs => cases k <;> simp [Arg.forget, argItems, Arg.forgets_eq, Except.map, Function.comp_def]
  | val v =>
    cases k <;> cases v <;> simp [Arg.forget, argItems, Except.map, Function.comp_def]

/-- What the storage makes of an argument does not depend on the objects behind pointers. -/
theorem construct_forget : ∀ (ty : Ty) (a : Arg), construct cfg ty a.forget = construct cfg ty a
  | .atom, a => by cases a <;> rfl
  | .unsupported, a => by cases a <;> rfl
  | .coll k t, a => by
    have key : ∀ a : Arg, (∀ r, a ≠ .ref r) → construct cfg (.coll k t) a = (do
        let (keys, items) ← M.lift (argItems k a)
        let rs ← M.mapM' (construct cfg t) items
        let refs := rs.map (·.1)
        let main ← structCall cfg (builderName k) (builderOut k) ((structNames k keys refs.length).zip refs)
          (.ok (makeColl cfg k keys refs))
        match main.outputs with
        | [] => M.raise .indexError
        | (_, out) :: _ => M.pure (out, rs.flatMap (·.2) ++ [main]) : M (Ref × List CallObj)) := by
      intro a ha
      cases a with
      | ref r => exact absurd rfl (ha r)
      | _ => rfl
    by_cases hr : ∃ r, a = .ref r
    · obtain ⟨r, rfl⟩ := hr; rfl
    · have h1 : ∀ r, a ≠ .ref r := fun r h => hr ⟨r, h⟩
      have h2 : ∀ r, a.forget ≠ .ref r := by
        intro r h
        cases a with
        | ref r' => exact h1 r' rfl
        | _ => simp [Arg.forget] at h
      rw [key a h1, key a.forget h2, argItems_forget]
      funext s
      cases argItems k a with
      | error e => rfl
      | ok p =>
        obtain ⟨keys, items⟩ := p
        show M.bind (M.mapM' (construct cfg t) (items.map Arg.forget)) _ s = M.bind (M.mapM' (construct cfg t) items) _ s
        rw [mapM'_map, mapM'_congr (g := construct cfg t) (fun b _ => construct_forget t b)]

mutual
theorem unwrapArg_forget : ∀ a : Arg, unwrapArg cfg a.forget = unwrapArg cfg a
  | .ref r => rfl
  | .val v => rfl
  | .list xs => by rw [Arg.forget, unwrapArg, unwrapArg, unwrapArgs_forget xs]
  | .dict ks xs => by rw [Arg.forget, unwrapArg, unwrapArg, unwrapArgs_forget xs]
  | .ptr _ _ => by rw [Arg.forget, unwrapArg, unwrapArg]
theorem unwrapArgs_forget : ∀ as : List Arg, unwrapArgs cfg (Arg.forgets as) = unwrapArgs cfg as
  | [] => rfl
  | a :: as => by rw [Arg.forgets, unwrapArgs, unwrapArgs, unwrapArg_forget a, unwrapArgs_forget as]
end

/-- The inputs depend on the keys of the non-ignored arguments only. -/
theorem wrapInputs_key {args args' : List BArg} (h : SameKey args args') : wrapInputs cfg args = wrapInputs cfg args' := by
  have key : ∀ args : List BArg, wrapInputs cfg args = (do
      let rs ← M.mapM' (fun (k : String × Ty × Arg) => do
        let (r, cs) ← construct cfg k.2.1 k.2.2
        M.pure (k.1, r, cs)) ((args.filter fun a => !a.ignored).map BArg.key)
      M.pure (rs.map fun p => (p.1, p.2.1), rs.flatMap fun p => p.2.2)) := by
    intro args
    unfold wrapInputs
    rw [mapM'_map]
    have : ∀ a : BArg, (construct cfg a.key.2.1 a.key.2.2) = construct cfg a.ty a.arg := fun a => construct_forget cfg a.ty a.arg
    simp only [this]
    rfl
  rw [key, key, h]

/-- The part of a call after the inputs are wrapped and no recorded call was found: evaluate the arguments. -/
def evalArgs (args : List BArg) : M (List (String × Val)) :=
  M.mapM' (fun (a : BArg) => do
    let v ← bodyArg cfg a.arg
    M.pure (a.name, v)) args

/-- After the body has returned. -/
def finish (op : OpDef) (inputs : List (String × Ref)) (ics : List CallObj) (ret : Except Err Val) : M (CallObj × List CallObj) := do
  let ret ← M.lift ret
  let outs ← M.lift (parseReturns op.nout op.outNames op.ann ret)
  let callHid := callId cfg.H op.name op.version (idsOf Ref.hid inputs)
  let wrapped ← M.mapM' (fun (p : String × Val × Ty) => do
    let (r, cs) ← wrapOutput cfg (outHid cfg.H callHid p.1) p.2.1 p.2.2
    M.pure (p.1, r, cs)) outs
  M.pure ({ op := op.name, cid := callId cfg.H op.name op.version (idsOf Ref.cid inputs), hid := callHid,
            inputs := inputs, outputs := wrapped.map fun p => (p.1, p.2.1) },
          ics ++ wrapped.flatMap fun p => p.2.2)

/-- After the call. -/
def save (op : OpDef) (p : CallObj × List CallObj) : M (List Ref) := do
  saveCall p.1
  M.forM' saveCall p.2
  M.lift (orderedOutputs op.outNames p.1.outputs)

theorem logFree_evalArgs (args : List BArg) : LogFree (evalArgs cfg args) :=
  .mapM' _ (fun a => .bind (logFree_bodyArg cfg _) (fun _ => .pure _))

theorem logFree_finish (op : OpDef) (inputs : List (String × Ref)) (ics : List CallObj) (ret : Except Err Val) :
    LogFree (finish cfg op inputs ics ret) :=
  .bind (.lift _) (fun _ => .bind (.lift _) (fun _ => .bind (.mapM' _ (fun _ => .bind (logFree_wrapOutput cfg _ _ _) (fun _ => .pure _)))
    (fun _ => .pure _)))

theorem logFree_save (op : OpDef) (p : CallObj × List CallObj) : LogFree (save op p) :=
  .bind (logFree_saveCall _) (fun _ => .bind (.forM' _ (fun c => logFree_saveCall c)) (fun _ => .lift _))

/-- The cases of a call. -/
theorem call_cases (op : OpDef) (args : List BArg) (s : St) :
    (∃ e s1, wrapInputs cfg args s = (.error e, s1) ∧ call cfg op args s = (.error e, s1)) ∨
    (∃ i ics s1, wrapInputs cfg args s = (.ok (i, ics), s1) ∧
      ((∃ e s2, lookupCall cfg op.name op.version op.outNames i s1 = (.error e, s2) ∧ call cfg op args s = (.error e, s2)) ∨
       (∃ c s2, lookupCall cfg op.name op.version op.outNames i s1 = (.ok (some c), s2) ∧
          call cfg op args s = save op (c, ics) s2) ∨
       (∃ s2, lookupCall cfg op.name op.version op.outNames i s1 = (.ok none, s2) ∧
          ((s2.allowNew = false ∧ call cfg op args s = (.error .runtimeError, s2)) ∨
           (s2.allowNew = true ∧
            ((∃ e s3, evalArgs cfg args s2 = (.error e, s3) ∧ call cfg op args s = (.error e, s3)) ∨
             (∃ vs s3, evalArgs cfg args s2 = (.ok vs, s3) ∧
                call cfg op args s = (finish cfg op i ics (op.body vs) >>= save op) (s3.withLog ((op.name, vs) :: s3.log)))))))) ) := by
  have hcall : call cfg op args s = M.bind (M.bind (wrapInputs cfg args) fun x =>
      M.bind (lookupCall cfg op.name op.version op.outNames x.1) fun
        | some c => M.pure (c, x.2)
        | none => M.bind (M.read (fun s => s.allowNew)) fun b => if b then
            M.bind (evalArgs cfg args) fun vals => M.bind (logExec op.name vals) fun _ => finish cfg op x.1 x.2 (op.body vals)
          else M.raise .runtimeError) (save op) s := rfl
  cases hw : wrapInputs cfg args s with
  | mk x s1 =>
    cases x with
    | error e => left; refine ⟨e, s1, rfl, ?_⟩; rw [hcall]; simp only [M.bind, hw]
    | ok x =>
      right
      obtain ⟨i, ics⟩ := x
      refine ⟨i, ics, s1, rfl, ?_⟩
      cases hl : lookupCall cfg op.name op.version op.outNames i s1 with
      | mk o s2 =>
        cases o with
        | error e => left; refine ⟨e, s2, rfl, ?_⟩; rw [hcall]; simp only [M.bind, hw, hl]
        | ok o =>
          right
          cases o with
          | some c => left; refine ⟨c, s2, rfl, ?_⟩; rw [hcall]; simp only [M.bind, hw, hl]; rfl
          | none =>
            right
            refine ⟨s2, rfl, ?_⟩
            cases ha : s2.allowNew with
            | false => left; refine ⟨rfl, ?_⟩; rw [hcall]; simp only [M.bind, hw, hl, M.read, ha]; rfl
            | true =>
              right
              refine ⟨rfl, ?_⟩
              cases he : evalArgs cfg args s2 with
              | mk v s3 =>
                cases v with
                | error e => left; refine ⟨e, s3, rfl, ?_⟩; rw [hcall]; simp only [M.bind, hw, hl, M.read, ha, if_true, he]
                | ok vs =>
                  right; refine ⟨vs, s3, rfl, ?_⟩
                  rw [hcall]; simp only [M.bind, hw, hl, M.read, ha, if_true, he, logExec]; rfl

theorem bodyArg_same {a a' : Arg} (h : a.forget = a'.forget) :
    (bodyArg cfg a = bodyArg cfg a') ∨ ∃ id o o', a = .ptr id o ∧ a' = .ptr id o' := by
  have hu : unwrapArg cfg a = unwrapArg cfg a' := by rw [← unwrapArg_forget, h, unwrapArg_forget]
  cases a with
  | ptr id o =>
    cases a' with
    | ptr id' o' => simp only [Arg.forget, Arg.ptr.injEq] at h; right; exact ⟨id, o, o', rfl, by rw [h.1]⟩
    | _ => simp [Arg.forget] at h
  | _ =>
    cases a' with
    | ptr id' o' => simp [Arg.forget] at h
    | _ => left; exact hu

/-- Evaluating the arguments of two calls that differ in objects behind pointers. -/
theorem evalArgs_same {args args' : List BArg} (h : SameButObj args args') (s : St) :
    (∃ e s', evalArgs cfg args s = (.error e, s') ∧ evalArgs cfg args' s = (.error e, s')) ∨
    (∃ vs vs' s', evalArgs cfg args s = (.ok vs, s') ∧ evalArgs cfg args' s = (.ok vs', s') ∧ PtrVals args args' vs vs') := by
  induction h generalizing s with
  | nil => right; exact ⟨[], [], s, rfl, rfl, rfl, rfl, .nil⟩
  | @cons a a' as as' ha has ih =>
    obtain ⟨hn, _, _, hf⟩ := ha
    have step : ∀ (a : BArg) (as : List BArg) (s : St), evalArgs cfg (a :: as) s =
        match bodyArg cfg a.arg s with
        | (.error e, s') => (.error e, s')
        | (.ok v, s') => match evalArgs cfg as s' with
          | (.error e, s'') => (.error e, s'')
          | (.ok vs, s'') => (.ok ((a.name, v) :: vs), s'') := by
      intro a as s
      show M.bind (M.bind (bodyArg cfg a.arg) fun v => M.pure (a.name, v)) (fun b => M.bind (evalArgs cfg as) fun bs => M.pure (b :: bs)) s = _
      unfold M.bind M.pure
      cases bodyArg cfg a.arg s with
      | mk x s' =>
        cases x with
        | error e => rfl
        | ok v =>
          dsimp only
          cases evalArgs cfg as s' with
          | mk y s'' => cases y <;> rfl
    rw [step, step]
    have fin : ∀ (v v' : Val) (s1 : St), (v = v' ∨ ∃ id o o', a.arg = .ptr id o ∧ a'.arg = .ptr id o' ∧ v = o ∧ v' = o') →
        bodyArg cfg a.arg s = (.ok v, s1) → bodyArg cfg a'.arg s = (.ok v', s1) →
        (∃ e s', (match bodyArg cfg a.arg s with
          | (.error e, s') => (.error e, s')
          | (.ok v, s') => match evalArgs cfg as s' with
            | (.error e, s'') => (.error e, s'')
            | (.ok vs, s'') => (.ok ((a.name, v) :: vs), s'') : Res St (List (String × Val))) = (.error e, s') ∧ (match bodyArg cfg a'.arg s with
          | (.error e, s') => (.error e, s')
          | (.ok v, s') => match evalArgs cfg as' s' with
            | (.error e, s'') => (.error e, s'')
            | (.ok vs, s'') => (.ok ((a'.name, v) :: vs), s'') : Res St (List (String × Val))) = (.error e, s')) ∨
        (∃ vs vs' s', (match bodyArg cfg a.arg s with
          | (.error e, s') => (.error e, s')
          | (.ok v, s') => match evalArgs cfg as s' with
            | (.error e, s'') => (.error e, s'')
            | (.ok vs, s'') => (.ok ((a.name, v) :: vs), s'') : Res St (List (String × Val))) = (.ok vs, s') ∧ (match bodyArg cfg a'.arg s with
          | (.error e, s') => (.error e, s')
          | (.ok v, s') => match evalArgs cfg as' s' with
            | (.error e, s'') => (.error e, s'')
            | (.ok vs, s'') => (.ok ((a'.name, v) :: vs), s'') : Res St (List (String × Val))) = (.ok vs', s') ∧
            PtrVals (a :: as) (a' :: as') vs vs') := by
      intro v v' s1 hv h1 h2
      rw [h1, h2]
      dsimp only
      rcases ih s1 with ⟨e, s', e1, e2⟩ | ⟨vs, vs', s', e1, e2, hp⟩
      · left; exact ⟨e, s', by rw [e1], by rw [e2]⟩
      · right
        refine ⟨(a.name, v) :: vs, (a'.name, v') :: vs', s', by rw [e1], by rw [e2], ?_, ?_, ?_⟩
        · simp [hp.1]
        · simp [hp.2.1]
        · exact .cons hv hp.2.2
    rcases bodyArg_same cfg hf with hb | ⟨id, o, o', e1, e2⟩
    · cases hx : bodyArg cfg a.arg s with
      | mk x s1 =>
        cases x with
        | error e => left; exact ⟨e, s1, rfl, by rw [← hb, hx]⟩
        | ok v =>
          have := fin v v s1 (Or.inl rfl) hx (by rw [← hb, hx])
          rw [hx] at this
          exact this
    · exact fin o o' s (Or.inr ⟨id, o, o', e1, e2, rfl, rfl⟩) (by rw [e1]; rfl) (by rw [e2]; rfl)

theorem SameButObj.key {args args' : List BArg} (h : SameButObj args args') : SameKey args args' := by
  unfold SameKey
  induction h with
  | nil => rfl
  | @cons a a' as as' ha _ ih =>
    obtain ⟨h1, h2, h3, h4⟩ := ha
    by_cases hi : a.ignored
    · rw [List.filter_cons_of_neg (by simp [hi]), List.filter_cons_of_neg (by simp [← h3, hi]), ih]
    · rw [List.filter_cons_of_pos (by simp [hi]), List.filter_cons_of_pos (by simp [← h3, hi]), List.map_cons, List.map_cons, ih]
      simp [BArg.key, h1, h2, h4]

/-- A call answered from the records does not depend on anything but the keys. -/
theorem answered_same {op : OpDef} {args args' : List BArg} (h : SameKey args args') {s s' : St} {r : List Ref}
    (hc : call cfg op args s = (.ok r, s')) (hl : s'.log = s.log) : call cfg op args' s = (.ok r, s') := by
  have hw := wrapInputs_key cfg h
  rcases call_cases cfg op args s with ⟨e, s1, _, h2⟩ | ⟨i, ics, s1, h1, h2⟩
  · rw [hc] at h2; simp at h2
  · have l1 : s1.log = s.log := by have := (logFree_wrapInputs cfg args).log s; rw [h1] at this; exact this
    rcases h2 with ⟨e, s2, _, h3⟩ | ⟨c, s2, h2, h3⟩ | ⟨s2, h2, h3⟩
    · rw [hc] at h3; simp at h3
    · -- a hit
      rcases call_cases cfg op args' s with ⟨e, s1', h1', _⟩ | ⟨i', ics', s1', h1', h2'⟩
      · rw [← hw, h1] at h1'; simp at h1'
      · rw [← hw, h1] at h1'
        simp only [Prod.mk.injEq, Except.ok.injEq] at h1'
        obtain ⟨⟨rfl, rfl⟩, rfl⟩ := h1'
        rcases h2' with ⟨e, s2', h2', _⟩ | ⟨c', s2', h2', h3'⟩ | ⟨s2', h2', _⟩
        · rw [h2] at h2'; simp at h2'
        · rw [h2] at h2'
          simp only [Prod.mk.injEq, Except.ok.injEq, Option.some.injEq] at h2'
          obtain ⟨rfl, rfl⟩ := h2'
          rw [h3', ← h3, hc]
        · rw [h2] at h2'; simp at h2'
    · -- a miss runs the body
      exfalso
      have l2 : s2.log = s1.log := by have := (logFree_lookupCall cfg op.name op.version op.outNames i).log s1; rw [h2] at this; exact this
      rcases h3 with ⟨_, h3⟩ | ⟨_, ⟨e, s3, _, h3⟩ | ⟨vs, s3, h4, h3⟩⟩
      · rw [hc] at h3; simp at h3
      · rw [hc] at h3; simp at h3
      · have l3 : s3.log = s2.log := by have := (logFree_evalArgs cfg args).log s2; rw [h4] at this; exact this
        have lf : LogFree (finish cfg op i ics (op.body vs) >>= save op) := .bind (logFree_finish cfg _ _ _ _) (fun _ => logFree_save _ _)
        have := lf.log (s3.withLog ((op.name, vs) :: s3.log))
        rw [← h3, hc] at this
        dsimp only at this
        rw [hl] at this
        have e : (s3.withLog ((op.name, vs) :: s3.log)).log = (op.name, vs) :: s3.log := rfl
        rw [e, l3, l2, l1] at this
        have := congrArg List.length this
        simp at this

/-- Objects behind pointers influence neither result nor storage other than through the function's outcome. -/
theorem object_not_stored {op : OpDef} {args args' : List BArg} (h : SameButObj args args')
    (hb : ∀ vs vs', PtrVals args args' vs vs' → op.body vs = op.body vs') (s : St) :
    (call cfg op args s).1 = (call cfg op args' s).1 ∧
      (call cfg op args s).2.withLog [] = (call cfg op args' s).2.withLog [] := by
  have hw := wrapInputs_key cfg h.key
  rcases call_cases cfg op args s with ⟨e, s1, h1, h2⟩ | ⟨i, ics, s1, h1, h2⟩ <;>
    rcases call_cases cfg op args' s with ⟨e', s1', h1', h2'⟩ | ⟨i', ics', s1', h1', h2'⟩ <;> rw [← hw, h1] at h1'
  · simp only [Prod.mk.injEq, Except.error.injEq] at h1'
    rw [h2, h2', h1'.1, h1'.2]; exact ⟨rfl, rfl⟩
  · simp at h1'
  · simp at h1'
  · simp only [Prod.mk.injEq, Except.ok.injEq] at h1'
    obtain ⟨⟨rfl, rfl⟩, rfl⟩ := h1'
    rcases h2 with ⟨e, s2, h2, h3⟩ | ⟨c, s2, h2, h3⟩ | ⟨s2, h2, h3⟩ <;>
      rcases h2' with ⟨e', s2', h2', h3'⟩ | ⟨c', s2', h2', h3'⟩ | ⟨s2', h2', h3'⟩ <;> rw [h2] at h2' <;>
      simp only [Prod.mk.injEq, Except.ok.injEq, Except.error.injEq, Option.some.injEq, reduceCtorEq, false_and, true_and] at h2'
    · rw [h3, h3', h2'.1, h2'.2]; exact ⟨rfl, rfl⟩
    · rw [h3, h3', h2'.1, h2'.2]; exact ⟨rfl, rfl⟩
    · subst h2'
      rcases h3 with ⟨ha, h3⟩ | ⟨ha, h3⟩ <;> rcases h3' with ⟨ha', h3'⟩ | ⟨ha', h3'⟩
      · rw [h3, h3']; exact ⟨rfl, rfl⟩
      · rw [ha] at ha'; simp at ha'
      · rw [ha] at ha'; simp at ha'
      · rcases evalArgs_same cfg h s2 with ⟨e, s3, e1, e2⟩ | ⟨vs, vs', s3, e1, e2, hp⟩
        · rcases h3 with ⟨x, t, h4, h3⟩ | ⟨x, t, h4, h3⟩ <;> rcases h3' with ⟨x', t', h4', h3'⟩ | ⟨x', t', h4', h3'⟩ <;>
            rw [e1] at h4 <;> rw [e2] at h4' <;> simp only [Prod.mk.injEq, Except.error.injEq, reduceCtorEq, false_and] at h4 h4'
          rw [h3, h3', ← h4.1, ← h4.2, ← h4'.1, ← h4'.2]; exact ⟨rfl, rfl⟩
        · rcases h3 with ⟨x, t, h4, h3⟩ | ⟨x, t, h4, h3⟩ <;> rcases h3' with ⟨x', t', h4', h3'⟩ | ⟨x', t', h4', h3'⟩ <;>
            rw [e1] at h4 <;> rw [e2] at h4' <;> simp only [Prod.mk.injEq, Except.ok.injEq, reduceCtorEq, false_and] at h4 h4'
          obtain ⟨rfl, rfl⟩ := h4
          obtain ⟨rfl, rfl⟩ := h4'
          rw [h3, h3', hb _ _ hp]
          have lf : LogFree (finish cfg op i ics (op.body vs') >>= save op) := .bind (logFree_finish cfg _ _ _ _) (fun _ => logFree_save _ _)
          rw [lf, lf s3 ((op.name, vs') :: s3.log)]
          exact ⟨rfl, rfl⟩

theorem evalArgs_vals {args : List BArg} : ∀ {s s' : St} {vs : List (String × Val)}, evalArgs cfg args s = (.ok vs, s') →
    All2 (fun (a : BArg) (p : String × Val) => p.1 = a.name ∧ (∀ v, a.arg = .val v → p.2 = v) ∧ (∀ id o, a.arg = .ptr id o → p.2 = o)) args vs := by
  induction args with
  | nil => intro s s' vs h; simp only [evalArgs, M.mapM'] at h; cases h; exact .nil
  | cons a as ih =>
    intro s s' vs h
    have h' : M.bind (M.bind (bodyArg cfg a.arg) (fun v => M.pure (a.name, v))) (fun p => M.bind (evalArgs cfg as) fun ps => M.pure (p :: ps)) s =
      (.ok vs, s') := h
    simp only [M.bind, M.pure] at h'
    cases hb : bodyArg cfg a.arg s with
    | mk x s1 =>
      rw [hb] at h'
      cases x with
      | error e => simp at h'
      | ok v =>
        simp only at h'
        cases he : evalArgs cfg as s1 with
        | mk y s2 =>
          rw [he] at h'
          cases y with
          | error e => simp at h'
          | ok ps =>
            simp only [Prod.mk.injEq, Except.ok.injEq] at h'
            obtain ⟨rfl, rfl⟩ := h'
            refine .cons ⟨rfl, fun w hw => ?_, fun id o hw => ?_⟩ (ih he)
            · rw [hw, bodyArg, unwrapArg] at hb
              · cases hb; rfl
              · intro _ _ h; cases h
            · rw [hw, bodyArg] at hb
              cases hb; rfl

/-- When the body runs, it receives all arguments, ignored or not: values as they are, pointers as their objects. -/
theorem body_receives {op : OpDef} {args : List BArg} {s : St} (hl : (call cfg op args s).2.log ≠ s.log) :
    ∃ vs, (call cfg op args s).2.log = (op.name, vs) :: s.log ∧
      All2 (fun (a : BArg) (p : String × Val) => p.1 = a.name ∧ (∀ v, a.arg = .val v → p.2 = v) ∧ (∀ id o, a.arg = .ptr id o → p.2 = o)) args vs := by
  have hwl := (logFree_wrapInputs cfg args).log s
  rcases call_cases cfg op args s with ⟨e, s1, h1, h2⟩ | ⟨i, ics, s1, h1, h2⟩
  · rw [h1] at hwl; rw [h2] at hl; exact absurd hwl hl
  · rw [h1] at hwl
    have hll := (logFree_lookupCall cfg op.name op.version op.outNames i).log s1
    rcases h2 with ⟨e, s2, h2, h3⟩ | ⟨c, s2, h2, h3⟩ | ⟨s2, h2, h3⟩ <;> rw [h2] at hll <;> simp only at hll hwl
    · rw [h3] at hl; exact absurd (hll.trans hwl) hl
    · rw [h3, (logFree_save _ _).log] at hl; exact absurd (hll.trans hwl) hl
    · rcases h3 with ⟨_, h3⟩ | ⟨_, ⟨e, s3, h3, h4⟩ | ⟨vs, s3, h3, h4⟩⟩
      · rw [h3] at hl; exact absurd (hll.trans hwl) hl
      · have := (logFree_evalArgs cfg args).log s2
        rw [h3] at this; rw [h4] at hl
        exact absurd (this.trans (hll.trans hwl)) hl
      · have h5 := (logFree_evalArgs cfg args).log s2
        rw [h3] at h5
        refine ⟨vs, ?_, evalArgs_vals cfg h3⟩
        have lf : LogFree (finish cfg op i ics (op.body vs) >>= save op) := .bind (logFree_finish cfg _ _ _ _) (fun _ => logFree_save _ _)
        rw [h4, lf.log, St.withLog, ← hwl, ← hll, ← h5]

end
end Verif
