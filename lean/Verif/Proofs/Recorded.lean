import Verif.Proofs.Frame
import Verif.Proofs.Program
/-!
A call that has completed is recorded, and a recorded call does not run its function.
-/
namespace Verif

variable {W : World}

theorem bind_ok {α β : Type} {m : M α} {f : α → M β} {s s' : St} {b : β} (h : (m >>= f) s = (.ok b, s')) :
    ∃ a s1, m s = (.ok a, s1) ∧ f a s1 = (.ok b, s') := by
  have h : M.bind m f s = (.ok b, s') := h
  unfold M.bind at h
  cases hm : m s with
  | mk x s1 =>
    rw [hm] at h
    cases x with
    | ok a => exact ⟨a, s1, rfl, h⟩
    | error e => cases h

theorem bind_eq {α β : Type} {m : M α} {f : α → M β} {s s1 : St} {a : α} (h : m s = (.ok a, s1)) : (m >>= f) s = f a s1 := by
  show M.bind m f s = _
  unfold M.bind
  rw [h]

theorem bind_err {α β : Type} {m : M α} {f : α → M β} {s s1 : St} {e : Err} (h : m s = (.error e, s1)) :
    (m >>= f) s = (.error e, s1) := by
  show M.bind m f s = _
  unfold M.bind
  rw [h]

theorem Pres.forM_mono {α : Type} {f : α → M Unit} {l : List α} {s s' : St} {x : Except Err Unit} {R : St → St → Prop}
    (hR : PreOrd R) (h : ∀ a ∈ l, Pres R (f a)) (he : M.forM' f l s = (x, s')) : R s s' := by
  have := Pres.forM' hR l h s
  rw [he] at this
  exact this

/-- The history id of a call with these (bound) arguments. -/
def callHidOf (W : World) (d : OpDef) (args : List BArg) : String :=
  callId W.H d.name d.version ((args.filter fun a => !a.ignored).map fun a => (a.name, argHid W.H a.ty a.arg))

theorem insHids_storedIns {args : List BArg} {ins : List In} (h : ArgsOK W args ins) :
    insHids (storedIns args ins) = (args.filter fun a => !a.ignored).map fun a => (a.name, argHid W.H a.ty a.arg) := by
  induction h with
  | nil => rfl
  | @cons a i as is h1 h2 ih =>
    simp only [storedIns, List.filter_cons]
    cases a.ignored with
    | true => simpa using ih
    | false =>
      simp only [insHids] at ih ⊢
      simp [ih, h1.1, h1.2.1]

/-- After a successful call, the call is recorded. -/
theorem call_recorded (hW : W.Good) {d : OpDef} (hd : OpOK W d) {args : List BArg} {ins : List In}
    (h : ArgsOK W args ins) (hn : (args.map (·.name)).Nodup)
    (hign : d.body (eraseIns (insVals ins)) = d.body (plainIns args ins)) {s s' : St} (hs : Inv W s) (hc : Coh s) {rs : List Ref}
    (hcall : call W.cfg d args s = (.ok rs, s')) : s'.calls.exists_ (callHidOf W d args) = true := by
  unfold call at hcall
  obtain ⟨⟨main, calls⟩, s1, h1, h2⟩ := bind_ok hcall
  obtain ⟨_, s2, h3, h4⟩ := bind_ok h2
  obtain ⟨_, s3, h5, h6⟩ := bind_ok h4
  have hk := keeps_callInternal hW hd h hn hign s hs
  rw [h1] at hk
  have hhid : main.hid = callHidOf W d args := by
    have := hk.2.1.2.1
    simp only at this
    rw [this, callHidOf, insHids_storedIns h]
  have g1 := grows_callInternal W.cfg d args s hc
  rw [h1] at g1
  have g2 := grows_saveCall main s1 g1.1
  rw [h3] at g2
  have g3 := Pres.forM_mono Grows.ord (fun c _ => grows_saveCall c) h5 g2.1
  have h7 := saveCall_exists h3
  rw [← hhid]
  simp only [M.lift, Prod.mk.injEq] at h6
  rw [← h6.2]
  exact g3.2.1 _ h7

/-- The log is not touched. -/
def SameLog (s s' : St) : Prop := s'.log = s.log

theorem SameLog.ord : PreOrd SameLog := ⟨fun _ => rfl, fun h1 h2 => Eq.trans h2 h1⟩

theorem log_saveCall (c : CallObj) : Pres SameLog (saveCall c) := by
  have hq : ∀ {α : Type} {m : M α}, Pres Quiet m → Pres SameLog m := fun h => h.mono (fun _ _ h => h.log)
  unfold saveCall
  refine Pres.bind SameLog.ord (Pres.read SameLog.ord _) (fun _ => Pres.ite (fun _ => Pres.pure SameLog.ord _) (fun _ => ?_))
  refine Pres.bind SameLog.ord (Pres.bind SameLog.ord (Pres.read SameLog.ord _) (fun _ => Pres.ite (fun _ => Pres.pure SameLog.ord _)
    (fun _ => hq (quiet_opsSet _)))) (fun _ => ?_)
  exact Pres.bind SameLog.ord (hq (quiet_saveRefs _)) (fun _ s => rfl)

/-- A recorded call does not run its function, whether or not reading it back succeeds. -/
theorem callInternal_hit (hW : W.Good) {d : OpDef} {args : List BArg} {ins : List In} (h : ArgsOK W args ins)
    {s : St} (hs : Inv W s) (hex : s.calls.exists_ (callHidOf W d args) = true) :
    Quiet s (callInternal W.cfg d args s).2 := by
  unfold callInternal
  have hq1 := quiet_wrapInputs W.cfg args s
  have hk := keeps_wrapInputs hW h s hs
  cases hw : wrapInputs W.cfg args s with
  | mk x s1 =>
    rw [hw] at hq1 hk
    cases x with
    | error e => rw [bind_err hw]; exact hq1
    | ok p =>
      obtain ⟨inputs, calls⟩ := p
      rw [bind_eq hw]
      have hid : callId W.H d.name d.version (idsOf Ref.hid inputs) = callHidOf W d args := by
        rw [callHidOf, ← insHids_storedIns h]
        have := hk.2.1.hids
        rw [this]
      have hex1 : s1.calls.exists_ (callId W.H d.name d.version (idsOf Ref.hid inputs)) = true := by
        rw [hid, hq1.calls]; exact hex
      dsimp only
      have hq2 := quiet_lookupCall W.cfg d.name d.version d.outNames inputs s1
      have hnone : ∀ s2, lookupCall W.cfg d.name d.version d.outNames inputs s1 ≠ (.ok none, s2) := by
        intro s2 hl
        unfold lookupCall at hl
        obtain ⟨b, s3, h1, h2⟩ := bind_ok hl
        simp only [M.read, Prod.mk.injEq, Except.ok.injEq] at h1
        obtain ⟨rfl, rfl⟩ := h1
        rw [if_pos hex1] at h2
        obtain ⟨_, _, _, h3⟩ := bind_ok h2
        obtain ⟨_, _, _, h4⟩ := bind_ok h3
        cases h4
      cases hl : lookupCall W.cfg d.name d.version d.outNames inputs s1 with
      | mk y s2 =>
        rw [hl] at hq2
        cases y with
        | error e => rw [bind_err hl]; exact Quiet.ord.trans hq1 hq2
        | ok o =>
          rw [bind_eq hl]
          cases o with
          | none => exact absurd hl (hnone s2)
          | some c => exact Quiet.ord.trans hq1 hq2

theorem call_hit (hW : W.Good) {d : OpDef} {args : List BArg} {ins : List In} (h : ArgsOK W args ins)
    {s : St} (hs : Inv W s) (hex : s.calls.exists_ (callHidOf W d args) = true) :
    (call W.cfg d args s).2.log = s.log := by
  have hq := callInternal_hit (d := d) hW h hs hex
  unfold call
  cases hi : callInternal W.cfg d args s with
  | mk x s1 =>
    rw [hi] at hq
    cases x with
    | error e => rw [bind_err hi]; exact hq.log
    | ok p =>
      rw [bind_eq hi]
      refine Eq.trans ?_ hq.log
      exact Pres.bind SameLog.ord (log_saveCall _) (fun _ => Pres.bind SameLog.ord (Pres.forM' SameLog.ord _ (fun c _ => log_saveCall c))
        (fun _ => Pres.lift SameLog.ord _)) s1

/-! ### whole programs -/

theorem Pres.admin {R : St → St → Prop} {m : M Unit} (h : Pres R m) (env : List Ref) (s : St) :
    R s (Cmd.run.admin env s m).2.2 := by
  have := h s
  unfold Cmd.run.admin
  cases hm : m s with
  | mk x s' =>
    rw [hm] at this
    cases x <;> exact this

theorem grows_cmd (cfg : Cfg) (env : List Ref) (s : St) {c : Cmd} (hc : c.Safe) : Grows s (c.run cfg env s).2.2 := by
  cases c with
  | call d args =>
    simp only [Cmd.run]
    cases bindArgs env args with
    | none => exact Grows.ord.refl s
    | some bargs =>
      have := grows_call cfg d bargs s
      simp only
      cases hm : call cfg d bargs s with
      | mk x s' => rw [hm] at this; cases x <;> exact this
  | unwrap x =>
    simp only [Cmd.run]
    cases env[x]? with
    | none => exact Grows.ord.refl s
    | some r =>
      have := (quiet_unwrapRef cfg r).grows s
      simp only
      cases hm : unwrapRef cfg r s with
      | mk x s' => rw [hm] at this; cases x <;> exact this
  | commit => exact Pres.admin (grows_commit cfg) env s
  | clearCache b => simp only [Cmd.Safe] at hc; subst hc; exact Pres.admin grows_clearCache env s
  | dropCalls => exact hc.elim
  | cleanupRefs => exact Pres.admin grows_cleanupRefs env s
  | preload => exact hc.elim
  | reopen => exact hc.elim
  | allowNew b => exact .of_calls rfl

theorem growsP_cmd (cfg : Cfg) (env : List Ref) (s : St) {c : Cmd} (hc : c.NoDrop) : GrowsP s (c.run cfg env s).2.2 := by
  by_cases hs : c.Safe
  · exact (grows_cmd cfg env s hs).toP
  · cases c with
    | clearCache b => exact Pres.admin (growsP_clearCache b) env s
    | dropCalls => exact hc.elim
    | preload => exact Pres.admin growsP_preload env s
    | reopen => exact Pres.admin growsP_reopen env s
    | _ => exact absurd trivial hs

theorem grows_prog (cfg : Cfg) : ∀ (cs : List Cmd) (env : List Ref) (s : St), (∀ c ∈ cs, c.Safe) →
    Grows s (runProg cfg env s cs).2.2
  | [], _, s, _ => Grows.ord.refl s
  | c :: cs, env, s, h => by
    simp only [runProg]
    exact Grows.ord.trans (grows_cmd cfg env s (h c (by simp)))
      (grows_prog cfg cs _ _ (fun c hc => h c (List.mem_cons_of_mem _ hc)))

theorem growsP_prog (cfg : Cfg) : ∀ (cs : List Cmd) (env : List Ref) (s : St), (∀ c ∈ cs, c.NoDrop) →
    GrowsP s (runProg cfg env s cs).2.2
  | [], _, s, _ => fun h => ⟨h, fun _ h => h⟩
  | c :: cs, env, s, h => by
    simp only [runProg]
    intro hc
    have h1 := growsP_cmd cfg env s (h c (by simp)) hc
    have h2 := growsP_prog cfg cs (c.run cfg env s).2.1 (c.run cfg env s).2.2 (fun c hc => h c (List.mem_cons_of_mem _ hc)) h1.1
    exact ⟨h2.1, fun x hx => h2.2 x (h1.2 x hx)⟩

theorem runProg_append (cfg : Cfg) : ∀ (cs ds : List Cmd) (env : List Ref) (s : St),
    runProg cfg env s (cs ++ ds) =
      ((runProg cfg env s cs).1 ++ (runProg cfg (runProg cfg env s cs).2.1 (runProg cfg env s cs).2.2 ds).1,
       (runProg cfg (runProg cfg env s cs).2.1 (runProg cfg env s cs).2.2 ds).2)
  | [], ds, env, s => rfl
  | c :: cs, ds, env, s => by
    simp only [List.cons_append, runProg, runProg_append cfg cs ds]

theorem env_cmd (cfg : Cfg) (env : List Ref) (s : St) (c : Cmd) : ∃ new, (c.run cfg env s).2.1 = env ++ new := by
  have ha : ∀ m, ∃ new, (Cmd.run.admin env s m).2.1 = env ++ new := by
    intro m
    refine ⟨[], ?_⟩
    unfold Cmd.run.admin
    cases m s with
    | mk x s' => cases x <;> simp
  cases c with
  | call d args =>
    simp only [Cmd.run]
    cases bindArgs env args with
    | none => exact ⟨[], by simp⟩
    | some bargs =>
      simp only
      cases call cfg d bargs s with
      | mk x s' =>
        cases x with
        | ok rs => exact ⟨rs, rfl⟩
        | error e => exact ⟨[], by simp⟩
  | unwrap x =>
    simp only [Cmd.run]
    cases env[x]? with
    | none => exact ⟨[], by simp⟩
    | some r =>
      simp only
      cases unwrapRef cfg r s with
      | mk x s' => cases x <;> exact ⟨[], by simp⟩
  | allowNew b => exact ⟨[], by simp [Cmd.run]⟩
  | _ => exact ha _

theorem env_prog (cfg : Cfg) : ∀ (cs : List Cmd) (env : List Ref) (s : St), ∃ new, (runProg cfg env s cs).2.1 = env ++ new
  | [], env, s => ⟨[], by simp [runProg]⟩
  | c :: cs, env, s => by
    simp only [runProg]
    obtain ⟨n1, h1⟩ := env_cmd cfg env s c
    obtain ⟨n2, h2⟩ := env_prog cfg cs (c.run cfg env s).2.1 (c.run cfg env s).2.2
    exact ⟨n1 ++ n2, by rw [h2, h1, List.append_assoc]⟩

mutual
theorem toArg_append (env new : List Ref) : ∀ (e : PExpr) (a : Arg), e.toArg env = some a → e.toArg (env ++ new) = some a
  | .raw v, a, h => by simpa only [PExpr.toArg] using h
  | .var i, a, h => by
    simp only [PExpr.toArg, Option.map_eq_some_iff] at h ⊢
    obtain ⟨r, hr, rfl⟩ := h
    refine ⟨r, ?_, rfl⟩
    have : i < env.length := by
      rw [List.getElem?_eq_some_iff] at hr; exact hr.1
    rw [List.getElem?_append_left this]
    exact hr
  | .list xs, a, h => by
    simp only [PExpr.toArg, Option.map_eq_some_iff] at h ⊢
    obtain ⟨as, has, rfl⟩ := h
    exact ⟨as, toArgs_append env new xs as has, rfl⟩
  | .dict ks xs, a, h => by
    simp only [PExpr.toArg, Option.map_eq_some_iff] at h ⊢
    obtain ⟨as, has, rfl⟩ := h
    exact ⟨as, toArgs_append env new xs as has, rfl⟩
theorem toArgs_append (env new : List Ref) : ∀ (xs : List PExpr) (as : List Arg), PExpr.toArgs env xs = some as →
    PExpr.toArgs (env ++ new) xs = some as
  | [], as, h => by simpa only [PExpr.toArgs] using h
  | x :: xs, as, h => by
    simp only [PExpr.toArgs] at h ⊢
    cases h1 : PExpr.toArg env x with
    | none => rw [h1] at h; simp at h
    | some b =>
      cases h2 : PExpr.toArgs env xs with
      | none => rw [h1, h2] at h; simp at h
      | some bs =>
        rw [h1, h2] at h
        rw [toArg_append env new x b h1, toArgs_append env new xs bs h2]
        exact h
end

theorem bindArgs_append (env new : List Ref) : ∀ (ps : List PArg) (as : List BArg), bindArgs env ps = some as →
    bindArgs (env ++ new) ps = some as
  | [], as, h => by simpa only [bindArgs] using h
  | p :: ps, as, h => by
    simp only [bindArgs] at h ⊢
    cases h1 : PExpr.toArg env p.expr with
    | none => rw [h1] at h; simp at h
    | some b =>
      cases h2 : bindArgs env ps with
      | none => rw [h1, h2] at h; simp at h
      | some bs =>
        rw [h1, h2] at h
        rw [toArg_append env new p.expr b h1, bindArgs_append env new ps bs h2]
        exact h

theorem coh_fresh (o : Option (Joblib Val)) (thr : Nat) : Coh (.fresh o thr) := by
  intro h hh
  simp [St.fresh, CachedCalls.open_, InMem.empty, InMem.exists_] at hh

end Verif
