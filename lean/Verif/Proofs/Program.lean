import Verif.Proofs.StorageCall
/-!
Programs run with a storage show what they show without.
-/
namespace Verif

variable {W : World}

theorem storageErr_of_SErr {e : Err} (h : SErr e) : StorageErr e := by
  cases e <;> first | exact h.elim | exact ⟨nofun, nofun⟩

/-- The results so far, with and without the storage. -/
def EnvOK (W : World) (env : List Ref) (penv : List Val) : Prop :=
  All2 (fun r v => ∃ t, RefOK W r t ∧ t.erase = v) env penv

theorem EnvOK.get? {env : List Ref} {penv : List Val} (h : EnvOK W env penv) (i : Nat) :
    (env[i]? = none ∧ penv[i]? = none) ∨
    ∃ r v t, env[i]? = some r ∧ penv[i]? = some v ∧ RefOK W r t ∧ t.erase = v := by
  have hl := All2.length_eq h
  cases hr : env[i]? with
  | none =>
    refine .inl ⟨rfl, ?_⟩
    rw [List.getElem?_eq_none_iff] at hr ⊢
    omega
  | some r =>
    obtain ⟨v, hv, t, ht, he⟩ := All2.get? h i hr
    exact .inr ⟨r, v, t, rfl, hv, ht, he⟩

theorem ValT.wf_argT {ty : Ty} {v : Val} {t : TVal} (h : ValT ty v t) (hw : t.Wf W) : ArgT W ty (.val v) t :=
  valT_argT _ _ _ h hw

mutual
theorem toArg_ok {env : List Ref} {penv : List Val} (h : EnvOK W env penv) : ∀ (e : PExpr) (ty : Ty), PExprOK W ty e →
    (e.toArg env = none ∧ e.plain penv = none) ∨
    ∃ a v t, e.toArg env = some a ∧ e.plain penv = some v ∧ ArgT W ty a t ∧ t.erase = v ∧ t.Wf W
  | .raw v, ty, hok => by
    simp only [PExprOK] at hok
    obtain ⟨t, ht, hw⟩ := hok
    exact .inr ⟨_, _, t, rfl, rfl, ht.wf_argT hw, valT_erase _ _ _ ht, hw⟩
  | .var i, ty, hok => by
    simp only [PExpr.toArg, PExpr.plain]
    rcases h.get? i with ⟨h1, h2⟩ | ⟨r, v, t, h1, h2, h3, h4⟩
    · rw [h1, h2]; exact .inl ⟨rfl, rfl⟩
    · rw [h1, h2]
      refine .inr ⟨_, _, t, rfl, rfl, ?_, h4, h3.prov.wf⟩
      cases ty <;> simpa only [ArgT] using h3
  | .list xs, ty, hok => by
    simp only [PExprOK] at hok
    obtain ⟨ty', rfl, hemp, hxs⟩ := hok
    simp only [PExpr.toArg, PExpr.plain]
    rcases toArgs_ok h xs ty' hxs with ⟨h1, h2⟩ | ⟨as, vs, ts, h1, h2, h3, h4, h5, h6⟩
    · rw [h1, h2]; exact .inl ⟨rfl, rfl⟩
    · rw [h1, h2]
      have hw : (TVal.coll .list [] ts).Wf W := by
        simp only [TVal.Wf, KeysOK, true_and]
        refine ⟨fun hn => hemp ?_, h5⟩
        subst hn
        have := All2.length_eq h3
        cases xs with
        | nil => rfl
        | cons => simp_all
      refine .inr ⟨_, _, .coll .list [] ts, rfl, rfl, ?_, ?_, hw⟩
      · simp only [ArgT]
        exact ⟨[], as, ts, rfl, rfl, hw, h3⟩
      · simp only [TVal.erase, mkVal, h4]
  | .dict keys xs, ty, hok => by
    simp only [PExprOK] at hok
    obtain ⟨ty', rfl, hk, hemp, hxs⟩ := hok
    simp only [PExpr.toArg, PExpr.plain]
    rcases toArgs_ok h xs ty' hxs with ⟨h1, h2⟩ | ⟨as, vs, ts, h1, h2, h3, h4, h5, h6⟩
    · rw [h1, h2]; exact .inl ⟨rfl, rfl⟩
    · rw [h1, h2]
      have hl := All2.length_eq h3
      have hw : (TVal.coll .dict keys ts).Wf W := by
        simp only [TVal.Wf]
        refine ⟨by rw [← hl, h6]; exact hk, fun hn => hemp ?_, h5⟩
        subst hn
        cases xs with
        | nil => rfl
        | cons => simp_all
      refine .inr ⟨_, _, .coll .dict keys ts, rfl, rfl, ?_, ?_, hw⟩
      · simp only [ArgT]
        exact ⟨keys, as, ts, rfl, rfl, hw, h3⟩
      · simp only [TVal.erase, mkVal, h4]
theorem toArgs_ok {env : List Ref} {penv : List Val} (h : EnvOK W env penv) : ∀ (xs : List PExpr) (ty : Ty), PExprsOK W ty xs →
    (PExpr.toArgs env xs = none ∧ PExpr.plains penv xs = none) ∨
    ∃ as vs ts, PExpr.toArgs env xs = some as ∧ PExpr.plains penv xs = some vs ∧ All2 (ArgT W ty) as ts ∧
      TVal.erases ts = vs ∧ TVal.Wfs W ts ∧ as.length = xs.length
  | [], ty, _ => .inr ⟨[], [], [], rfl, rfl, .nil, rfl, trivial, rfl⟩
  | x :: xs, ty, hok => by
    simp only [PExprsOK] at hok
    simp only [PExpr.toArgs, PExpr.plains]
    rcases toArg_ok h x ty hok.1 with ⟨h1, h2⟩ | ⟨a, v, t, h1, h2, h3, h4, h5⟩
    · rw [h1, h2]; exact .inl ⟨rfl, rfl⟩
    · rcases toArgs_ok h xs ty hok.2 with ⟨g1, g2⟩ | ⟨as, vs, ts, g1, g2, g3, g4, g5, g6⟩
      · rw [h1, h2, g1, g2]; exact .inl ⟨rfl, rfl⟩
      · rw [h1, h2, g1, g2]
        refine .inr ⟨_, _, t :: ts, rfl, rfl, .cons h3 g3, ?_, ⟨h5, g5⟩, by simp [g6]⟩
        simp only [TVal.erases, h4, g4]
end

/-- Bound arguments with and without the storage. -/
theorem bindArgs_ok {env : List Ref} {penv : List Val} (h : EnvOK W env penv) : ∀ (args : List PArg),
    (∀ a ∈ args, PExprOK W a.ty a.expr) →
    (bindArgs env args = none ∧ plainArgs penv args = none) ∨
    ∃ bargs ins vs, bindArgs env args = some bargs ∧ plainArgs penv args = some ((args.map (·.name)).zip vs) ∧
      vs.length = args.length ∧ ArgsOK W bargs ins ∧ bargs.map (·.name) = args.map (·.name) ∧
      eraseIns (insVals ins) = (args.map (·.name)).zip vs ∧ eraseIns (insVals (storedIns bargs ins)) = kept args vs
  | [], _ => .inr ⟨[], [], [], rfl, rfl, rfl, .nil, rfl, rfl, rfl⟩
  | p :: ps, hok => by
    simp only [bindArgs, plainArgs]
    rcases toArg_ok h p.expr p.ty (hok p (by simp)) with ⟨h1, h2⟩ | ⟨a, v, t, h1, h2, h3, h4, h5⟩
    · rw [h1, h2]; exact .inl ⟨rfl, rfl⟩
    · rcases bindArgs_ok h ps (fun a ha => hok a (List.mem_cons_of_mem _ ha)) with ⟨g1, g2⟩ | ⟨as, ins, vs, g1, g2, g3, g4, g5, g6, g7⟩
      · rw [h1, h2, g1, g2]; exact .inl ⟨rfl, rfl⟩
      · rw [h1, h2, g1, g2]
        refine .inr ⟨_, ⟨p.name, argHid W.H p.ty a, t⟩ :: ins, v :: vs, rfl, rfl, by simp [g3], .cons ⟨rfl, rfl, h3⟩ g4, by simp [g5], ?_, ?_⟩
        · simp only [eraseIns, insVals, List.map_cons, List.map_map] at g6 ⊢
          rw [g6, h4]; rfl
        · simp only [storedIns, kept]
          by_cases hi : p.ignored
          · simp only [hi, if_true]; exact g7
          · rw [if_neg hi, if_neg hi]
            simp only [eraseIns, insVals, List.map_cons, List.map_map] at g7 ⊢
            rw [g7]; simp [h4]

theorem eraseIns_canon (ins : List (String × TVal)) : eraseIns (canon ins) = canon (eraseIns ins) := by
  have := canon_map (fun _ (t : TVal) => t.erase) ins
  exact this.symm

/-- Everything needed about one call statement. -/
theorem call_facts {d : OpDef} {args : List PArg} (hok : CmdOK W (.call d args)) {env : List Ref} {penv : List Val}
    (h : EnvOK W env penv) : (bindArgs env args = none ∧ plainArgs penv args = none) ∨
    ∃ bargs ins vals, bindArgs env args = some bargs ∧ plainArgs penv args = some vals ∧ ArgsOK W bargs ins ∧
      (bargs.map (·.name)).Nodup ∧ eraseIns (insVals ins) = vals ∧
      d.body (eraseIns (insVals ins)) = d.body (plainIns bargs ins) := by
  obtain ⟨hd, hn, hi, hargs⟩ := hok
  rcases bindArgs_ok h args hargs with h1 | ⟨bargs, ins, vs, g1, g2, g3, g4, g5, g6, g7⟩
  · exact .inl h1
  · refine .inr ⟨bargs, ins, _, g1, g2, g4, by rw [g5]; exact hn, g6, ?_⟩
    rw [plainIns, eraseIns_canon, g7, g6]
    exact hi vs g3

theorem returnsTuple_plain {nout : Nout} {ret : Val} {vs : List Val} (h : returnsTuple nout ret = .ok vs) :
    vs = plainResults ret := by
  unfold returnsTuple at h
  unfold plainResults
  cases nout <;> cases ret <;> simp_all
  · split at h <;> cases h
    rfl

theorem resOK_env {d : OpDef} {vals : List (String × Val)} {rs : List Ref} (h : ResOK W d vals rs) :
    ∃ ret, d.body vals = .ok ret ∧ EnvOK W rs (plainResults ret) := by
  obtain ⟨ret, vs, ts, h1, h2, h3, h4⟩ := h
  refine ⟨ret, h1, ?_⟩
  rw [← returnsTuple_plain h2, ← h4]
  clear h1 h2 h4
  induction h3 with
  | nil => exact .nil
  | cons h _ ih => exact .cons ⟨_, h, rfl⟩ ih

/-- One statement. -/
theorem step_ok (hW : W.Good) {c : Cmd} (hok : CmdOK W c) {env : List Ref} {penv : List Val} (henv : EnvOK W env penv)
    {s : St} (hs : Inv W s) {o : Obs} {env' : List Ref} {s' : St} (hrun : c.run W.cfg env s = (o, env', s')) :
    Inv W s' ∧ ((o = (c.plain penv).1 ∧ EnvOK W env' (c.plain penv).2) ∨ ∃ e, o = .raised e ∧ StorageErr e ∧ env' = env) := by
  have hadmin : ∀ (m : M Unit), Keeps (Inv W) m (fun _ => True) SErr → Cmd.run.admin env s m = (o, env', s') →
      Inv W s' ∧ ((o = .done ∧ EnvOK W env' penv) ∨ ∃ e, o = .raised e ∧ StorageErr e ∧ env' = env) := by
    intro m hm h
    have := hm s hs
    unfold Cmd.run.admin at h
    cases hms : m s with
    | mk x s1 =>
      rw [hms] at h this
      cases x with
      | ok a =>
        simp only [Prod.mk.injEq] at h
        obtain ⟨rfl, rfl, rfl⟩ := h
        exact ⟨this.1, .inl ⟨rfl, henv⟩⟩
      | error e =>
        simp only [Prod.mk.injEq] at h
        obtain ⟨rfl, rfl, rfl⟩ := h
        exact ⟨this.1, .inr ⟨e, rfl, storageErr_of_SErr this.2, rfl⟩⟩
  cases c with
  | call d args =>
    simp only [Cmd.run] at hrun
    simp only [Cmd.plain]
    rcases call_facts hok henv with ⟨h1, h2⟩ | ⟨bargs, ins, vals, h1, h2, h3, h4, h5, h6⟩
    · rw [h1] at hrun
      simp only [Prod.mk.injEq] at hrun
      obtain ⟨rfl, rfl, rfl⟩ := hrun
      rw [h2]
      exact ⟨hs, .inl ⟨rfl, henv⟩⟩
    · rw [h1] at hrun
      have hk := keeps_call hW hok.1 h3 h4 h6 s hs
      simp only at hrun
      rw [h2]
      simp only
      rw [h5] at h6
      cases hc : call W.cfg d bargs s with
      | mk x s1 =>
        rw [hc] at hk hrun
        cases x with
        | ok rs =>
          simp only [Prod.mk.injEq] at hrun
          obtain ⟨rfl, rfl, rfl⟩ := hrun
          obtain ⟨ret, hb, he⟩ := resOK_env hk.2.1
          rw [h6, hb]
          refine ⟨hk.1, .inl ⟨?_, ?_⟩⟩
          · simp only [Obs.returned.injEq]
            exact All2.length_eq he
          · exact All2.append henv he
        | error e =>
          simp only [Prod.mk.injEq] at hrun
          obtain ⟨rfl, rfl, rfl⟩ := hrun
          refine ⟨hk.1, ?_⟩
          rcases hk.2 with he | he
          · exact .inr ⟨e, rfl, storageErr_of_SErr he, rfl⟩
          · rw [h6, he]
            exact .inl ⟨rfl, henv⟩
  | unwrap x =>
    simp only [Cmd.run] at hrun
    simp only [Cmd.plain]
    rcases henv.get? x with ⟨h1, h2⟩ | ⟨r, v, t, h1, h2, h3, h4⟩
    · rw [h1] at hrun
      simp only [Prod.mk.injEq] at hrun
      obtain ⟨rfl, rfl, rfl⟩ := hrun
      rw [h2]
      exact ⟨hs, .inl ⟨rfl, henv⟩⟩
    · rw [h1] at hrun
      rw [h2]
      have hk := keeps_unwrapRef hW r t h3 s hs
      simp only at hrun
      cases hc : unwrapRef W.cfg r s with
      | mk x s1 =>
        rw [hc] at hk hrun
        cases x with
        | ok w =>
          simp only [Prod.mk.injEq] at hrun
          obtain ⟨rfl, rfl, rfl⟩ := hrun
          exact ⟨hk.1, .inl ⟨by rw [hk.2, h4], henv⟩⟩
        | error e =>
          simp only [Prod.mk.injEq] at hrun
          obtain ⟨rfl, rfl, rfl⟩ := hrun
          exact ⟨hk.1, .inr ⟨e, rfl, storageErr_of_SErr hk.2, rfl⟩⟩
  | commit => exact hadmin _ (keeps_commit hW) hrun
  | clearCache b => exact hadmin _ (keeps_clearCache b) hrun
  | dropCalls hids b => exact hadmin _ (keeps_dropCalls hids b) hrun
  | cleanupRefs => exact hadmin _ keeps_cleanupRefs hrun
  | preload => exact hadmin _ keeps_preload hrun
  | reopen => exact hadmin _ keeps_reopen hrun
  | allowNew b =>
    simp only [Cmd.run, Prod.mk.injEq] at hrun
    obtain ⟨rfl, rfl, rfl⟩ := hrun
    exact ⟨{ hs with }, .inl ⟨rfl, henv⟩⟩

/-- Whole programs. -/
theorem prog_ok (hW : W.Good) : ∀ (cs : List Cmd), (∀ c ∈ cs, CmdOK W c) → ∀ {env : List Ref} {penv : List Val},
    EnvOK W env penv → ∀ {s : St}, Inv W s → ∀ {os : List Obs} {env' : List Ref} {s' : St},
    runProg W.cfg env s cs = (os, env', s') → Inv W s' ∧ Agrees penv cs os ∧ ∃ penv', EnvOK W env' penv'
  | [], _, env, penv, he, s, hs, os, env', s', h => by
    simp only [runProg, Prod.mk.injEq] at h
    obtain ⟨rfl, rfl, rfl⟩ := h
    exact ⟨hs, .nil, penv, he⟩
  | c :: cs, hok, env, penv, he, s, hs, os, env', s', h => by
    simp only [runProg] at h
    cases hc : c.run W.cfg env s with
    | mk o p =>
      obtain ⟨env1, s1⟩ := p
      rw [hc] at h
      simp only at h
      obtain ⟨hs1, h1⟩ := step_ok hW (hok c (by simp)) he hs hc
      cases hr : runProg W.cfg env1 s1 cs with
      | mk os1 p =>
        obtain ⟨env2, s2⟩ := p
        rw [hr] at h
        simp only [Prod.mk.injEq] at h
        obtain ⟨rfl, rfl, rfl⟩ := h
        have hok' : ∀ c ∈ cs, CmdOK W c := fun c hc => hok c (List.mem_cons_of_mem _ hc)
        rcases h1 with ⟨rfl, h1⟩ | ⟨e, rfl, hse, rfl⟩
        · obtain ⟨g1, g2, g3⟩ := prog_ok hW cs hok' h1 hs1 hr
          exact ⟨g1, .same rfl g2, g3⟩
        · obtain ⟨g1, g2, g3⟩ := prog_ok hW cs hok' he hs1 hr
          exact ⟨g1, .failed hse g2, g3⟩

end Verif
