import Verif.Proofs.FirmProg
/-!
Records stay in the database; what is loaded from them is the value that was stored.
-/
namespace Verif

section
variable {W : World}

/-- There is a record in the database. -/
def PHas (s : St) (h : String) : Prop := ∃ r, s.shapes.pers.get h = .ok r

theorem PHas.has {s : St} {h : String} (hp : PHas s h) : Has (reopen s).2.shapes h := by
  obtain ⟨r, hr⟩ := hp
  exact ⟨r, by simp only [reopen, open_get]; exact hr⟩

theorem phas_cmd {c : Cmd} (hin : c.InSession) {s : St} {env : List Ref} (h : Sess W s env)
    {k : String} (hk : PHas s k) : PHas (c.run W.cfg env s).2.2 k := by
  have hadm : ∀ (m : M Unit), (Cmd.run.admin env s m).2.2 = (m s).2 := by
    intro m; unfold Cmd.run.admin; cases m s with | mk x s' => cases x <;> rfl
  have same : ∀ s' : St, s'.shapes.pers = s.shapes.pers → PHas s' k := fun s' e => by unfold PHas; rw [e]; exact hk
  cases c with
  | call d args =>
    simp only [Cmd.run]
    cases bindArgs env args with
    | none => exact hk
    | some bs =>
      have hp := pres_call SessR.writes.toUnwraps W.cfg sessR_saveCall d bs s
      simp only
      cases hc : call W.cfg d bs s with
      | mk x s' => rw [hc] at hp; cases x <;> exact same _ hp.shapes
  | unwrap x =>
    simp only [Cmd.run]
    cases env[x]? with
    | none => exact hk
    | some r =>
      have hp := pres_unwrapRef SessR.writes.toUnwraps W.cfg r s
      simp only
      cases hc : unwrapRef W.cfg r s with
      | mk x s' => rw [hc] at hp; cases x <;> exact same _ hp.shapes
  | commit =>
    simp only [Cmd.run, hadm]
    cases hc : commit W.cfg s with
    | mk x s' =>
      cases x with
      | ok _ =>
        obtain ⟨_, c2, _⟩ := commit_parts hc
        obtain ⟨r1, r2⟩ := commit_reads (P := fun _ _ => True) h.shapes (.inl h.ovfS) c2 k
        obtain ⟨r, hr⟩ := hk
        have : ∃ v, (s.shapes.get k).1 = .ok v := by
          have := exists_iff_has (d := s.shapes) (k := k)
          refine this.1 ?_
          have h2 : s.shapes.pers.exists_ k = true := sql_exists_iff.2 ⟨r, hr⟩
          unfold CachedDict.exists_
          split
          · rfl
          · exact h2
        obtain ⟨v, hv⟩ := this
        exact ⟨v, by rw [r2, r1]; exact hv⟩
      | error e =>
        obtain ⟨_, _, h4, _⟩ := commit_failed hc
        unfold PHas
        rw [(h4 h.ovfS).1]
        exact hk
  | clearCache b =>
    cases hin
    simp only [Cmd.run, hadm]
    obtain ⟨_, p2, _⟩ := clear_parts (s := s) (b := false)
    exact same _ (clean_step h.shapes p2).2.1
  | dropCalls hs b =>
    simp only [Cmd.run, hadm]
    exact same _ (by rw [(dropCalls_sub hs b s).2.1])
  | allowNew b => exact hk
  | cleanupRefs => exact absurd hin id
  | preload => exact absurd hin id
  | reopen => exact absurd hin id

theorem phas_prog (hW : W.Good) {k : String} : ∀ (cs : List Cmd), (∀ c ∈ cs, CmdOK W c ∧ c.InSession) → ∀ {env : List Ref} {penv : List Val},
    EnvOK W env penv → ∀ {s : St}, Sess W s env → commitsGo cs (runProg W.cfg env s cs).1 → PHas s k → PHas (runProg W.cfg env s cs).2.2 k
  | [], _, _, _, _, _, _, _, hk => hk
  | c :: cs, hok, env, penv, he, s, h, hg, hk => by
    simp only [runProg] at hg ⊢
    obtain ⟨h1, h2⟩ := commitsGo_cons hg
    obtain ⟨h3, h4⟩ := sess_cmd hW (hok c (by simp)).1 (hok c (by simp)).2 h he
    have hk' := phas_cmd (hok c (by simp)).2 h hk
    by_cases hcs : cs = []
    · subst hcs; exact hk'
    · obtain ⟨_, h5⟩ := step_ok hW (hok c (by simp)).1 he h.inv (o := (c.run W.cfg env s).1) (env' := (c.run W.cfg env s).2.1)
        (s' := (c.run W.cfg env s).2.2) rfl
      have he' : ∃ penv', EnvOK W (c.run W.cfg env s).2.1 penv' := by
        rcases h5 with ⟨_, h5⟩ | ⟨_, _, _, h5⟩
        · exact ⟨_, h5⟩
        · exact ⟨penv, by rw [h5]; exact he⟩
      obtain ⟨penv', he'⟩ := he'
      exact phas_prog hW cs (fun c hc => hok c (List.mem_cons_of_mem _ hc)) he' (h3 (h1 hcs)) h2 hk'

theorem phas_end {s : St} {k : String} (h : PHas s k) : ∀ (e : End), PHas (endSession W.cfg e s) k
  | .between => h
  | .inCommit _ => h

theorem endSession_sess {s : St} (h : DbOK W s) (e : End) : Sess W (endSession W.cfg e s) [] := by
  have h1 := h.end_ e
  have h2 := h1.start
  cases e <;> exact h2

theorem phas_sessions (hW : W.Good) {k : String} : ∀ (ps : List (List Cmd × End)) {s : St}, Sess W s [] → SessionsOK W s ps → PHas s k →
    PHas (runSessions W.cfg s ps) k
  | [], _, _, _, hk => hk
  | (p, e) :: ps, s, h, hok, hk => by
    simp only [runSessions]
    have h1 := sess_prog hW p hok.1 (env := []) (penv := []) All2.nil h hok.2.1
    exact phas_sessions hW ps (endSession_sess h1 e) hok.2.2 (phas_end (phas_prog hW p hok.1 (penv := []) All2.nil h hok.2.1 hk) e)

/-- The cache of calls of a process that just started is empty. -/
theorem sessions_cache : ∀ (ps : List (List Cmd × End)) {s : St}, s.calls.cache = .empty ∧ s.allowNew = true →
    (runSessions W.cfg s ps).calls.cache = .empty ∧ (runSessions W.cfg s ps).allowNew = true
  | [], _, h => h
  | (_, .between) :: ps, _, _ => sessions_cache ps ⟨rfl, rfl⟩
  | (_, .inCommit _) :: ps, _, _ => sessions_cache ps ⟨rfl, rfl⟩

theorem memFull_empty : MemFull W .empty := by intro h hh; simp [InMem.empty] at hh

/-- A record that was committed is there in all later processes. -/
theorem phas_commit {s s1 : St} {env : List Ref} (h : Sess W s env) {k : String} (hk : Has s.shapes k)
    (hc : commit W.cfg s = (.ok (), s1)) : PHas s1 k := by
  obtain ⟨_, c2, _⟩ := commit_parts hc
  obtain ⟨r1, r2⟩ := commit_reads (P := fun _ _ => True) h.shapes (.inl h.ovfS) c2 k
  obtain ⟨v, hv⟩ := hk
  exact ⟨v, by rw [r2, r1]; exact hv⟩

/-- Loading and unwrapping gives the value the record stands for. -/
theorem load_unwrap (hW : W.Good) {s : St} (hB : Base W s) {h : String} {t : TVal} (hp : Prov W h t) (hh : Has s.shapes h) (hf : t.Flat)
    (hn : t.Fits W.cfg.fuel) (b : Bool) : ((do let r ← loadRef W.cfg.fuel h b; unwrapRef W.cfg r : M Val) s).1 = .ok t.erase := by
  have hk : Keeps (During W s) (do let r ← loadRef W.cfg.fuel h b; unwrapRef W.cfg r : M Val) (fun v => v = t.erase) (fun _ => False) := by
    refine Keeps.bind ((firm_loadRef hW hB W.cfg.fuel h b).mono (fun _ h => h) (fun _ hc => hc ⟨hh, fun t' ht' => ?_⟩)) (fun r hr => ?_)
    · rw [ht'.det hW hp]; exact hn
    · obtain ⟨⟨⟨h1, t', ht'⟩, _⟩, h2⟩ := hr
      have : t' = t := ht'.prov.det hW (h1 ▸ hp)
      subst this
      exact (firm_unwrapRef hW hB r t' ht').mono (fun _ h => h) (fun _ hc => hc ⟨hn.pos, h2 t' hp hf⟩)
  have := hk s hB.refl
  cases hm : (do let r ← loadRef W.cfg.fuel h b; unwrapRef W.cfg r : M Val) s with
  | mk x s' =>
    rw [hm] at this
    cases x with
    | ok v => rw [this.2]
    | error e => exact absurd this.2 id
end
end Verif
