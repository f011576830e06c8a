import Verif.Proofs.Recorded
import Verif.Examples.World
/-!
C01, C02: memoization is transparent; a recorded call is not executed again.
-/
namespace Verif.Props

open Verif

/-- C01. A program of op calls, unwraps and any storage maintenance (commits, cache clears, drops, cleanup, preloading,
re-opening, forbidding new calls), run from a fresh storage, shows what the same program of plain function calls
shows, statement by statement; a statement may only fail instead with an exception of the storage's own. -/
theorem C01_memoization_transparent (W : World) (hW : W.Good) (prog : List Cmd) (hok : ∀ c ∈ prog, CmdOK W c) (thr : Nat)
    (overflow : Bool) :
    Agrees [] prog (runProg W.cfg [] (.fresh (if overflow then some [] else none) thr) prog).1 := by
  have hinv : Inv W (.fresh (if overflow then some [] else none) thr) := by
    refine inv_fresh _ _ ?_
    intro j hj
    cases overflow with
    | true => cases hj; exact DictAll.nil
    | false => cases hj
  exact (prog_ok hW prog hok (env := []) (penv := []) .nil hinv rfl).2.1

/-- The hypotheses are met by a program with memoized calls, list arguments, ignored arguments, a commit, a re-open
and a user exception. -/
example : Agrees [] Ex.prog (runProg Ex.W.cfg [] (.fresh none 100) Ex.prog).1 :=
  C01_memoization_transparent Ex.W Ex.good Ex.prog Ex.prog_ok 100 false

/-- The plain program. -/
example : (Ex.prog.foldl (fun (p : List Obs × List Val) c => (p.1 ++ [(c.plain p.2).1], (c.plain p.2).2)) ([], [])).1 =
    [.returned 1, .returned 1, .returned 1, .returned 2, .done, .done, .returned 2, .returned 1,
      .raised (.userError 1), .returned 1, .value (.int 7), .value (.int 6), .value (.int 24),
      .value (.list [.int 0, .int 1, .int 2])] := by decide

example : Cmd.Safe .commit ∧ Cmd.Safe (.clearCache false) ∧ Cmd.Safe .cleanupRefs ∧ ¬ Cmd.Safe .reopen ∧
    ¬ Cmd.Safe (.clearCache true) ∧ ¬ Cmd.Safe .preload := by simp [Cmd.Safe]

/-- The function bodies executed by a program. -/
def executed (W : World) (thr : Nat) (prog : List Cmd) : List (String × List (String × Val)) :=
  (runProg W.cfg [] (.fresh none thr) prog).2.2.log

/-- The last observation of a program. -/
def lastObs (W : World) (thr : Nat) (prog : List Cmd) : Option Obs :=
  (runProg W.cfg [] (.fresh none thr) prog).1.getLast?

theorem prog_state (W : World) (hW : W.Good) {thr : Nat} {p : List Cmd} (hp : ∀ c ∈ p, CmdOK W c) :
    Inv W (runProg W.cfg [] (.fresh none thr) p).2.2 ∧ ∃ penv, EnvOK W (runProg W.cfg [] (.fresh none thr) p).2.1 penv := by
  have := prog_ok hW p hp (env := []) (penv := []) .nil (s := .fresh none thr) (inv_fresh _ _ nofun) rfl
  exact ⟨this.1, this.2.2⟩

/-- After `p`, the call completes. -/
theorem completes (W : World) (hW : W.Good) {thr : Nat} {p : List Cmd} (hp : ∀ c ∈ p, CmdOK W c) (hnd : ∀ c ∈ p, c.NoDrop)
    {d : OpDef} {args : List PArg} (hc : CmdOK W (.call d args)) {n : Nat}
    (hret : lastObs W thr (p ++ [.call d args]) = some (.returned n)) :
    ∃ bargs, bindArgs (runProg W.cfg [] (.fresh none thr) p).2.1 args = some bargs ∧
      Coh (runProg W.cfg [] (.fresh none thr) (p ++ [.call d args])).2.2 ∧
      (runProg W.cfg [] (.fresh none thr) (p ++ [.call d args])).2.2.calls.exists_ (callHidOf W d bargs) = true ∧
      ∃ new, (runProg W.cfg [] (.fresh none thr) (p ++ [.call d args])).2.1 = (runProg W.cfg [] (.fresh none thr) p).2.1 ++ new := by
  obtain ⟨hinv, penv, henv⟩ := prog_state W hW (thr := thr) hp
  have hcoh := (growsP_prog W.cfg p [] (.fresh none thr) hnd (coh_fresh _ _)).1
  unfold lastObs at hret
  rw [runProg_append] at hret ⊢
  generalize hs : (runProg W.cfg [] (St.fresh none thr) p) = r at *
  obtain ⟨os, env, s⟩ := r
  simp only [runProg] at hret ⊢
  simp only [List.getLast?_append, List.getLast?_singleton, Option.some_or, Option.some.injEq] at hret
  simp only at henv hinv hcoh
  rcases call_facts hc henv with ⟨h1, _⟩ | ⟨bargs, ins, vals, h1, h2, h3, h4, h5, h6⟩
  · rw [Cmd.run, h1] at hret; cases hret
  · refine ⟨bargs, h1, ?_⟩
    have hg := grows_call W.cfg d bargs s hcoh
    rw [Cmd.run, h1] at hret ⊢
    simp only at hret ⊢
    cases hcall : call W.cfg d bargs s with
    | mk x s' =>
      rw [hcall] at hret hg
      cases x with
      | error e => cases hret
      | ok rs => exact ⟨hg.1, call_recorded hW hc.1 h3 h4 h6 hinv hcoh hcall, rs, rfl⟩

/-- Two runs of the same call on the state reached. -/
theorem no_rerun (W : World) (hW : W.Good) {thr : Nat} {p q : List Cmd} (hp : ∀ c ∈ p, CmdOK W c) (hq : ∀ c ∈ q, CmdOK W c)
    {d : OpDef} {args : List PArg} (hc : CmdOK W (.call d args)) {bargs : List BArg}
    (hb : bindArgs (runProg W.cfg [] (.fresh none thr) p).2.1 args = some bargs)
    (hex : (runProg W.cfg [] (.fresh none thr) (p ++ q)).2.2.calls.exists_ (callHidOf W d bargs) = true) :
    executed W thr (p ++ q ++ [.call d args]) = executed W thr (p ++ q) := by
  obtain ⟨hinv, penv, henv⟩ := prog_state W hW (thr := thr) (p := p ++ q)
    (fun c h => (List.mem_append.1 h).elim (hp c) (hq c))
  have hb' : bindArgs (runProg W.cfg [] (.fresh none thr) (p ++ q)).2.1 args = some bargs := by
    rw [runProg_append]
    obtain ⟨new, hn⟩ := env_prog W.cfg q (runProg W.cfg [] (.fresh none thr) p).2.1 (runProg W.cfg [] (.fresh none thr) p).2.2
    simp only
    rw [hn]
    exact bindArgs_append _ _ _ _ hb
  unfold executed
  rw [runProg_append]
  simp only [runProg]
  rw [Cmd.run, hb']
  rcases call_facts hc henv with ⟨h1, _⟩ | ⟨bargs', ins, vals, h1, h2, h3, h4, h5, h6⟩
  · rw [hb'] at h1; cases h1
  · rw [hb'] at h1
    cases h1
    have := call_hit (d := d) hW h3 hinv hex
    simp only
    cases hcall : call W.cfg d bargs (runProg W.cfg [] (St.fresh none thr) (p ++ q)).2.2 with
    | mk x s' =>
      rw [hcall] at this
      cases x <;> exact this

/-- C02. Once a call has completed (it returned normally), repeating it does not run a function body: after any
statements that neither drop calls nor throw away uncommitted data, and, if a commit has succeeded in between, after any
statements that do not drop calls (in particular after re-opening the database). What it returns is settled by C01. -/
theorem C02_recorded_call_not_executed_again (W : World) (hW : W.Good) (thr : Nat) (p q q' : List Cmd) (d : OpDef)
    (args : List PArg) (hp : ∀ c ∈ p, CmdOK W c) (hq : ∀ c ∈ q, CmdOK W c) (hq' : ∀ c ∈ q', CmdOK W c)
    (hc : CmdOK W (.call d args)) (hnd : ∀ c ∈ p, c.NoDrop) (hsafe : ∀ c ∈ q, c.Safe) (hnd' : ∀ c ∈ q', c.NoDrop) (n : Nat)
    (hret : lastObs W thr (p ++ [.call d args]) = some (.returned n)) :
    executed W thr (p ++ [.call d args] ++ q ++ [.call d args]) = executed W thr (p ++ [.call d args] ++ q) ∧
    (lastObs W thr (p ++ [.call d args] ++ q ++ [.commit]) = some .done →
      executed W thr (p ++ [.call d args] ++ q ++ [.commit] ++ q' ++ [.call d args]) =
        executed W thr (p ++ [.call d args] ++ q ++ [.commit] ++ q')) := by
  obtain ⟨bargs, hb, hcoh, hex, new, hnew⟩ := completes W hW hp hnd hc hret
  have hp1 : ∀ c ∈ p ++ [.call d args], CmdOK W c := by
    intro c h
    rcases List.mem_append.1 h with h | h
    · exact hp c h
    · rw [List.mem_singleton.1 h]; exact hc
  have hb1 : bindArgs (runProg W.cfg [] (.fresh none thr) (p ++ [.call d args])).2.1 args = some bargs := by
    rw [hnew]; exact bindArgs_append _ _ _ _ hb
  have hg := grows_prog W.cfg q (runProg W.cfg [] (.fresh none thr) (p ++ [.call d args])).2.1
    (runProg W.cfg [] (.fresh none thr) (p ++ [.call d args])).2.2 hsafe hcoh
  have hstate : (runProg W.cfg [] (.fresh none thr) (p ++ [.call d args] ++ q)).2.2 =
      (runProg W.cfg (runProg W.cfg [] (.fresh none thr) (p ++ [.call d args])).2.1
        (runProg W.cfg [] (.fresh none thr) (p ++ [.call d args])).2.2 q).2.2 := by
    rw [runProg_append W.cfg (p ++ [Cmd.call d args]) q]
  rw [← hstate] at hg
  refine ⟨no_rerun W hW hp1 hq hc hb1 (hg.2.1 _ hex), fun hdone => ?_⟩
  have hcommit : Coh (runProg W.cfg [] (.fresh none thr) (p ++ [.call d args] ++ q ++ [.commit])).2.2 ∧
      sqlExists (runProg W.cfg [] (.fresh none thr) (p ++ [.call d args] ++ q ++ [.commit])).2.2.calls.pers
        (callHidOf W d bargs) = true := by
    unfold lastObs at hdone
    rw [runProg_append W.cfg (p ++ [Cmd.call d args] ++ q) [.commit]] at hdone ⊢
    simp only [runProg, List.getLast?_append, List.getLast?_singleton, Option.some_or, Option.some.injEq] at hdone ⊢
    rw [Cmd.run, Cmd.run.admin] at hdone ⊢
    have hgc := grows_commit W.cfg _ hg.1
    cases hcm : commit W.cfg (runProg W.cfg [] (St.fresh none thr) (p ++ [.call d args] ++ q)).2.2 with
    | mk x s' =>
      rw [hcm] at hdone hgc
      cases x with
      | error e => cases hdone
      | ok _ => exact ⟨hgc.1, commit_persists hg.1 hcm (hg.2.1 _ hex)⟩
  have hgp := growsP_prog W.cfg q' (runProg W.cfg [] (.fresh none thr) (p ++ [.call d args] ++ q ++ [.commit])).2.1 _ hnd' hcommit.1
  have hstate' : (runProg W.cfg [] (.fresh none thr) (p ++ [.call d args] ++ q ++ [.commit] ++ q')).2.2 =
      (runProg W.cfg (runProg W.cfg [] (.fresh none thr) (p ++ [.call d args] ++ q ++ [.commit])).2.1
        (runProg W.cfg [] (.fresh none thr) (p ++ [.call d args] ++ q ++ [.commit])).2.2 q').2.2 := by
    rw [runProg_append W.cfg (p ++ [Cmd.call d args] ++ q ++ [Cmd.commit]) q']
  rw [← hstate'] at hgp
  have := no_rerun W hW (p := p ++ [.call d args]) (q := q ++ [.commit] ++ q') hp1 (thr := thr) (by
      intro c h
      simp only [List.mem_append, List.mem_singleton] at h
      rcases h with (h | rfl) | h
      · exact hq c h
      · trivial
      · exact hq' c h) hc hb1 (by
      have h2 := hgp.2 _ hcommit.2
      rw [exists_iff]
      right
      simpa only [List.append_assoc] using h2)
  simpa only [List.append_assoc] using this

/-- A case: `inc(5)`, then a commit, a re-open and other statements, then `inc(5)` again. -/
example : executed Ex.W 100 ([] ++ [.call Ex.inc (Ex.arg1 (.raw (.int 5)))] ++ [.unwrap 0] ++ [.commit] ++ [.reopen, .clearCache true] ++
      [.call Ex.inc (Ex.arg1 (.raw (.int 5)))]) =
    executed Ex.W 100 ([] ++ [.call Ex.inc (Ex.arg1 (.raw (.int 5)))] ++ [.unwrap 0] ++ [.commit] ++ [.reopen, .clearCache true]) := by
  refine (C02_recorded_call_not_executed_again Ex.W Ex.good 100 [] [.unwrap 0] [.reopen, .clearCache true] _ _ (by simp) (by simp [CmdOK])
    (by simp [CmdOK]) (Ex.call1_ok Ex.inc_ok (Ex.wf_raw_int 5)) (by simp) (by simp [Cmd.Safe]) (by simp [Cmd.NoDrop]) 1 ?_).2 ?_
  · decide +kernel
  · decide +kernel

/-- In this case the function is executed once. -/
example : (executed Ex.W 100 [.call Ex.inc (Ex.arg1 (.raw (.int 5))), .commit, .reopen,
    .call Ex.inc (Ex.arg1 (.raw (.int 5)))]).length = 1 := by decide +kernel

end Verif.Props
