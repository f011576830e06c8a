import Verif.Proofs.Content
import Verif.Props.Creator
/-!
C03: calls with equal content are not recomputed.
-/
namespace Verif.Props

open Verif

/-- The stored arguments with their content ids. -/
def contents (W : World) (args : List BArg) : List (String × String) :=
  (args.filter fun a => !a.ignored).map fun a => (a.name, argCid W.H a.ty a.arg)

/-- The arguments of a statement as bound after a program. -/
def boundAfter (W : World) (thr : Nat) (prog : List Cmd) (args : List PArg) : Option (List BArg) :=
  bindArgs (runProg W.cfg [] (.fresh none thr) prog).2.1 args

theorem executed_call (W : World) (hW : W.Good) {thr : Nat} {p : List Cmd} (hp : ∀ c ∈ p, CmdOK W c)
    {d : OpDef} {args : List PArg} (hc : CmdOK W (.call d args)) {bargs : List BArg}
    (hb : boundAfter W thr p args = some bargs)
    (hex : (stateAfter W thr p).calls.exists_ (callHidOf W d bargs) = true ∨
      (stateAfter W thr p).calls.cache.existsContent (callCidOf W d bargs) = true) :
    executed W thr (p ++ [.call d args]) = executed W thr p := by
  obtain ⟨hinv, penv, henv⟩ := prog_state W hW (thr := thr) hp
  unfold boundAfter at hb
  unfold stateAfter at hex
  unfold executed
  rw [runProg_append]
  simp only [runProg]
  rw [Cmd.run, hb]
  rcases call_facts hc henv with ⟨h1, _⟩ | ⟨bargs', ins, vals, h1, h2, h3, h4, h5, h6⟩
  · rw [hb] at h1; cases h1
  · rw [hb] at h1
    cases h1
    have := call_content (d := d) hW h3 hinv hex
    simp only
    cases hcall : call W.cfg d bargs (runProg W.cfg [] (St.fresh none thr) p).2.2 with
    | mk x s' =>
      rw [hcall] at this
      cases x <;> exact this

/-- C03, while the earlier call is in the cache. (1) Let a call have run its function and returned. After any further
calls, unwraps, commits and clean-ups, a call of the same op on arguments with the same content ids (whatever their
histories) does not run the function. (2) After opening a database and preloading it, a call with the content id of any
call in the database does not run the function.
Missing: calls that are in the database only; for them the claim is false (`C03_refuted_cold_cache`). -/
theorem C03_equal_content_partial (W : World) (hW : W.Good) (thr : Nat) (p q : List Cmd) (d : OpDef) (args args' : List PArg)
    (hp : ∀ c ∈ p, CmdOK W c) (hq : ∀ c ∈ q, CmdOK W c) (hc : CmdOK W (.call d args)) (hc' : CmdOK W (.call d args')) :
    (∀ bargs bargs' n, (∀ c ∈ q, c.Warm) → boundAfter W thr p args = some bargs →
      boundAfter W thr (p ++ [.call d args] ++ q) args' = some bargs' → contents W bargs = contents W bargs' →
      executed W thr (p ++ [.call d args]) ≠ executed W thr p →
      lastObs W thr (p ++ [.call d args]) = some (.returned n) →
      executed W thr (p ++ [.call d args] ++ q ++ [.call d args']) = executed W thr (p ++ [.call d args] ++ q)) ∧
    (∀ bargs, boundAfter W thr (p ++ [.reopen, .preload]) args = some bargs →
      (∃ r ∈ (stateAfter W thr p).calls.pers, r.callCid = callId W.H d.name d.version (contents W bargs)) →
      executed W thr (p ++ [.reopen, .preload] ++ [.call d args]) = executed W thr (p ++ [.reopen, .preload])) := by
  constructor
  · intro bargs bargs' n hwarm hb hb' hcont hexec hret
    refine executed_call W hW ?_ hc' hb' ?_
    · intro c h
      simp only [List.mem_append, List.mem_singleton] at h
      rcases h with (h | rfl) | h
      · exact hp c h
      · exact hc
      · exact hq c h
    · obtain ⟨hinv, penv, henv⟩ := prog_state W hW (thr := thr) hp
      have hstate : stateAfter W thr (p ++ [.call d args] ++ q) = (runProg W.cfg (runProg W.cfg [] (.fresh none thr) (p ++ [.call d args])).2.1
          (stateAfter W thr (p ++ [.call d args])) q).2.2 := by
        unfold stateAfter
        rw [runProg_append W.cfg (p ++ [Cmd.call d args]) q]
      have hwp := warmer_prog W.cfg q (runProg W.cfg [] (.fresh none thr) (p ++ [.call d args])).2.1
        (stateAfter W thr (p ++ [.call d args])) hwarm
      rw [← hstate] at hwp
      have hinv1 := (prog_state W hW (thr := thr) (p := p ++ [.call d args]) (by
        intro c h
        simp only [List.mem_append, List.mem_singleton] at h
        rcases h with h | rfl
        · exact hp c h
        · exact hc)).1
      have hw := hwp hinv1.cache.2
      have hfirst : (stateAfter W thr (p ++ [.call d args])).calls.cache.exists_ (callHidOf W d bargs) = true ∧
          ((bargs.filter fun a => !a.ignored) = [] ∨
            ∃ r ∈ (stateAfter W thr (p ++ [.call d args])).calls.cache.df, r.callCid = callCidOf W d bargs) := by
        clear hw hwp hstate hinv1 hb'
        unfold boundAfter at hb
        unfold executed at hexec
        unfold lastObs at hret
        unfold stateAfter
        rw [runProg_append] at hexec hret ⊢
        simp only [runProg] at hexec hret ⊢
        simp only [List.getLast?_append, List.getLast?_singleton, Option.some_or, Option.some.injEq] at hret
        rw [Cmd.run, hb] at hexec hret ⊢
        rcases call_facts hc henv with ⟨h1, _⟩ | ⟨bargs', ins, vals, h1, h2, h3, h4, h5, h6⟩
        · rw [hb] at h1; cases h1
        · rw [hb] at h1
          cases h1
          simp only at hexec hret ⊢
          cases hcall : call W.cfg d bargs (runProg W.cfg [] (St.fresh none thr) p).2.2 with
          | mk x s' =>
            rw [hcall] at hexec hret
            cases x with
            | error e => cases hret
            | ok rs => exact call_warms hW h3 hinv hcall hexec
      rcases hfirst.2 with h | ⟨r, hr, hrc⟩
      · left
        have h' : (bargs'.filter fun a => !a.ignored) = [] := by
          unfold contents at hcont
          rw [h] at hcont
          exact List.map_eq_nil_iff.1 hcont.symm
        have : callHidOf W d bargs' = callHidOf W d bargs := by
          unfold callHidOf
          rw [h, h']
        rw [this, exists_iff]
        exact .inl (hw.2.1 _ hfirst.1)
      · right
        unfold InMem.existsContent
        rw [List.any_eq_true]
        refine ⟨r, hw.2.2 r hr, ?_⟩
        have : callCidOf W d bargs' = callCidOf W d bargs := by
          unfold callCidOf
          unfold contents at hcont
          rw [hcont]
        rw [this]
        simp [hrc]
  · rintro bargs hb ⟨r, hr, hrc⟩
    refine executed_call W hW ?_ hc hb (.inr ?_)
    · intro c h
      simp only [List.mem_append, List.mem_cons, List.not_mem_nil, or_false] at h
      rcases h with h | rfl | rfl
      · exact hp c h
      · trivial
      · trivial
    · have : (stateAfter W thr (p ++ [.reopen, .preload])).calls.cache.df = (stateAfter W thr p).calls.pers := by
        unfold stateAfter
        rw [runProg_append]
        rfl
      unfold InMem.existsContent
      rw [this, List.any_eq_true]
      exact ⟨r, hr, by simp [hrc, callCidOf, contents]⟩

/-- `inc(5)`, `inc` of the result, then `inc(6)`: the content is that of the second call. -/
example : executed Ex.W 100 ([.call Ex.inc (Ex.arg1 (.raw (.int 5)))] ++ [.call Ex.inc (Ex.arg1 (.var 0))] ++ [.commit, .unwrap 1] ++
      [.call Ex.inc (Ex.arg1 (.raw (.int 6)))]) =
    executed Ex.W 100 ([.call Ex.inc (Ex.arg1 (.raw (.int 5)))] ++ [.call Ex.inc (Ex.arg1 (.var 0))] ++ [.commit, .unwrap 1]) := by
  refine (C03_equal_content_partial Ex.W Ex.good 100 [.call Ex.inc (Ex.arg1 (.raw (.int 5)))] [.commit, .unwrap 1] Ex.inc
    (Ex.arg1 (.var 0)) (Ex.arg1 (.raw (.int 6))) ?_ (by simp [CmdOK]) (Ex.call1_ok Ex.inc_ok trivial)
    (Ex.call1_ok Ex.inc_ok (Ex.wf_raw_int 6))).1 _ _ 1 (by simp [Cmd.Warm]) rfl rfl ?_ ?_ ?_
  · intro c h
    rw [List.mem_singleton.1 h]
    exact Ex.call1_ok Ex.inc_ok (Ex.wf_raw_int 5)
  · decide +kernel
  · decide +kernel
  · decide +kernel

/-- The same with a database opened anew and preloaded. -/
example : executed Ex.W 100 ([.call Ex.inc (Ex.arg1 (.raw (.int 5))), .call Ex.inc (Ex.arg1 (.var 0)), .commit] ++ [.reopen, .preload] ++
      [.call Ex.inc (Ex.arg1 (.raw (.int 6)))]) =
    executed Ex.W 100 ([.call Ex.inc (Ex.arg1 (.raw (.int 5))), .call Ex.inc (Ex.arg1 (.var 0)), .commit] ++ [.reopen, .preload]) := by
  refine (C03_equal_content_partial Ex.W Ex.good 100 [.call Ex.inc (Ex.arg1 (.raw (.int 5))), .call Ex.inc (Ex.arg1 (.var 0)), .commit] []
    Ex.inc (Ex.arg1 (.raw (.int 6))) [] ?_ (by simp) (Ex.call1_ok Ex.inc_ok (Ex.wf_raw_int 6)) ?_).2 _ rfl ?_
  · intro c h
    simp only [List.mem_cons, List.not_mem_nil, or_false] at h
    rcases h with rfl | rfl | rfl
    · exact Ex.call1_ok Ex.inc_ok (Ex.wf_raw_int 5)
    · exact Ex.call1_ok Ex.inc_ok trivial
    · trivial
  · refine ⟨Ex.inc_ok, by simp, ?_, by simp⟩
    intro vs hvs
    match vs, hvs with
    | [], _ => rfl
  · decide +kernel

/-- After re-opening the database, `inc(6)` runs the function again although `inc` has been recorded on a value with the
same content; the same with the cache cleared. (Without the re-open it is found.) -/
theorem C03_refuted_cold_cache :
    let p : List Cmd := [.call Ex.inc (Ex.arg1 (.raw (.int 5))), .call Ex.inc (Ex.arg1 (.var 0)), .commit]
    let again : Cmd := .call Ex.inc (Ex.arg1 (.raw (.int 6)))
    (∃ r ∈ (stateAfter Ex.W 100 p).calls.pers, some r.callCid = (boundAfter Ex.W 100 (p ++ [.reopen]) (Ex.arg1 (.raw (.int 6)))).map
      (callCidOf Ex.W Ex.inc)) ∧
    (executed Ex.W 100 p).length = 2 ∧ (executed Ex.W 100 (p ++ [again])).length = 2 ∧
    (executed Ex.W 100 (p ++ [.reopen, again])).length = 3 ∧
    (executed Ex.W 100 (p ++ [.clearCache false, again])).length = 3 := by
  decide +kernel

end Verif.Props
