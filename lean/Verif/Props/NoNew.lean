import Verif.Proofs.NoNew
import Verif.Props.Creator
/-!
C21: forbidding new calls forbids execution.
-/
namespace Verif.Props

open Verif

/-- Statements of a region in which new calls are forbidden: they do not allow them again, and the process goes on. -/
def StaysForbidden : Cmd → Prop
  | .allowNew b => b = false
  | .reopen => False
  | _ => True

theorem noExec_cmd (cfg : Cfg) (env : List Ref) (s : St) {c : Cmd} (hc : StaysForbidden c) : NoExec s (c.run cfg env s).2.2 := by
  cases c with
  | call d args =>
    simp only [Cmd.run]
    cases bindArgs env args with
    | none => exact NoExec.ord.refl s
    | some bargs =>
      have := noExec_call cfg d bargs s
      simp only
      cases hm : call cfg d bargs s with
      | mk x s' => rw [hm] at this; cases x <;> exact this
  | unwrap x =>
    simp only [Cmd.run]
    cases env[x]? with
    | none => exact NoExec.ord.refl s
    | some r =>
      have := (quiet_unwrapRef cfg r).noExec s
      simp only
      cases hm : unwrapRef cfg r s with
      | mk x s' => rw [hm] at this; cases x <;> exact this
  | commit => exact Pres.admin (noExec_commit cfg) env s
  | clearCache b => exact Pres.admin (noExec_clearCache b) env s
  | dropCalls hs b => exact Pres.admin (noExec_dropCalls hs b) env s
  | cleanupRefs => exact Pres.admin noExec_cleanupRefs env s
  | preload => exact Pres.admin noExec_preload env s
  | reopen => exact hc.elim
  | allowNew b => simp only [StaysForbidden] at hc; subst hc; exact fun _ => ⟨rfl, rfl⟩

theorem noExec_prog (cfg : Cfg) : ∀ (cs : List Cmd) (env : List Ref) (s : St), (∀ c ∈ cs, StaysForbidden c) →
    NoExec s (runProg cfg env s cs).2.2
  | [], _, s, _ => NoExec.ord.refl s
  | c :: cs, env, s, h => by
    simp only [runProg]
    exact NoExec.ord.trans (noExec_cmd cfg env s (h c (by simp)))
      (noExec_prog cfg cs _ _ (fun c hc => h c (List.mem_cons_of_mem _ hc)))

/-- C21, execution: after any program whatsoever, no statement of a region in which new calls are forbidden executes a
function body. (No assumption on ops, arguments or the storage.) -/
theorem C21_no_execution (W : World) (thr : Nat) (p q : List Cmd) (hq : ∀ c ∈ q, StaysForbidden c) :
    executed W thr (p ++ [.allowNew false] ++ q) = executed W thr p := by
  unfold executed
  rw [runProg_append, runProg_append]
  simp only [runProg, Cmd.run]
  exact (noExec_prog W.cfg q _ _ hq rfl).2

/-- A region with a recorded call, a new call and maintenance. -/
example : executed Ex.W 100 ([.call Ex.inc (Ex.arg1 (.raw (.int 5)))] ++ [.allowNew false] ++
    [.call Ex.inc (Ex.arg1 (.raw (.int 5))), .call Ex.inc (Ex.arg1 (.raw (.int 6))), .commit, .clearCache true]) =
    executed Ex.W 100 [.call Ex.inc (Ex.arg1 (.raw (.int 5)))] :=
  C21_no_execution Ex.W 100 _ _ (by simp [StaysForbidden])

/-- In such a region a recorded call is answered and a new one is refused. -/
example : (runProg Ex.W.cfg [] (.fresh none 100) [.call Ex.inc (Ex.arg1 (.raw (.int 5))), .allowNew false,
    .call Ex.inc (Ex.arg1 (.raw (.int 5))), .call Ex.inc (Ex.arg1 (.raw (.int 6)))]).1 =
    [.returned 1, .done, .returned 1, .raised .runtimeError] := by decide +kernel

/-- C21, recording: while new calls are forbidden, an op call (in any state of the storage) adds only rows of calls that
have the content id of a call that was recorded before.
Missing: that nothing is recorded at all, which is false (`C21_recording_refuted`). -/
theorem C21_records_known_contents_partial (cfg : Cfg) (d : OpDef) (args : List BArg) (s : St) (hs : s.allowNew = false)
    (r' : Row) (hnew : r' ∈ (call cfg d args s).2.calls.cache.df ++ (call cfg d args s).2.calls.pers) :
    r' ∈ s.calls.cache.df ++ s.calls.pers ∨ ∃ r ∈ s.calls.cache.df, r.callCid = r'.callCid := by
  unfold call at hnew
  have hq := noExec_callInternal cfg d args s hs
  cases hi : callInternal cfg d args s with
  | mk x s1 =>
    have hcalls : s1.calls = s.calls := by
      unfold callInternal at hi
      cases hw : wrapInputs cfg args s with
      | mk y s2 =>
        have hq1 := quiet_wrapInputs cfg args s
        rw [hw] at hq1
        cases y with
        | error e => rw [bind_err hw] at hi; cases hi; exact hq1.calls
        | ok p =>
          rw [bind_eq hw] at hi
          dsimp only at hi
          cases hl : lookupCall cfg d.name d.version d.outNames p.1 s2 with
          | mk z s3 =>
            have hq2 := quiet_lookupCall cfg d.name d.version d.outNames p.1 s2
            rw [hl] at hq2
            cases z with
            | error e => rw [bind_err hl] at hi; cases hi; exact hq2.calls.trans hq1.calls
            | ok o =>
              rw [bind_eq hl] at hi
              cases o with
              | some c => cases hi; exact hq2.calls.trans hq1.calls
              | none =>
                have ha : s3.allowNew = false := by
                  have h5 : s2.allowNew = s.allowNew := hq1.allowNew
                  have h6 : s3.allowNew = s2.allowNew := hq2.allowNew
                  rw [h6, h5, hs]
                dsimp only at hi
                rw [bind_eq (m := M.read fun s => s.allowNew) (a := s3.allowNew) (s1 := s3) rfl, ha] at hi
                cases hi
                exact hq2.calls.trans hq1.calls
    cases x with
    | error e =>
      rw [bind_err hi] at hnew
      simp only [hcalls] at hnew
      exact .inl hnew
    | ok p =>
      rw [bind_eq hi] at hnew
      have hk := callInternal_known hs hi
      have hks : ∀ c ∈ p.1 :: p.2, Known s c := by
        intro c hc
        rcases List.mem_cons.1 hc with rfl | hc
        · exact hk.1
        · exact hk.2 c hc
      dsimp only at hnew
      have hfold : ∃ x, M.forM' saveCall (p.1 :: p.2) s1 = (x, ((saveCall p.1 >>= fun _ => M.forM' saveCall p.2 >>= fun _ =>
          (M.lift (orderedOutputs d.outNames p.1.outputs) : M (List Ref))) s1).2) := by
        show ∃ x, (saveCall p.1 >>= fun _ => M.forM' saveCall p.2) s1 = _
        cases h1 : saveCall p.1 s1 with
        | mk y s2 =>
          cases y with
          | error e => rw [bind_err h1, bind_err h1]; exact ⟨_, rfl⟩
          | ok _ =>
            rw [bind_eq h1, bind_eq h1]
            cases h2 : M.forM' saveCall p.2 s2 with
            | mk z s3 =>
              cases z with
              | error e => rw [bind_err h2]; exact ⟨_, rfl⟩
              | ok _ => rw [bind_eq h2]; exact ⟨_, rfl⟩
      obtain ⟨x, hx⟩ := hfold
      have hadd := saves_adds _ _ _ _ hx
      rcases List.mem_append.1 hnew with h1 | h1
      · rcases hadd.2 r' h1 with h2 | ⟨c, hc, h2, h3, h4⟩
        · rw [hcalls] at h2; exact .inl (List.mem_append_left _ h2)
        · rcases hks c hc with h5 | ⟨r, hr, h5⟩
          · rw [hcalls, h5] at h4; cases h4
          · exact .inr ⟨r, hr, h5.trans h3.symm⟩
      · rw [hadd.1, hcalls] at h1
        exact .inl (List.mem_append_right _ h1)

/-- `inc(6)` and `a = inc(5)` are recorded; with new calls forbidden, `inc(a)` is answered (its content is that of
`inc(6)`) and recorded. -/
def contentHit : List Cmd :=
  [.call Ex.inc (Ex.arg1 (.raw (.int 6))), .call Ex.inc (Ex.arg1 (.raw (.int 5))), .allowNew false]

/-- The hypotheses of the partial theorem are met. -/
example : (stateAfter Ex.W 100 contentHit).allowNew = false := by decide +kernel

/-- C21 is false as far as recording goes: a call that was not recorded before is recorded although new calls are
forbidden. -/
theorem C21_recording_refuted : ∃ h, (stateAfter Ex.W 100 contentHit).calls.exists_ h = false ∧
    (stateAfter Ex.W 100 (contentHit ++ [.call Ex.inc (Ex.arg1 (.var 1))])).calls.exists_ h = true :=
  ⟨callId encH "inc" 0 [("x", outHid encH (callId encH "inc" 0 [("x", rawHid encH (.int 5))]) "output_0")], by decide +kernel⟩

end Verif.Props
