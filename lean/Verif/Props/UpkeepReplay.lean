import Verif.Props.Upkeep
/-!
A replay after `preload` and `cleanup_refs`; why these need conditions.
-/
namespace Verif.Props

open Verif

/-- a process that only tidies up -/
def tidy : List Cmd := [.preload, .cleanupRefs, .call Ex.inc (Ex.arg1 (.raw (.int 9))), .commit]

theorem tidy_orderly : orderly Ex.W.cfg [] (endSession Ex.W.cfg .between (commit Ex.W.cfg (runLast Ex.W.cfg (.fresh (some []) 100) earlier study).2.2).2) tidy = true := by
  set_option maxRecDepth 20000 in decide +kernel

theorem tidy_ok : ∀ c ∈ tidy, CmdOK Ex.W c := by
  have c1 := Ex.call1_ok Ex.inc_ok (Ex.wf_raw_int 9)
  intro c hc
  simp only [tidy, List.mem_cons, List.not_mem_nil, or_false] at hc
  rcases hc with rfl | rfl | rfl | rfl <;> first | exact c1 | trivial

theorem tidy_noDrop : ∀ q ∈ [(tidy, End.between)], ∀ c ∈ q.1, c.NoDrop := by
  intro q hq c hc
  simp only [List.mem_singleton] at hq
  subst hq
  simp only [tidy, List.mem_cons, List.not_mem_nil, or_false] at hc
  rcases hc with rfl | rfl | rfl | rfl <;> trivial

theorem tidied_of {s : St} (h : orderly Ex.W.cfg [] s tidy = true) : AllOrderly Ex.W s [(tidy, .between)] := ⟨orderly_sound _ tidy_ok h, trivial⟩

theorem tidied {s1 : St} (hc : commit Ex.W.cfg (runLast Ex.W.cfg (.fresh (some []) 100) earlier study).2.2 = (.ok (), s1)) :
    AllOrderly Ex.W (endSession Ex.W.cfg .between s1) [(tidy, .between)] := by
  have h := congrArg (fun x => endSession Ex.W.cfg .between x.2) hc
  exact h ▸ tidied_of tidy_orderly

seal callsReturned commitsDone in
/-- A process, its commit, a process that tidies up, then the replay. -/
theorem replay_tidied {s1 : St} (hc : commit Ex.W.cfg (runLast Ex.W.cfg (.fresh (some []) 100) earlier study).2.2 = (.ok (), s1)) :
    Replays Ex.W.cfg (runSessions Ex.W.cfg (endSession Ex.W.cfg .between s1) [(tidy, .between)]) study := by
  have h1 : ∀ j, (some [] : Option (Joblib Val)) = some j → j = [] := fun j h => by cases h; rfl
  have h2 : 0 < Ex.W.cfg.fuel := by decide
  have h3 : SizedProg Ex.W.cfg.fuel [] study := study_sized
  have hk := study_ok (.fresh (some []) 100)
  have h := C62_replay_upkeep_partial Ex.W Ex.good (some []) 100 h1 earlier (allOrderly_of _ hk.before) study hk.stmts hk.commits study_noDrop study_flat h3 h2
  have h4 := h study_returned s1 hc .between [(tidy, .between)]
  exact h4 (tidied hc) tidy_noDrop

example : ∃ s1, commit Ex.W.cfg (runLast Ex.W.cfg (.fresh (some []) 100) earlier study).2.2 = (.ok (), s1) ∧
    Replays Ex.W.cfg (runSessions Ex.W.cfg (endSession Ex.W.cfg .between s1) [(tidy, .between)]) study :=
  have h := ok_of study_commits
  ⟨_, h, replay_tidied h⟩

set_option maxRecDepth 20000 in
/-- The condition on `preload` is needed: run with something uncommitted, it forgets that but not that it is to be committed, and the commit fails. -/
theorem C61_refuted_preload : (runProg Ex.W.cfg [] (.fresh none 100) [.call Ex.upto (Ex.arg1 (.raw (.int 2))), .preload, .commit]).1 =
    [.returned 1, .done, .raised .keyError] := by decide +kernel

set_option maxRecDepth 20000 in
/-- The condition on `cleanup_refs` is needed: after `clear_cache`, a dropped call is still found in the cache of calls, but its output is gone. -/
theorem C61_refuted_cleanup : (runProg Ex.W.cfg [] (.fresh none 100) [.clearCache false, .call Ex.inc (Ex.arg1 (.raw (.int 5))), .commit, .dropCalls [incHid 5] false,
    .cleanupRefs, .call Ex.inc (Ex.arg1 (.raw (.int 5)))]).1 = [.done, .returned 1, .done, .done, .done, .raised .keyError] := by decide +kernel

end Verif.Props
