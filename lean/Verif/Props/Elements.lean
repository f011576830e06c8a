import Verif.Proofs.Elements
import Verif.Props.RoundTrip
/-!
C53: the elements of returned collections are outputs of recorded element accesses.
-/
namespace Verif.Props

open Verif

/-- C53: whatever earlier processes (each killed at any point) and the current one did before: when a call executes its function and returns,
then of every collection in its results, however nested, all elements are in memory and each of them is the recorded output of the recorded call
that takes the element at that position out of that collection. Partial: `hlog`; for a call answered from an earlier call with other inputs of the same
content it is false (`C53_refuted`). -/
theorem C53_elements_recorded_partial (W : World) (hW : W.Good) (o : Option (Joblib Val)) (thr : Nat) (ho : ∀ j, o = some j → j = [])
    (ps : List (List Cmd × End)) (p : List Cmd) (h : RunOK W (.fresh o thr) ps p) (d : OpDef) (args : List PArg) (hok : CmdOK W (.call d args))
    (n : Nat) (env' : List Ref) (s' : St)
    (hrun : (Cmd.call d args).run W.cfg (runLast W.cfg (.fresh o thr) ps p).2.1 (runLast W.cfg (.fresh o thr) ps p).2.2 = (.returned n, env', s'))
    (hlog : s'.log ≠ (runLast W.cfg (.fresh o thr) ps p).2.2.log) :
    ∃ rs, env' = (runLast W.cfg (.fresh o thr) ps p).2.1 ++ rs ∧ rs.length = n ∧ ∀ r ∈ rs, Each (AccessRow W.H s'.rows) r := by
  obtain ⟨⟨orig, h1, h2⟩, _⟩ := fsess_run hW (sess_fresh W o thr ho) ⟨rfl, rfl⟩ h
  obtain ⟨penv, he⟩ : ∃ penv, EnvOK W (runLast W.cfg (.fresh o thr) ps p).2.1 penv := by
    obtain ⟨_, _, g⟩ := fsess_prog hW p h.stmts (penv := []) All2.nil
      (FSess.start (sessions_ok hW ps (sess_fresh W o thr ho) h.before) (by
        rw [(sessions_cache (W := W) ps (s := .fresh o thr) ⟨rfl, rfl⟩).1]; exact memFull_empty)) h.commits
    exact g
  have h4 : ∀ r ∈ env', ∃ t, RefOK W r t := by
    obtain ⟨_, ⟨_, g⟩ | ⟨e, g, _⟩⟩ := step_ok hW hok he h1.sess.inv hrun
    · intro r hr
      obtain ⟨i, hi⟩ := List.mem_iff_getElem?.1 hr
      rcases g.get? i with ⟨g1, _⟩ | ⟨r', v, t, g1, g2, g3, g4⟩
      · rw [g1] at hi; cases hi
      · rw [g1] at hi; cases hi; exact ⟨t, g3⟩
    · cases g
  have h3 := (fsess_call hW h1 he hok).1
  rw [hrun] at h3
  simp only [Cmd.run] at hrun
  rcases call_facts hok he with ⟨b1, _⟩ | ⟨bargs, ins, vals, b1, b2, b3, b4, b5, b6⟩
  · rw [b1] at hrun
    simp at hrun
  rw [b1] at hrun
  dsimp only at hrun
  cases hc : call W.cfg d bargs (runLast W.cfg (.fresh o thr) ps p).2.2 with
  | mk x s1 =>
    cases x with
    | error e => rw [hc] at hrun; simp at hrun
    | ok rs =>
      rw [hc] at hrun
      simp only [Prod.mk.injEq, Obs.returned.injEq] at hrun
      obtain ⟨rfl, rfl, rfl⟩ := hrun
      exact ⟨rs, rfl, rfl, elements_call hW hok.1 b3 b4 b6 h1.sess.inv hc hlog h3.sess.inv h3.full (fun r hr => h4 r (List.mem_append_right _ hr))⟩

/-- `inc(1); commit` -/
def oneProcess : List (List Cmd × End) := [([.call Ex.inc (Ex.arg1 (.raw (.int 1))), .commit], .between)]

/-- `y = inc(1)` -/
def second : List Cmd := [.call Ex.inc (Ex.arg1 (.raw (.int 1)))]

theorem second_ok (s0 : St) : RunOK Ex.W s0 oneProcess second := by
  have c1 := Ex.call1_ok Ex.inc_ok (Ex.wf_raw_int 1)
  refine runOK_of (sessionsOK_of _ _ (fun pe hpe => ?_)) ?_ ?_
  · simp only [oneProcess, List.mem_singleton] at hpe
    subst hpe
    refine ⟨fun c hc => ?_, by simp⟩
    simp only [List.mem_cons, List.not_mem_nil, or_false] at hc
    rcases hc with rfl | rfl
    · exact ⟨c1, trivial⟩
    · exact ⟨trivial, trivial⟩
  · intro c hc
    simp only [second, List.mem_singleton] at hc
    subst hc
    exact ⟨c1, trivial⟩
  · intro c hc
    simp only [second, List.mem_singleton] at hc
    subst hc
    nofun

/-- `upto(y)` -/
def uptoVar : Cmd := .call Ex.upto (Ex.arg1 (.var 0))

set_option maxRecDepth 20000 in
theorem uptoVar_runs :
    (uptoVar.run Ex.W.cfg (runLast Ex.W.cfg (.fresh (some []) 100) oneProcess second).2.1 (runLast Ex.W.cfg (.fresh (some []) 100) oneProcess second).2.2).1 = .returned 1 ∧
    (uptoVar.run Ex.W.cfg (runLast Ex.W.cfg (.fresh (some []) 100) oneProcess second).2.1 (runLast Ex.W.cfg (.fresh (some []) 100) oneProcess second).2.2).2.2.log.length ≠
      (runLast Ex.W.cfg (.fresh (some []) 100) oneProcess second).2.2.log.length := by decide +kernel

/-- The theorem applies to this call, which returns the list `[0, 1]`. -/
example (env' : List Ref) (s' : St)
    (he : (uptoVar.run Ex.W.cfg (runLast Ex.W.cfg (.fresh (some []) 100) oneProcess second).2.1 (runLast Ex.W.cfg (.fresh (some []) 100) oneProcess second).2.2).2 = (env', s')) :
    ∃ rs, env' = (runLast Ex.W.cfg (.fresh (some []) 100) oneProcess second).2.1 ++ rs ∧ rs.length = 1 ∧ ∀ r ∈ rs, Each (AccessRow encH s'.rows) r :=
  C53_elements_recorded_partial Ex.W Ex.good (some []) 100 (fun j h => by cases h; rfl) oneProcess second (second_ok _) Ex.upto (Ex.arg1 (.var 0))
    (Ex.call1_ok Ex.upto_ok (by simp only [PExprOK])) 1 env' s' (Prod.ext uptoVar_runs.1 he) (fun h => uptoVar_runs.2 (by rw [he, h]))

/-- `x = upto(1); y = inc(0); z = upto(y)` -/
def sameContent : List Cmd := [.call Ex.upto (Ex.arg1 (.raw (.int 1))), .call Ex.inc (Ex.arg1 (.raw (.int 0))), .call Ex.upto (Ex.arg1 (.var 1))]

/-- The history id of `x` and of `z`. -/
def uptoHid (h : String) : String := outHid encH (callId encH "upto" 0 [("x", h)]) "output_0"

/-- The history ids of the elements. -/
def eltHids : Ref → List String
  | .coll _ _ _ _ _ es => es.map Ref.hid
  | .atom .. => []

set_option maxRecDepth 20000 in
/-- C53 is false for calls answered from a call with other inputs of the same content: the elements of `z` are on record as elements of `x`, and
the calls taking them out of `z` are not on record (storage.py:639-695, 773-936). -/
theorem C53_refuted :
    (runProg Ex.W.cfg [] (.fresh none 100) sameContent).1 = [.returned 1, .returned 1, .returned 1] ∧
    (runProg Ex.W.cfg [] (.fresh none 100) sameContent).2.1.map (fun r => (r.hid, eltHids r)) =
      [(uptoHid (rawHid encH (.int 1)), [outHid encH (accessId encH .list (uptoHid (rawHid encH (.int 1))) (.int 0)) (getitemOut .list)]),
       (outHid encH (incHid 0) "output_0", []),
       (uptoHid (outHid encH (incHid 0) "output_0"), [outHid encH (accessId encH .list (uptoHid (rawHid encH (.int 1))) (.int 0)) (getitemOut .list)])] ∧
    ((runProg Ex.W.cfg [] (.fresh none 100) sameContent).2.2.rows.all fun r =>
      r.callHid ≠ accessId encH .list (uptoHid (outHid encH (incHid 0) "output_0")) (.int 0)) = true := by
  decide +kernel

end Verif.Props
