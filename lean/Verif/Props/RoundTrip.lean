import Verif.Proofs.FirmRun
import Verif.Props.Integrity
/-!
C07: what was stored can be loaded, also in later processes. C61: when calls and unwraps do not fail.
-/
namespace Verif.Props

open Verif

/-- C61: whatever happened in earlier processes (which may have been killed at any point) and earlier in this one, a call within the limits
of the storage (`CallFitsIn`) is answered: with the value the function returns or the exception it raises, never
with an exception of the storage; and results other than lists of collections can be unwrapped. Partial: calls of sessions with
`cleanup_refs`, `preload`, or failed commits are not covered. -/
theorem C61_answered_within_limits_partial (W : World) (hW : W.Good) (o : Option (Joblib Val)) (thr : Nat) (ho : ∀ j, o = some j → j = [])
    (ps : List (List Cmd × End)) (p : List Cmd) (h : RunOK W (.fresh o thr) ps p) :
    Answers W.cfg.fuel true [] [] p (runLast W.cfg (.fresh o thr) ps p).1 :=
  (fsess_run hW (sess_fresh W o thr ho) ⟨rfl, rfl⟩ h).2

/-- C07 for results of calls: the result can be unwrapped; loading the ref by its history id gives the same value; and so it does
at any point of any later process, once a commit went through. Partial: not for ops that return lists of
collections, for which it is false (`C07_refuted`). -/
theorem C07_results_load_partial (W : World) (hW : W.Good) (o : Option (Joblib Val)) (thr : Nat) (ho : ∀ j, o = some j → j = [])
    (ps : List (List Cmd × End)) (p : List Cmd) (h : RunOK W (.fresh o thr) ps p) (hflat : ∀ d args, Cmd.call d args ∈ p → OutsFlat d) (hfu : 0 < W.cfg.fuel)
    (r : Ref) (hr : r ∈ (runLast W.cfg (.fresh o thr) ps p).2.1) :
    ∃ v, (unwrapRef W.cfg r (runLast W.cfg (.fresh o thr) ps p).2.2).1 = .ok v ∧
      (v.height < W.cfg.fuel → Loads W r.hid v (runLast W.cfg (.fresh o thr) ps p).2.2) := by
  obtain ⟨⟨orig, h1, h2⟩, _⟩ := fsess_run hW (sess_fresh W o thr ho) ⟨rfl, rfl⟩ h
  obtain ⟨i, hi⟩ := List.mem_iff_getElem?.1 hr
  have hfl := h1.flat.flat hi (fun d hd => by
    obtain ⟨args, ha⟩ := h2 d (List.mem_of_getElem? hd)
    exact hflat d args ha)
  obtain ⟨penv, he⟩ : ∃ penv, EnvOK W (runLast W.cfg (.fresh o thr) ps p).2.1 penv := by
    obtain ⟨_, _, g⟩ := fsess_prog hW p h.stmts (penv := []) All2.nil
      (FSess.start (sessions_ok hW ps (sess_fresh W o thr ho) h.before) (by
        rw [(sessions_cache (W := W) ps (s := .fresh o thr) ⟨rfl, rfl⟩).1]; exact memFull_empty)) h.commits
    exact g
  obtain ⟨v, t, _, h3, h4⟩ : ∃ v t, penv[i]? = some v ∧ RefOK W r t ∧ t.erase = v := by
    rcases he.get? i with ⟨g1, _⟩ | ⟨r', v, t, g1, g2, g3, g4⟩
    · rw [g1] at hi; cases hi
    · rw [g1] at hi; cases hi; exact ⟨v, t, g2, g3, g4⟩
  have hB := h1.base
  have hu := firm_unwrapRef hW hB r t h3 _ hB.refl
  have hft := hfl t h3
  have hfi := (h1.firm r hr).1 t h3 hft
  refine ⟨v, ?_, fun hv => ?_⟩
  · cases hc : unwrapRef W.cfg r (runLast W.cfg (.fresh o thr) ps p).2.2 with
    | mk y s1 =>
      rw [hc] at hu
      cases y with
      | ok w => rw [hu.2, h4]
      | error e => exact absurd ⟨hfu, hfi⟩ hu.2
  · rw [← h4]
    exact loads_of hW h1.sess h1.full h3.prov (h1.firm r hr).2 hft (t.fits_of_height _ (by rw [h4]; exact hv))

/-- C07 for values that are stored explicitly, at any point of a session: `construct` and `save_ref` succeed, and the value can be loaded, then
and at any point of any later process, once a commit went through. Partial: not at types with lists of collections, for which it is
false. -/
theorem C07_stored_values_load_partial (W : World) (hW : W.Good) (o : Option (Joblib Val)) (thr : Nat) (ho : ∀ j, o = some j → j = [])
    (ps : List (List Cmd × End)) (p : List Cmd) (h : RunOK W (.fresh o thr) ps p) (ha : (runLast W.cfg (.fresh o thr) ps p).2.2.allowNew = true)
    (ty : Ty) (v : Val) (hv : PExprOK W ty (.raw v)) (hty : FlatTy ty) (hn : v.height < W.cfg.fuel) :
    ∃ k s1, storeValue W.cfg ty v (runLast W.cfg (.fresh o thr) ps p).2.2 = (.ok k, s1) ∧ Loads W k v s1 := by
  obtain ⟨⟨orig, h1, _⟩, _⟩ := fsess_run hW (sess_fresh W o thr ho) ⟨rfl, rfl⟩ h
  simp only [PExprOK] at hv
  obtain ⟨t, h2, h3⟩ := hv
  exact store_loads hW h1 ha h2 h3 hty hn

theorem commitsDone_of : ∀ (cs : List Cmd) (os : List Obs), (∀ c ∈ cs, c ≠ .commit) → commitsDone cs os
  | [], os, _ => by cases os <;> exact trivial
  | c :: cs, [], _ => by cases c <;> exact trivial
  | c :: cs, o :: os, h => by
    have h1 := h c (by simp)
    have h2 := commitsDone_of cs os (fun c hc => h c (List.mem_cons_of_mem _ hc))
    cases c with
    | commit => exact absurd rfl h1
    | _ => exact h2

theorem runOK_of {W : World} {s0 : St} {ps : List (List Cmd × End)} {p : List Cmd} (h1 : SessionsOK W s0 ps) (h2 : ∀ c ∈ p, CmdOK W c ∧ c.InSession)
    (h3 : ∀ c ∈ p, c ≠ .commit) : RunOK W s0 ps p := ⟨h1, h2, commitsDone_of _ _ h3⟩

/-- `xs = upto(4); a = inc(5); t = total([a, 1]); print(xs); upto(4)` -/
def fourth : List Cmd := [.call Ex.upto (Ex.arg1 (.raw (.int 4))), .call Ex.inc (Ex.arg1 (.raw (.int 5))),
  .call Ex.total (Ex.totalArgs [.var 1, .raw (.int 1)]), .unwrap 0, .call Ex.upto (Ex.arg1 (.raw (.int 4)))]

theorem fourth_ok (s0 : St) : RunOK Ex.W s0 threeProcesses fourth := by
  refine runOK_of (threeProcesses_ok s0) ?_ ?_
  · have hv : PExprOK Ex.W .atom (.var 1) := by simp only [PExprOK]
    have c1 := Ex.call1_ok Ex.inc_ok (Ex.wf_raw_int 5)
    have c2 : CmdOK Ex.W (.call Ex.total (Ex.totalArgs [.var 1, .raw (.int 1)])) := Ex.total_call_ok (fun e he => by
      simp only [List.mem_cons, List.not_mem_nil, or_false] at he
      rcases he with rfl | rfl
      · exact hv
      · exact Ex.wf_raw_int _)
    have c3 := Ex.call1_ok Ex.upto_ok (Ex.wf_raw_int 4)
    intro c hc
    simp only [fourth, List.mem_cons, List.not_mem_nil, or_false] at hc
    rcases hc with rfl | rfl | rfl | rfl | rfl
    · exact ⟨c3, trivial⟩
    · exact ⟨c1, trivial⟩
    · exact ⟨c2, trivial⟩
    · exact ⟨trivial, trivial⟩
    · exact ⟨c3, trivial⟩
  · intro c hc
    simp only [fourth, List.mem_cons, List.not_mem_nil, or_false] at hc
    rcases hc with rfl | rfl | rfl | rfl | rfl <;> nofun

/-- The hypotheses hold for this process after the three processes of C08. -/
example : Answers 10 true [] [] fourth (runLast Ex.W.cfg (.fresh (some []) 100) threeProcesses fourth).1 :=
  C61_answered_within_limits_partial Ex.W Ex.good (some []) 100 (fun j h => by cases h; rfl) _ _ (fourth_ok _)

theorem upto_flat : OutsFlat Ex.upto := by
  intro ins ret outs h hp
  simp only [Ex.upto] at h
  split at h <;> cases h
  cases hp
  intro p hp
  cases hp with
  | head => rfl
  | tail _ h => cases h

theorem upto_fits (env : List Val) (orig : List OpDef) (n : Nat) : CallFitsIn 10 env orig Ex.upto (Ex.arg1 (.raw (.int n))) where
  flat a ha := by
    simp only [Ex.arg1, List.mem_singleton] at ha
    subst ha
    simp [FlatExpr, FlatTy]
  flatOut := upto_flat
  depth vals h p hp := by
    cases h
    simp only [List.mem_singleton] at hp
    subst hp
    simp [Val.height]
  pos := by decide
  returns vals ret h hb := by
    cases h
    cases hb
    refine ⟨⟨_, rfl⟩, fun v hv => ?_, .inl ⟨_, List.mem_singleton.2 rfl, rfl⟩⟩
    simp only [plainResults, List.mem_singleton] at hv
    subst hv
    have : ∀ l : List Nat, Val.heights (l.map fun (i : Nat) => Val.int i) = 0 := by
      intro l
      induction l with
      | nil => rfl
      | cons a l ih => simp [Val.heights, Val.height, ih]
    simp [Val.height, this]

/-- In every state, `upto(n)` must be answered if new calls are allowed; so must unwrapping its result. -/
example (env : List Val) (n : Nat) : MustAnswer 10 true env [] (.call Ex.upto (Ex.arg1 (.raw (.int n)))) := ⟨rfl, upto_fits env [] n⟩
example (env : List Val) : MustAnswer 10 true env [Ex.upto] (.unwrap 0) := ⟨by decide, fun d hd => by cases hd; exact upto_flat⟩

/-- A statement that must be answered shows what it shows without the storage. -/
theorem Answers.head {fuel : Nat} {b : Bool} {env : List Val} {orig : List OpDef} {c : Cmd} {cs : List Cmd} {o : Obs} {os : List Obs}
    (h : Answers fuel b env orig (c :: cs) (o :: os)) (hm : MustAnswer fuel b env orig c) : o = (c.plain env).1 := by
  cases h with
  | same h _ => rw [h]
  | failed h _ _ => exact absurd hm h

set_option maxRecDepth 20000 in
example : (runLast Ex.W.cfg (.fresh (some []) 100) threeProcesses fourth).1 =
    [.returned 1, .returned 1, .returned 1, .value (.list [.int 0, .int 1, .int 2, .int 3]), .returned 1] := by decide +kernel

/-- A stored dictionary of lists: the hypotheses hold. -/
example : ∃ k s1, storeValue Ex.W.cfg (.coll .dict (.coll .list .atom)) (.dict ["a", "b"] [.list [.int 1, .int 2], .list [.int 1]])
      (runLast Ex.W.cfg (.fresh (some []) 100) threeProcesses fourth).2.2 = (.ok k, s1) ∧
    Loads Ex.W k (.dict ["a", "b"] [.list [.int 1, .int 2], .list [.int 1]]) s1 := by
  have ha : (runLast Ex.W.cfg (.fresh (some []) 100) threeProcesses fourth).2.2.allowNew = true := by
    set_option maxRecDepth 20000 in decide +kernel
  refine C07_stored_values_load_partial Ex.W Ex.good (some []) 100 (fun j h => by cases h; rfl) _ _ (fourth_ok _) ha _ _ ?_ (by simp [FlatTy]) (by decide)
  simp only [PExprOK]
  refine ⟨.coll .dict ["a", "b"] [.coll .list [] [.atom (.int 1), .atom (.int 2)], .coll .list [] [.atom (.int 1)]], ?_, ?_⟩
  · simp only [ValT]
    exact ⟨["a", "b"], _, _, rfl, rfl, ⟨rfl, by decide, by decide⟩, .cons ⟨[], _, _, rfl, rfl, rfl, .cons rfl (.cons rfl .nil)⟩
      (.cons ⟨[], _, _, rfl, rfl, rfl, .cons rfl .nil⟩ .nil)⟩
  · have h1 := Ex.wf_int 1
    have h2 := Ex.wf_int 2
    simp only [TVal.Wf] at h1 h2
    simp [TVal.Wf, TVal.Wfs, KeysOK, h1, h2]

/-- `def table(x) -> MList[MList[int]]: return [[x]]` -/
def table : OpDef where
  name := "table"
  version := 0
  nout := .auto
  outNames := none
  ann := .single (.coll .list (.coll .list .atom))
  body := fun vals => match Ex.intArg vals "x" with
    | some n => .ok (.list [.list [.int n]])
    | none => .error (.userError 0)

set_option maxRecDepth 20000 in
/-- C07 (and C01) are false for lists of lists: the table is unwrapped by the process that computed it; the next process
gets the recorded call, but cannot unwrap its output (storage.py:283-287). -/
theorem C07_refuted :
    (runProg Ex.W.cfg [] (.fresh none 100)
      [.call table (Ex.arg1 (.raw (.int 5))), .unwrap 0, .commit, .reopen, .call table (Ex.arg1 (.raw (.int 5))), .unwrap 1]).1 =
    [.returned 1, .value (.list [.list [.int 5]]), .done, .done, .returned 1, .raised .assertionError] := by decide +kernel

end Verif.Props
