import Verif.Proofs.Replay
import Verif.Props.NoNew
import Verif.Props.RoundTrip
/-!
C21: recorded calls are answered when new calls are forbidden. C62: a finished computation can be replayed.
-/
namespace Verif.Props

open Verif

theorem coh_empty {s : St} (h : s.calls.cache = .empty) : Coh s := by
  intro x hx
  rw [h] at hx
  simp [InMem.empty, InMem.exists_] at hx

theorem end_calls (cfg : Cfg) (e : End) (s : St) : (endSession cfg e s).calls.cache = .empty ∧ (endSession cfg e s).allowNew = true ∧
    (endSession cfg e s).calls.pers = s.calls.pers := by cases e <;> exact ⟨rfl, rfl, rfl⟩

theorem sessions_rows (cfg : Cfg) : ∀ (ps : List (List Cmd × End)) {s : St}, s.calls.cache = .empty → (∀ q ∈ ps, ∀ c ∈ q.1, c.NoDrop) → ∀ x,
    sqlExists s.calls.pers x = true → sqlExists (runSessions cfg s ps).calls.pers x = true
  | [], _, _, _, _, h => h
  | (p, e) :: ps, s, hc, hnd, x, h => by
    simp only [runSessions]
    have h1 := (growsP_prog cfg p [] s (hnd (p, e) (List.mem_cons_self ..)) (coh_empty hc)).2 x h
    obtain ⟨g1, _, g3⟩ := end_calls cfg e (runProg cfg [] s p).2.2
    exact sessions_rows cfg ps g1 (fun q hq => hnd q (List.mem_cons_of_mem _ hq)) x (by rw [g3]; exact h1)

/-- C21: in every state of every process, whether or not new calls are allowed, a call that is on record with the calls building its
arguments is answered like the plain function (within the recursion limit). -/
theorem C21_recorded_answered_partial (W : World) (hW : W.Good) (o : Option (Joblib Val)) (thr : Nat) (ho : ∀ j, o = some j → j = [])
    (ps : List (List Cmd × End)) (p : List Cmd) (h : RunOK W (.fresh o thr) ps p) (d : OpDef) (args : List PArg) (hc : CmdOK W (.call d args)) :
    let r := runLast W.cfg (.fresh o thr) ps p
    ∃ penv, EnvOK W r.2.1 penv ∧ ∀ bargs, bindArgs r.2.1 args = some bargs →
      (∀ x ∈ callHidOf W d bargs :: structHidsOf W bargs, r.2.2.calls.exists_ x = true) → CallSized W.cfg.fuel penv d args →
      ((Cmd.call d args).run W.cfg r.2.1 r.2.2).1 = ((Cmd.call d args).plain penv).1 := by
  intro r
  obtain ⟨⟨orig, h1, _⟩, _, penv, he⟩ := fsess_prog hW p h.stmts (penv := []) All2.nil
    (FSess.start (sessions_ok hW ps (sess_fresh W o thr ho) h.before) (by
      rw [(sessions_cache (W := W) ps (s := .fresh o thr) ⟨rfl, rfl⟩).1]; exact memFull_empty)) h.commits
  refine ⟨penv, he, fun bargs hb hx hs => ?_⟩
  obtain ⟨_, h2⟩ := fsess_call hW h1 he hc
  refine (h2 (fun bargs' ins vals k1 k2 k3 k4 k5 => ?_)).1
  have : bargs' = bargs := Option.some.inj (k1.symm.trans hb)
  subst this
  refine ⟨lookOK_of hW hc.1 k1 k2 k3 k4 k5 hs, fun a ha x hx' => .inr (hx x (List.mem_cons_of_mem _ ?_)), .inl ?_⟩
  · exact List.mem_flatMap.2 ⟨a, ha, hx'⟩
  · rw [insHids_storedIns k3]
    exact hx _ (List.mem_cons_self ..)

/-- C62: a program all of whose calls returned and were committed, run again in any later process (provided that no calls were dropped) with new
calls forbidden, shows what the plain functions return, and executes nothing. Partial: not for ops that return lists of collections
(`C07_refuted`). -/
theorem C62_replay_partial (W : World) (hW : W.Good) (o : Option (Joblib Val)) (thr : Nat) (ho : ∀ j, o = some j → j = [])
    (ps : List (List Cmd × End)) (p : List Cmd) (h : RunOK W (.fresh o thr) ps p) (hnd : ∀ c ∈ p, c.NoDrop)
    (hflat : ∀ d args, Cmd.call d args ∈ p → OutsFlat d) (hsz : SizedProg W.cfg.fuel [] p) (hfu : 0 < W.cfg.fuel)
    (hret : callsReturned p (runLast W.cfg (.fresh o thr) ps p).1) (s1 : St) (hc : commit W.cfg (runLast W.cfg (.fresh o thr) ps p).2.2 = (.ok (), s1))
    (e : End) (qs : List (List Cmd × End)) (hq : SessionsOK W (endSession W.cfg e s1) qs) (hndq : ∀ q ∈ qs, ∀ c ∈ q.1, c.NoDrop) :
    Replays W.cfg (runSessions W.cfg (endSession W.cfg e s1) qs) p := by
  have h0 := sess_fresh W o thr ho
  obtain ⟨c1, _⟩ := sessions_cache (W := W) ps (s := .fresh o thr) ⟨rfl, rfl⟩
  have hS := sessions_ok hW ps h0 h.before
  obtain ⟨⟨orig, h1, _⟩, _⟩ := fsess_run hW h0 ⟨rfl, rfl⟩ h
  have hsafe : ∀ c ∈ p, CmdOK W c ∧ c.Safe := fun c hcm => ⟨(h.stmts c hcm).1, safe_of (h.stmts c hcm).2 (hnd c hcm)⟩
  have hrecs := recs_of hW p hsafe (penv := []) (env := []) All2.nil hS.inv (coh_empty c1) hret
  have hg := grows_prog W.cfg p [] (runSessions W.cfg (.fresh o thr) ps) (fun c hcm => (hsafe c hcm).2) (coh_empty c1)
  obtain ⟨e1, e2, e3⟩ := end_calls W.cfg e s1
  have hS1 := endSession_sess (sess_commit_ok hW h1.sess hc).dbOK e
  obtain ⟨c3, c4⟩ := sessions_cache (W := W) qs ⟨e1, e2⟩
  have hS2 := sessions_ok hW qs hS1 hq
  let s2 := runSessions W.cfg (endSession W.cfg e s1) qs
  have hf2 : FSess W s2 [] [] := FSess.start hS2 (by rw [c3]; exact memFull_empty)
  have hf2' : FSess W { s2 with allowNew := false } [] [] := by
    have := (fsess_cmd hW (c := .allowNew false) trivial trivial hf2 (penv := []) All2.nil nofun).1
    exact this
  have hT : ∀ x, (runLast W.cfg (.fresh o thr) ps p).2.2.calls.exists_ x = true → sqlExists { s2 with allowNew := false }.calls.pers x = true :=
    fun x hx => sessions_rows W.cfg qs e1 hndq x (by rw [e3]; exact commit_persists hg.1 hc hx)
  have hrep := replay hW hfu p h.stmts hflat (env1 := []) (env2 := []) (penv := []) All2.nil All2.nil rfl hS.inv hf2' (by simp) hrecs hret hsz
    (coh_empty (s := { s2 with allowNew := false }) c3) hT
  refine ⟨?_, ?_⟩
  · show (Cmd.allowNew false :: p.filter Cmd.isQuery |> runProg W.cfg [] s2).1 = _
    simp only [runProg, Cmd.run]
    exact congrArg _ hrep
  · show (Cmd.allowNew false :: p.filter Cmd.isQuery |> runProg W.cfg [] s2).2.2.log = _
    simp only [runProg, Cmd.run]
    refine (noExec_prog W.cfg (p.filter Cmd.isQuery) [] { s2 with allowNew := false } (fun c hcm => ?_) rfl).2
    have := (List.mem_filter.1 hcm).2
    cases c with
    | allowNew b => cases this
    | reopen => cases this
    | _ => trivial

/-! ### A concrete replay: a process, its commit, two more processes, then the replay. -/

theorem intOp_flat {d : OpDef} (h1 : d.nout = .auto) (h2 : d.outNames = none) (h3 : d.ann = .none)
    (h4 : ∀ vals ret, d.body vals = .ok ret → ∃ n, ret = .int n) : OutsFlat d := by
  intro ins ret outs h hp
  obtain ⟨n, rfl⟩ := h4 _ _ h
  rw [h1, h2, h3] at hp
  cases hp
  intro p hp
  cases hp with
  | head => trivial
  | tail _ h => cases h

theorem intOp_sized {d : OpDef} (h1 : d.nout = .auto) (h2 : d.outNames = none) (h3 : d.ann = .none)
    (h4 : ∀ vals ret, d.body vals = .ok ret → ∃ n, ret = .int n) (env : List Val) (args : List PArg)
    (hd : ∀ vals, plainArgs env args = some vals → ∀ p ∈ vals, p.2.height < 10) : CallSized 10 env d args where
  depth := hd
  pos := by decide
  returns vals ret _ hb := by
    obtain ⟨n, rfl⟩ := h4 _ _ hb
    refine ⟨⟨_, by rw [h1, h2, h3]; rfl⟩, fun v hv => ?_, .inr (by simp [plainResults])⟩
    simp only [plainResults, List.mem_singleton] at hv
    subst hv
    simp [Val.height]

theorem inc_int : ∀ vals ret, Ex.inc.body vals = .ok ret → ∃ n, ret = .int n := by
  intro vals ret h
  simp only [Ex.inc] at h
  split at h
  · split at h <;> cases h
    exact ⟨_, rfl⟩
  · cases h

theorem total_int : ∀ vals ret, Ex.total.body vals = .ok ret → ∃ n, ret = .int n := by
  intro vals ret h
  simp only [Ex.total] at h
  split at h <;> cases h
  exact ⟨_, rfl⟩

/-- an earlier process -/
def earlier : List (List Cmd × End) := [([.call Ex.inc (Ex.arg1 (.raw (.int 5))), .commit], .between)]

/-- `xs = upto(2); a = inc(5); t = total([a, 1]); print(xs)` -/
def study : List Cmd := [.call Ex.upto (Ex.arg1 (.raw (.int 2))), .call Ex.inc (Ex.arg1 (.raw (.int 5))),
  .call Ex.total (Ex.totalArgs [.var 1, .raw (.int 1)]), .unwrap 0]

theorem study_ok (s0 : St) : RunOK Ex.W s0 earlier study := by
  have c1 := Ex.call1_ok Ex.inc_ok (Ex.wf_raw_int 5)
  refine runOK_of (sessionsOK_of _ _ fun pe hpe => ?_) ?_ ?_
  · simp only [earlier, List.mem_singleton] at hpe
    subst hpe
    refine ⟨?_, by simp⟩
    intro c hc
    simp only [List.mem_cons, List.not_mem_nil, or_false] at hc
    rcases hc with rfl | rfl
    · exact ⟨c1, trivial⟩
    · exact ⟨trivial, trivial⟩
  · have hv : PExprOK Ex.W .atom (.var 1) := by simp only [PExprOK]
    have c2 : CmdOK Ex.W (.call Ex.total (Ex.totalArgs [.var 1, .raw (.int 1)])) := Ex.total_call_ok (fun e he => by
      simp only [List.mem_cons, List.not_mem_nil, or_false] at he
      rcases he with rfl | rfl
      · exact hv
      · exact Ex.wf_raw_int _)
    have c3 := Ex.call1_ok Ex.upto_ok (Ex.wf_raw_int 2)
    intro c hc
    simp only [study, List.mem_cons, List.not_mem_nil, or_false] at hc
    rcases hc with rfl | rfl | rfl | rfl
    · exact ⟨c3, trivial⟩
    · exact ⟨c1, trivial⟩
    · exact ⟨c2, trivial⟩
    · exact ⟨trivial, trivial⟩
  · intro c hc
    simp only [study, List.mem_cons, List.not_mem_nil, or_false] at hc
    rcases hc with rfl | rfl | rfl | rfl <;> nofun

theorem study_sized : SizedProg 10 [] study := by
  refine ⟨(upto_fits _ [] 2).toCallSized, intOp_sized rfl rfl rfl inc_int _ _ ?_, intOp_sized rfl rfl rfl total_int _ _ ?_, trivial, trivial⟩
  · intro vals h p hp
    cases h
    simp only [List.mem_singleton] at hp
    subst hp
    simp [Val.height]
  · intro vals h p hp
    cases h
    simp only [List.mem_singleton] at hp
    subst hp
    decide

theorem study_flat (d : OpDef) (args : List PArg) (h : Cmd.call d args ∈ study) : OutsFlat d := by
  simp only [study, List.mem_cons, List.not_mem_nil, or_false, Cmd.call.injEq, reduceCtorEq] at h
  rcases h with ⟨rfl, _⟩ | ⟨rfl, _⟩ | ⟨rfl, _⟩
  · exact upto_flat
  · exact intOp_flat rfl rfl rfl inc_int
  · exact intOp_flat rfl rfl rfl total_int

/-- what other processes do before the replay -/
def between : List (List Cmd × End) := [([.call Ex.inc (Ex.arg1 (.raw (.int 8)))], .between), ([.call Ex.inc (Ex.arg1 (.raw (.int 5))), .commit], .inCommit [encH (.int 6)])]

theorem between_ok (s : St) : SessionsOK Ex.W s between := by
  have c1 := Ex.call1_ok Ex.inc_ok (Ex.wf_raw_int 8)
  have c2 := Ex.call1_ok Ex.inc_ok (Ex.wf_raw_int 5)
  refine sessionsOK_of _ _ (fun pe hpe => ?_)
  simp only [between, List.mem_cons, List.not_mem_nil, or_false] at hpe
  rcases hpe with rfl | rfl
  · refine ⟨?_, by simp⟩
    intro c hc
    simp only [List.mem_cons, List.not_mem_nil, or_false] at hc
    subst hc
    exact ⟨c1, trivial⟩
  · refine ⟨?_, by simp⟩
    intro c hc
    simp only [List.mem_cons, List.not_mem_nil, or_false] at hc
    rcases hc with rfl | rfl
    · exact ⟨c2, trivial⟩
    · exact ⟨trivial, trivial⟩

theorem between_noDrop : ∀ q ∈ between, ∀ c ∈ q.1, c.NoDrop := by
  intro q hq c hc
  simp only [between, List.mem_cons, List.not_mem_nil, or_false] at hq
  rcases hq with rfl | rfl <;> simp only [List.mem_cons, List.not_mem_nil, or_false] at hc
  · subst hc; trivial
  · rcases hc with rfl | rfl <;> trivial

theorem study_noDrop : ∀ c ∈ study, c.NoDrop := by
  intro c hc
  simp only [study, List.mem_cons, List.not_mem_nil, or_false] at hc
  rcases hc with rfl | rfl | rfl | rfl <;> trivial

/-- did it return? -/
def isOk {α : Type} : Except Err α → Bool
  | .ok _ => true
  | .error _ => false

theorem ok_of {σ : Type} {m : Except Err Unit × σ} (h : isOk m.1 = true) : m = (.ok (), m.2) := by
  obtain ⟨x, s⟩ := m
  cases x with
  | ok a => rfl
  | error e => cases h

theorem study_commits : isOk (commit Ex.W.cfg (runLast Ex.W.cfg (.fresh (some []) 100) earlier study).2.2).1 = true := by
  set_option maxRecDepth 20000 in decide +kernel

theorem study_returned : callsReturned study (runLast Ex.W.cfg (.fresh (some []) 100) earlier study).1 := by
  have h : (runLast Ex.W.cfg (.fresh (some []) 100) earlier study).1 =
    [.returned 1, .returned 1, .returned 1, .value (.list [.int 0, .int 1])] := by
    set_option maxRecDepth 20000 in decide +kernel
  rw [h]
  exact ⟨⟨1, rfl⟩, ⟨1, rfl⟩, ⟨1, rfl⟩, trivial⟩

seal callsReturned in
/-- The hypotheses hold for this program. -/
theorem replay_study_of {s1 : St} (hc : commit Ex.W.cfg (runLast Ex.W.cfg (.fresh (some []) 100) earlier study).2.2 = (.ok (), s1)) :
    Replays Ex.W.cfg (runSessions Ex.W.cfg (endSession Ex.W.cfg .between s1) between) study := by
  have h1 : ∀ j, (some [] : Option (Joblib Val)) = some j → j = [] := fun j h => by cases h; rfl
  have h2 : 0 < Ex.W.cfg.fuel := by decide
  have h3 : SizedProg Ex.W.cfg.fuel [] study := study_sized
  have h := C62_replay_partial Ex.W Ex.good (some []) 100 h1 earlier study (study_ok _) study_noDrop study_flat h3 h2
  have h4 := h study_returned
  exact h4 _ hc .between between (between_ok _) between_noDrop

theorem replay_study : ∃ s1, commit Ex.W.cfg (runLast Ex.W.cfg (.fresh (some []) 100) earlier study).2.2 = (.ok (), s1) ∧
    Replays Ex.W.cfg (runSessions Ex.W.cfg (endSession Ex.W.cfg .between s1) between) study :=
  have h := ok_of study_commits
  ⟨_, h, replay_study_of h⟩

example : Obs.done :: plainRun [] (study.filter Cmd.isQuery) =
    [.done, .returned 1, .returned 1, .returned 1, .value (.list [.int 0, .int 1])] := by decide +kernel

/-- A call that is not on record fails in the replay. -/
theorem replay_new : ((Cmd.call Ex.inc (Ex.arg1 (.raw (.int 30)))).run Ex.W.cfg []
    { runLast Ex.W.cfg (.fresh (some []) 100) earlier study |>.2.2 with allowNew := false }).1 = .raised .runtimeError := by
  set_option maxRecDepth 20000 in decide +kernel

/-- After the process above, `inc(5)` is on record (so the hypotheses of `C21_recorded_answered_partial` hold for it). -/
theorem study_recorded : (runLast Ex.W.cfg (.fresh (some []) 100) earlier study).2.2.calls.exists_ (incHid 5) = true := by
  set_option maxRecDepth 20000 in decide +kernel

theorem inc_hids : callHidOf Ex.W Ex.inc [⟨"x", .atom, false, .val (.int 5)⟩] = incHid 5 ∧ structHidsOf Ex.W [⟨"x", .atom, false, .val (.int 5)⟩] = [] :=
  ⟨rfl, rfl⟩

example : ((Cmd.call Ex.inc (Ex.arg1 (.raw (.int 5)))).run Ex.W.cfg (runLast Ex.W.cfg (.fresh (some []) 100) earlier study).2.1
    (runLast Ex.W.cfg (.fresh (some []) 100) earlier study).2.2).1 = .returned 1 := by
  obtain ⟨penv, _, h⟩ := C21_recorded_answered_partial Ex.W Ex.good (some []) 100 (fun j h => by cases h; rfl) earlier study (study_ok _) Ex.inc
    (Ex.arg1 (.raw (.int 5))) (Ex.call1_ok Ex.inc_ok (Ex.wf_raw_int 5))
  refine h _ rfl (fun x hx => ?_) (intOp_sized rfl rfl rfl inc_int _ _ ?_)
  · have hx' : x = incHid 5 := by
      rcases List.mem_cons.1 hx with h | h
      · exact h.trans inc_hids.1
      · exact absurd (inc_hids.2 ▸ h) (by simp)
    subst hx'
    exact study_recorded
  · intro vals h p hp
    cases h
    simp only [List.mem_singleton] at hp
    subst hp
    simp [Val.height]

end Verif.Props
