import Verif.Proofs.Upkeep
import Verif.Props.Cleanup
import Verif.Props.Integrity
import Verif.Props.Replay
/-!
C07, C08, C61, C62 with `preload` and `cleanup_refs` in the sessions.
-/
namespace Verif.Props

open Verif

/-- C08 with `preload` and `cleanup_refs`, where these are run with nothing uncommitted and with nothing needed counting as garbage. -/
theorem C08_nothing_dangling_upkeep_partial (W : World) (hW : W.Good) (o : Option (Joblib Val)) (thr : Nat) (ho : ∀ j, o = some j → j = [])
    (ps : List (List Cmd × End)) (hps : AllOrderly W (.fresh o thr) ps) : Intact W.H (runSessions W.cfg (.fresh o thr) ps) :=
  DbOK.intact hW (allOrderly_ok hW ps (sess_fresh W o thr ho) hps).dbOK

/-- C61 with `preload` and `cleanup_refs`. -/
theorem C61_answered_with_upkeep_partial (W : World) (hW : W.Good) (o : Option (Joblib Val)) (thr : Nat) (ho : ∀ j, o = some j → j = [])
    (ps : List (List Cmd × End)) (p : List Cmd) (h : KeptOK W (.fresh o thr) ps p) :
    Answers W.cfg.fuel true [] [] p (runLast W.cfg (.fresh o thr) ps p).1 :=
  (fsess_kept_run hW (sess_fresh W o thr ho) ⟨rfl, rfl⟩ h).2.1

/-- C07 with `preload` and `cleanup_refs`, before and after. -/
theorem C07_results_load_upkeep_partial (W : World) (hW : W.Good) (o : Option (Joblib Val)) (thr : Nat) (ho : ∀ j, o = some j → j = [])
    (ps : List (List Cmd × End)) (p : List Cmd) (h : KeptOK W (.fresh o thr) ps p) (hflat : ∀ d args, Cmd.call d args ∈ p → OutsFlat d) (hfu : 0 < W.cfg.fuel)
    (r : Ref) (hr : r ∈ (runLast W.cfg (.fresh o thr) ps p).2.1) :
    ∃ v, (unwrapRef W.cfg r (runLast W.cfg (.fresh o thr) ps p).2.2).1 = .ok v ∧
      (v.height < W.cfg.fuel → LoadsOn W r.hid v (runLast W.cfg (.fresh o thr) ps p).2.2) := by
  obtain ⟨⟨orig, h1, h2⟩, _, penv, he⟩ := fsess_kept_run hW (sess_fresh W o thr ho) ⟨rfl, rfl⟩ h
  obtain ⟨i, hi⟩ := List.mem_iff_getElem?.1 hr
  have hfl := h1.flat.flat hi (fun d hd => by
    obtain ⟨args, ha⟩ := h2 d (List.mem_of_getElem? hd)
    exact hflat d args ha)
  obtain ⟨v, t, _, h3, h4⟩ : ∃ v t, penv[i]? = some v ∧ RefOK W r t ∧ t.erase = v := by
    rcases he.get? i with ⟨g1, _⟩ | ⟨r', v, t, g1, g2, g3, g4⟩
    · rw [g1] at hi; cases hi
    · rw [g1] at hi; cases hi; exact ⟨v, t, g2, g3, g4⟩
  have hB := h1.base
  have hu := firm_unwrapRef hW hB r t h3 _ hB.refl
  have hft := hfl t h3
  have hfi := (h1.firm r hr).1 t h3 hft
  refine ⟨v, ?_, fun hv => ?_⟩
  · cases hc : unwrapRef W.cfg r (runLast W.cfg (.fresh o thr) ps p).2.2 with
    | mk y s1 =>
      rw [hc] at hu
      cases y with
      | ok w => rw [hu.2, h4]
      | error e => exact absurd ⟨hfu, hfi⟩ hu.2
  · rw [← h4]
    exact loadsOn_of hW h1.sess h1.full h3.prov (h1.firm r hr).2 hft (t.fits_of_height _ (by rw [h4]; exact hv))

/-- C62 with `preload` and `cleanup_refs` in the processes before and after the one that is replayed. -/
theorem C62_replay_upkeep_partial (W : World) (hW : W.Good) (o : Option (Joblib Val)) (thr : Nat) (ho : ∀ j, o = some j → j = [])
    (ps : List (List Cmd × End)) (hps : AllOrderly W (.fresh o thr) ps) (p : List Cmd) (hp : ∀ c ∈ p, CmdOK W c ∧ c.InSession)
    (hcd : commitsDone p (runLast W.cfg (.fresh o thr) ps p).1) (hnd : ∀ c ∈ p, c.NoDrop)
    (hflat : ∀ d args, Cmd.call d args ∈ p → OutsFlat d) (hsz : SizedProg W.cfg.fuel [] p) (hfu : 0 < W.cfg.fuel)
    (hret : callsReturned p (runLast W.cfg (.fresh o thr) ps p).1) (s1 : St) (hc : commit W.cfg (runLast W.cfg (.fresh o thr) ps p).2.2 = (.ok (), s1))
    (e : End) (qs : List (List Cmd × End)) (hq : AllOrderly W (endSession W.cfg e s1) qs) (hndq : ∀ q ∈ qs, ∀ c ∈ q.1, c.NoDrop) :
    Replays W.cfg (runSessions W.cfg (endSession W.cfg e s1) qs) p := by
  have h0 := sess_fresh W o thr ho
  obtain ⟨c1, _⟩ := sessions_cache (W := W) ps (s := .fresh o thr) ⟨rfl, rfl⟩
  have hS := allOrderly_ok hW ps h0 hps
  obtain ⟨⟨orig, h1, _⟩, _⟩ := fsess_kept_run hW h0 ⟨rfl, rfl⟩ ⟨hps, orderly_of_done p hp hcd⟩
  have hsafe : ∀ c ∈ p, CmdOK W c ∧ c.Safe := fun c hcm => ⟨(hp c hcm).1, safe_of (hp c hcm).2 (hnd c hcm)⟩
  have hrecs := recs_of hW p hsafe (penv := []) (env := []) All2.nil hS.inv (coh_empty c1) hret
  have hg := grows_prog W.cfg p [] (runSessions W.cfg (.fresh o thr) ps) (fun c hcm => (hsafe c hcm).2) (coh_empty c1)
  obtain ⟨e1, e2, e3⟩ := end_calls W.cfg e s1
  have hS1 := endSession_sess (sess_commit_ok hW h1.sess hc).dbOK e
  obtain ⟨c3, c4⟩ := sessions_cache (W := W) qs ⟨e1, e2⟩
  have hS2 := allOrderly_ok hW qs hS1 hq
  let s2 := runSessions W.cfg (endSession W.cfg e s1) qs
  have hf2 : FSess W s2 [] [] := FSess.start hS2 (by rw [c3]; exact memFull_empty)
  have hf2' : FSess W { s2 with allowNew := false } [] [] := by
    have := (fsess_cmd hW (c := .allowNew false) trivial trivial hf2 (penv := []) All2.nil nofun).1
    exact this
  have hT : ∀ x, (runLast W.cfg (.fresh o thr) ps p).2.2.calls.exists_ x = true → sqlExists { s2 with allowNew := false }.calls.pers x = true :=
    fun x hx => sessions_rows W.cfg qs e1 hndq x (by rw [e3]; exact commit_persists hg.1 hc hx)
  have hrep := replay hW hfu p hp hflat (env1 := []) (env2 := []) (penv := []) All2.nil All2.nil rfl hS.inv hf2' (by simp) hrecs hret hsz
    (coh_empty (s := { s2 with allowNew := false }) c3) hT
  refine ⟨?_, ?_⟩
  · show (Cmd.allowNew false :: p.filter Cmd.isQuery |> runProg W.cfg [] s2).1 = _
    simp only [runProg, Cmd.run]
    exact congrArg _ hrep
  · show (Cmd.allowNew false :: p.filter Cmd.isQuery |> runProg W.cfg [] s2).2.2.log = _
    simp only [runProg, Cmd.run]
    refine (noExec_prog W.cfg (p.filter Cmd.isQuery) [] { s2 with allowNew := false } (fun c hcm => ?_) rfl).2
    have := (List.mem_filter.1 hcm).2
    cases c with
    | allowNew b => cases this
    | reopen => cases this
    | _ => trivial

/-! ### Concrete sessions -/

/-- A check of `AllUsed`. -/
def allUsed (env : List Ref) (s : St) : Bool :=
  (s.calls.cache.df.all fun r => s.calls.pers.any fun row => row.refHid = r.refHid) && eltsUsed s &&
  env.all fun r => (r.hid :: nestedHids r).all fun h => s.calls.pers.any fun row => row.refHid = h

theorem allUsed_sound {env : List Ref} {s : St} (h : allUsed env s = true) : AllUsed env s := by
  unfold allUsed at h
  simp only [Bool.and_eq_true] at h
  obtain ⟨⟨h1, h2⟩, h3⟩ := h
  have used : ∀ {x}, (s.calls.pers.any fun row => decide (row.refHid = x)) = true → UsedHid s x := fun hx => by
    obtain ⟨row, g1, g2⟩ := List.any_eq_true.1 hx
    exact ⟨row, g1, by simpa using g2⟩
  refine ⟨fun r hr => used (List.all_eq_true.1 h1 r hr), eltsUsed_sound h2, fun r hr => ?_⟩
  have h4 := List.all_eq_true.1 (List.all_eq_true.1 h3 r hr)
  exact ⟨used (h4 _ (by simp)), nested_of r fun x hx => used (h4 x (by simp [hx]))⟩

/-- A check of `Cmd.AllowedAt`. -/
def allowedAt (env : List Ref) (s : St) : Cmd → Bool
  | .clearCache b => !b
  | .cleanupRefs => s.atoms.dirty.isEmpty && s.shapes.dirty.isEmpty && s.ops.dirty.isEmpty && s.calls.dirty.isEmpty && allUsed env s
  | .preload => s.atoms.dirty.isEmpty && s.shapes.dirty.isEmpty && s.ops.dirty.isEmpty && s.calls.dirty.isEmpty
  | .reopen => false
  | _ => true

theorem allowedAt_sound {env : List Ref} {s : St} {c : Cmd} (h : allowedAt env s c = true) : c.AllowedAt env s := by
  cases c with
  | clearCache b => cases b <;> first | rfl | cases h
  | cleanupRefs =>
    simp only [allowedAt, Bool.and_eq_true, List.isEmpty_iff] at h
    obtain ⟨⟨⟨⟨h1, h2⟩, h3⟩, h4⟩, h5⟩ := h
    exact ⟨⟨h1, h2, h3, h4⟩, allUsed_sound h5⟩
  | preload =>
    simp only [allowedAt, Bool.and_eq_true, List.isEmpty_iff] at h
    obtain ⟨⟨⟨h1, h2⟩, h3⟩, h4⟩ := h
    exact ⟨h1, h2, h3, h4⟩
  | reopen => cases h
  | _ => trivial

/-- A check of `Orderly`, apart from `CmdOK`. -/
def orderly (cfg : Cfg) : List Ref → St → List Cmd → Bool
  | _, _, [] => true
  | env, s, c :: cs => allowedAt env s c && (match c with | .commit => (match (c.run cfg env s).1 with | .done => true | _ => false) | _ => true) &&
    orderly cfg (c.run cfg env s).2.1 (c.run cfg env s).2.2 cs

theorem orderly_sound {W : World} {all : Bool} : ∀ (cs : List Cmd) {env : List Ref} {s : St}, (∀ c ∈ cs, CmdOK W c) → orderly W.cfg env s cs = true → Orderly W all env s cs
  | [], _, _, _, _ => trivial
  | c :: cs, env, s, hok, h => by
    simp only [orderly, Bool.and_eq_true] at h
    obtain ⟨⟨h1, h2⟩, h3⟩ := h
    refine ⟨hok c (by simp), allowedAt_sound h1, ?_, orderly_sound cs (fun c hc => hok c (List.mem_cons_of_mem _ hc)) h3⟩
    rintro rfl _
    dsimp only at h2
    split at h2
    · assumption
    · cases h2

/-- `upto(2); inc(5); storage.commit()` -/
def firstDay : List (List Cmd × End) := [([.call Ex.upto (Ex.arg1 (.raw (.int 2))), .call Ex.inc (Ex.arg1 (.raw (.int 5))), .commit], .between)]

/-- `storage.drop_calls(inc(5)); storage.cleanup_refs(); storage.preload(); upto(2); inc(5); storage.commit(); storage.cleanup_refs(); upto(2); inc(7)` -/
def nextDay : List Cmd := [.dropCalls [incHid 5] false, .cleanupRefs, .preload, .call Ex.upto (Ex.arg1 (.raw (.int 2))), .call Ex.inc (Ex.arg1 (.raw (.int 5))), .commit,
  .cleanupRefs, .unwrap 0, .call Ex.inc (Ex.arg1 (.raw (.int 7)))]

theorem days_ok : (∀ p ∈ firstDay, ∀ c ∈ p.1, CmdOK Ex.W c) ∧ ∀ c ∈ nextDay, CmdOK Ex.W c := by
  have c1 := Ex.call1_ok Ex.upto_ok (Ex.wf_raw_int 2)
  have c2 := Ex.call1_ok Ex.inc_ok (Ex.wf_raw_int 5)
  have c3 := Ex.call1_ok Ex.inc_ok (Ex.wf_raw_int 7)
  refine ⟨fun p hp c hc => ?_, fun c hc => ?_⟩
  · simp only [firstDay, List.mem_singleton] at hp
    subst hp
    simp only [List.mem_cons, List.not_mem_nil, or_false] at hc
    rcases hc with rfl | rfl | rfl <;> first | exact c1 | exact c2 | trivial
  · simp only [nextDay, List.mem_cons, List.not_mem_nil, or_false] at hc
    rcases hc with rfl | rfl | rfl | rfl | rfl | rfl | rfl | rfl | rfl <;> first | exact c1 | exact c2 | exact c3 | trivial

set_option maxRecDepth 20000 in
theorem nextDay_orderly : orderly Ex.W.cfg [] (runSessions Ex.W.cfg (.fresh (some []) 100) firstDay) nextDay = true := by decide +kernel

set_option maxRecDepth 20000 in
theorem firstDay_orderly : orderly Ex.W.cfg [] (.fresh (some []) 100) (firstDay.map Prod.fst).flatten = true := by decide +kernel

theorem nextDay_ok : KeptOK Ex.W (.fresh (some []) 100) firstDay nextDay :=
  ⟨⟨orderly_sound _ (days_ok.1 _ (List.mem_singleton.2 rfl)) firstDay_orderly, trivial⟩, orderly_sound _ days_ok.2 nextDay_orderly⟩

/-- The hypotheses hold; the second process deletes two refs and puts one back. -/
example : Answers 10 true [] [] nextDay (runLast Ex.W.cfg (.fresh (some []) 100) firstDay nextDay).1 :=
  C61_answered_with_upkeep_partial Ex.W Ex.good (some []) 100 (fun j h => by cases h; rfl) _ _ nextDay_ok

set_option maxRecDepth 20000 in
example : (runLast Ex.W.cfg (.fresh (some []) 100) firstDay nextDay).1 =
    [.done, .done, .done, .returned 1, .returned 1, .done, .done, .value (.list [.int 0, .int 1]), .returned 1] := by decide +kernel

example : Intact encH (runSessions Ex.W.cfg (.fresh (some []) 100) (firstDay ++ [(nextDay, .inCommit [encH (.int 8)])])) :=
  C08_nothing_dangling_upkeep_partial Ex.W Ex.good (some []) 100 (fun j h => by cases h; rfl) _
    ⟨nextDay_ok.before.1, orderly_sound _ days_ok.2 nextDay_orderly, trivial⟩

theorem nextDay_flat (d : OpDef) (args : List PArg) (h : Cmd.call d args ∈ nextDay) : OutsFlat d := by
  simp only [nextDay, List.mem_cons, List.not_mem_nil, or_false, Cmd.call.injEq, reduceCtorEq, false_or] at h
  rcases h with ⟨rfl, _⟩ | ⟨rfl, _⟩ | ⟨rfl, _⟩
  · exact upto_flat
  · exact intOp_flat rfl rfl rfl inc_int
  · exact intOp_flat rfl rfl rfl inc_int

/-- The results of the second process can be loaded from then on. -/
example (r : Ref) (hr : r ∈ (runLast Ex.W.cfg (.fresh (some []) 100) firstDay nextDay).2.1) :
    ∃ v, (unwrapRef Ex.W.cfg r (runLast Ex.W.cfg (.fresh (some []) 100) firstDay nextDay).2.2).1 = .ok v ∧
      (v.height < 10 → LoadsOn Ex.W r.hid v (runLast Ex.W.cfg (.fresh (some []) 100) firstDay nextDay).2.2) :=
  C07_results_load_upkeep_partial Ex.W Ex.good (some []) 100 (fun j h => by cases h; rfl) _ _ nextDay_ok nextDay_flat (by decide) r hr

end Verif.Props
