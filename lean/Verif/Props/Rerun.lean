import Verif.Proofs.View
import Verif.Props.Creator
/-!
C06: running or saving a recorded call again changes nothing.
-/
namespace Verif.Props

open Verif

/-- The call and the calls building its collection arguments are recorded after it has completed. -/
theorem completes_all (W : World) (hW : W.Good) {thr : Nat} {p : List Cmd} (hp : ∀ c ∈ p, CmdOK W c) (hnd : ∀ c ∈ p, c.NoDrop)
    {d : OpDef} {args : List PArg} (hc : CmdOK W (.call d args)) {n : Nat}
    (hret : lastObs W thr (p ++ [.call d args]) = some (.returned n)) :
    ∃ bargs, bindArgs (runProg W.cfg [] (.fresh none thr) p).2.1 args = some bargs ∧
      Coh (stateAfter W thr (p ++ [.call d args])) ∧
      ∀ x ∈ callHidOf W d bargs :: structHidsOf W bargs, (stateAfter W thr (p ++ [.call d args])).calls.exists_ x = true := by
  obtain ⟨bargs, hb, hcoh, hex, _⟩ := completes W hW hp hnd hc hret
  refine ⟨bargs, hb, hcoh, fun x hx => ?_⟩
  rcases List.mem_cons.1 hx with rfl | hx
  · exact hex
  obtain ⟨hinv, penv, henv⟩ := prog_state W hW (thr := thr) hp
  have hcoh0 := (growsP_prog W.cfg p [] (.fresh none thr) hnd (coh_fresh _ _)).1
  clear hcoh hex
  unfold lastObs at hret
  unfold stateAfter
  rw [runProg_append] at hret ⊢
  generalize hs : (runProg W.cfg [] (St.fresh none thr) p) = r at *
  obtain ⟨os, env, s⟩ := r
  simp only [runProg] at hret ⊢
  simp only [List.getLast?_append, List.getLast?_singleton, Option.some_or, Option.some.injEq] at hret
  simp only at henv hinv hcoh0 hb
  rcases call_facts hc henv with ⟨h1, _⟩ | ⟨bargs', ins, vals, h1, h2, h3, h4, h5, h6⟩
  · rw [hb] at h1; cases h1
  · rw [hb] at h1
    cases h1
    rw [Cmd.run, hb] at hret ⊢
    simp only at hret ⊢
    cases hcall : call W.cfg d bargs s with
    | mk y s' =>
      rw [hcall] at hret
      cases y with
      | error e => cases hret
      | ok rs => exact call_struct_recorded hW h3 hinv hcoh0 hcall x hx

/-- Running the call again on a state where it is recorded with its structural calls. -/
theorem rerun_view (W : World) (hW : W.Good) {thr : Nat} {p q : List Cmd} (hp : ∀ c ∈ p, CmdOK W c) (hq : ∀ c ∈ q, CmdOK W c)
    {d : OpDef} {args : List PArg} (hc : CmdOK W (.call d args)) {bargs : List BArg}
    (hb : bindArgs (runProg W.cfg [] (.fresh none thr) p).2.1 args = some bargs)
    (hex : ∀ x ∈ callHidOf W d bargs :: structHidsOf W bargs, (stateAfter W thr (p ++ q)).calls.exists_ x = true) :
    SameView (stateAfter W thr (p ++ q)) (stateAfter W thr (p ++ q ++ [.call d args])) := by
  obtain ⟨hinv, penv, henv⟩ := prog_state W hW (thr := thr) (p := p ++ q)
    (fun c h => (List.mem_append.1 h).elim (hp c) (hq c))
  have hb' : bindArgs (runProg W.cfg [] (.fresh none thr) (p ++ q)).2.1 args = some bargs := by
    rw [runProg_append]
    obtain ⟨new, hn⟩ := env_prog W.cfg q (runProg W.cfg [] (.fresh none thr) p).2.1 (runProg W.cfg [] (.fresh none thr) p).2.2
    simp only
    rw [hn]
    exact bindArgs_append _ _ _ _ hb
  unfold stateAfter at hex ⊢
  rw [runProg_append W.cfg (p ++ q)]
  simp only [runProg]
  rw [Cmd.run, hb']
  rcases call_facts hc henv with ⟨h1, _⟩ | ⟨bargs', ins, vals, h1, h2, h3, h4, h5, h6⟩
  · rw [hb'] at h1; cases h1
  · rw [hb'] at h1
    cases h1
    have := call_view (d := d) hW h3 hinv (hex _ (List.mem_cons_self ..)) (fun x hx => hex x (List.mem_cons_of_mem _ hx))
    simp only
    cases hcall : call W.cfg d bargs (runProg W.cfg [] (St.fresh none thr) (p ++ q)).2.2 with
    | mk x s' =>
      rw [hcall] at this
      cases x <;> exact this

/-- C06, for calls whose collection arguments have their structural calls on record as well. Saving a call that is
recorded leaves the storage as it is, from every state. Running a call leaves the recorded calls, refs, values and ops as
they are, in memory and in the database, in every state reached by a program in which the call and the calls building its
collection arguments are recorded. That is so once the call has completed: after any statements that neither drop calls nor
throw away uncommitted data, and, if a commit has succeeded in between, after any statements that do not drop calls.
Missing: states in which the calls building the arguments were dropped and the call itself was not; there the claim is
false (`C06_refuted_dropped_builder`). -/
theorem C06_recording_twice_partial (W : World) (hW : W.Good) (thr : Nat) (p q q' : List Cmd) (d : OpDef)
    (args : List PArg) (hp : ∀ c ∈ p, CmdOK W c) (hq : ∀ c ∈ q, CmdOK W c) (hq' : ∀ c ∈ q', CmdOK W c)
    (hc : CmdOK W (.call d args)) (hnd : ∀ c ∈ p, c.NoDrop) (hsafe : ∀ c ∈ q, c.Safe) (hnd' : ∀ c ∈ q', c.NoDrop) (n : Nat)
    (hret : lastObs W thr (p ++ [.call d args]) = some (.returned n)) :
    (∀ s c, s.calls.exists_ c.hid = true → saveCall c s = (.ok (), s)) ∧
    (∀ r : List Cmd, (∀ c ∈ r, CmdOK W c) → ∀ bargs, bindArgs (runProg W.cfg [] (.fresh none thr) r).2.1 args = some bargs →
      (∀ x ∈ callHidOf W d bargs :: structHidsOf W bargs, (stateAfter W thr r).calls.exists_ x = true) →
      SameView (stateAfter W thr r) (stateAfter W thr (r ++ [.call d args]))) ∧
    SameView (stateAfter W thr (p ++ [.call d args] ++ q)) (stateAfter W thr (p ++ [.call d args] ++ q ++ [.call d args])) ∧
    (lastObs W thr (p ++ [.call d args] ++ q ++ [.commit]) = some .done →
      SameView (stateAfter W thr (p ++ [.call d args] ++ q ++ [.commit] ++ q'))
        (stateAfter W thr (p ++ [.call d args] ++ q ++ [.commit] ++ q' ++ [.call d args]))) := by
  refine ⟨fun s c h => saveCall_recorded h, fun r hr bargs hb hex => ?_, ?_⟩
  · have := rerun_view W hW (q := []) hr (by simp) hc hb (by simpa using hex)
    simpa using this
  obtain ⟨bargs, hb, hcoh, hex⟩ := completes_all W hW hp hnd hc hret
  have hp1 : ∀ c ∈ p ++ [.call d args], CmdOK W c := by
    intro c h
    rcases List.mem_append.1 h with h | h
    · exact hp c h
    · rw [List.mem_singleton.1 h]; exact hc
  have hb1 : bindArgs (runProg W.cfg [] (.fresh none thr) (p ++ [.call d args])).2.1 args = some bargs := by
    rw [runProg_append]
    obtain ⟨new, hn⟩ := env_prog W.cfg [.call d args] (runProg W.cfg [] (.fresh none thr) p).2.1 (runProg W.cfg [] (.fresh none thr) p).2.2
    simp only
    rw [hn]
    exact bindArgs_append _ _ _ _ hb
  have hcoh' : Coh (runProg W.cfg [] (.fresh none thr) (p ++ [Cmd.call d args])).2.2 := hcoh
  have hg := grows_prog W.cfg q (runProg W.cfg [] (.fresh none thr) (p ++ [.call d args])).2.1
    (runProg W.cfg [] (.fresh none thr) (p ++ [.call d args])).2.2 hsafe hcoh'
  have hstate : (runProg W.cfg [] (.fresh none thr) (p ++ [.call d args] ++ q)).2.2 =
      (runProg W.cfg (runProg W.cfg [] (.fresh none thr) (p ++ [.call d args])).2.1
        (runProg W.cfg [] (.fresh none thr) (p ++ [.call d args])).2.2 q).2.2 := by
    rw [runProg_append W.cfg (p ++ [Cmd.call d args]) q]
  rw [← hstate] at hg
  refine ⟨rerun_view W hW hp1 hq hc hb1 (fun x hx => hg.2.1 _ (hex x hx)), fun hdone => ?_⟩
  have hcommit : Coh (stateAfter W thr (p ++ [.call d args] ++ q ++ [.commit])) ∧
      ∀ x ∈ callHidOf W d bargs :: structHidsOf W bargs,
        sqlExists (stateAfter W thr (p ++ [.call d args] ++ q ++ [.commit])).calls.pers x = true := by
    unfold lastObs at hdone
    unfold stateAfter
    rw [runProg_append W.cfg (p ++ [Cmd.call d args] ++ q) [.commit]] at hdone ⊢
    simp only [runProg, List.getLast?_append, List.getLast?_singleton, Option.some_or, Option.some.injEq] at hdone ⊢
    rw [Cmd.run, Cmd.run.admin] at hdone ⊢
    have hgc := grows_commit W.cfg _ hg.1
    cases hcm : commit W.cfg (runProg W.cfg [] (St.fresh none thr) (p ++ [.call d args] ++ q)).2.2 with
    | mk x s' =>
      rw [hcm] at hdone hgc
      cases x with
      | error e => cases hdone
      | ok _ => exact ⟨hgc.1, fun x hx => commit_persists hg.1 hcm (hg.2.1 _ (hex x hx))⟩
  have hgp := growsP_prog W.cfg q' (runProg W.cfg [] (.fresh none thr) (p ++ [.call d args] ++ q ++ [.commit])).2.1 _ hnd' hcommit.1
  have hstate' : (runProg W.cfg [] (.fresh none thr) (p ++ [.call d args] ++ q ++ [.commit] ++ q')).2.2 =
      (runProg W.cfg (runProg W.cfg [] (.fresh none thr) (p ++ [.call d args] ++ q ++ [.commit])).2.1
        (runProg W.cfg [] (.fresh none thr) (p ++ [.call d args] ++ q ++ [.commit])).2.2 q').2.2 := by
    rw [runProg_append W.cfg (p ++ [Cmd.call d args] ++ q ++ [Cmd.commit]) q']
  unfold stateAfter at hcommit hgp
  rw [← hstate'] at hgp
  have := rerun_view W hW (p := p ++ [.call d args]) (q := q ++ [.commit] ++ q') hp1 (thr := thr) (by
      intro c h
      simp only [List.mem_append, List.mem_singleton] at h
      rcases h with (h | rfl) | h
      · exact hq c h
      · trivial
      · exact hq' c h) hc hb1 (by
      intro x hx
      have h2 := hgp.2 _ (hcommit.2 x hx)
      rw [exists_iff]
      right
      unfold stateAfter
      simpa only [List.append_assoc] using h2)
  simpa only [List.append_assoc] using this

/-- `total([1, 2])` -/
def totalCmd : Cmd := .call Ex.total (Ex.totalArgs [.raw (.int 1), .raw (.int 2)])

theorem totalCmd_ok : CmdOK Ex.W totalCmd :=
  Ex.total_call_ok (by intro e he; simp only [List.mem_cons, List.not_mem_nil, or_false] at he; rcases he with rfl | rfl <;> exact Ex.wf_raw_int _)

/-- A case: a call with a list argument, a commit, a re-open, and the call again. -/
example : SameView (stateAfter Ex.W 100 ([] ++ [totalCmd] ++ [] ++ [.commit] ++ [.reopen]))
    (stateAfter Ex.W 100 ([] ++ [totalCmd] ++ [] ++ [.commit] ++ [.reopen] ++ [totalCmd])) := by
  refine (C06_recording_twice_partial Ex.W Ex.good 100 [] [] [.reopen] _ _ (by simp) (by simp) (by simp [CmdOK]) totalCmd_ok (by simp)
    (by simp) (by simp [Cmd.NoDrop]) 1 ?_).2.2.2 ?_
  · decide +kernel
  · decide +kernel

/-- In this case the call that built the list is recorded besides the call itself. -/
example : (stateAfter Ex.W 100 [totalCmd, .commit]).calls.pers.map (fun r => (r.op, r.name)) =
    [("total", "xs"), ("total", "output_0"), ("__make_list__", "elts_0"), ("__make_list__", "elts_1"),
      ("__make_list__", "list")] := by decide +kernel

/-- The history ids of the calls building lists. -/
def builders (s : St) : List String := ((s.calls.pers.filter fun r => r.op = "__make_list__").map (·.callHid)).eraseDups

/-- After dropping the call that built the list, running the recorded call `total([1, 2])` again records it anew: a
recorded call was run again, and the set of recorded calls has changed. -/
theorem C06_refuted_dropped_builder :
    let s := stateAfter Ex.W 100 [totalCmd, .commit]
    let p := [totalCmd, .commit, .dropCalls (builders s) false]
    (∀ bargs, bindArgs [] (Ex.totalArgs [.raw (.int 1), .raw (.int 2)]) = some bargs →
      (stateAfter Ex.W 100 p).calls.exists_ (callHidOf Ex.W Ex.total bargs) = true) ∧
    (builders s).length = 1 ∧
    (∀ h ∈ builders s, (stateAfter Ex.W 100 p).calls.exists_ h = false) ∧
    (∀ h ∈ builders s, (stateAfter Ex.W 100 (p ++ [totalCmd])).calls.exists_ h = true) := by
  refine ⟨?_, ?_, ?_, ?_⟩
  · intro bargs hb
    cases hb
    decide +kernel
  · decide +kernel
  · decide +kernel
  · decide +kernel

end Verif.Props
