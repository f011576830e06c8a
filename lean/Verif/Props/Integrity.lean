import Verif.Proofs.WholeProg
import Verif.Props.Drop
/-!
C08: nothing in the database refers to something that is not there.
-/
namespace Verif.Props

open Verif

theorem TVal.cids_map (H : Val → String) : ∀ (ts : List TVal), TVal.cids H ts = ts.map (TVal.cid H)
  | [] => rfl
  | t :: ts => by simp [TVal.cids, cids_map H ts]

theorem refsOK_cids {W : World} : ∀ {rs : List Ref} {ts : List TVal}, RefsOK W rs ts → rs.map Ref.cid = TVal.cids W.H ts
  | [], [], _ => rfl
  | r :: rs, t :: ts, h => by
    simp only [RefsOK] at h
    simp only [List.map_cons, TVal.cids, refsOK_cids h.2]
    congr 1
    cases r with
    | atom c h' o =>
      simp only [RefOK] at h
      obtain ⟨⟨_, v, rfl, h2, _⟩, _⟩ := h
      exact h2
    | coll k c h' m ks es =>
      simp only [RefOK] at h
      obtain ⟨⟨_, _, _, _, h2, _⟩, _⟩ := h
      exact h2
  | [], _ :: _, h => by simp [RefsOK] at h
  | _ :: _, [], h => by simp [RefsOK] at h

/-- The history id of a ref determines its content. -/
theorem same_cid {W : World} (hW : W.Good) {r : Ref} {t t' : TVal} (h : RefOK W r t) (h' : Prov W r.hid t') : r.cid = t'.cid W.H := by
  cases r with
  | atom c h' o =>
    simp only [RefOK] at h
    obtain ⟨h1, v, rfl, h2, _⟩ := h
    rw [← Prov.det hW h1 h']; exact h2
  | coll k c h' m ks es =>
    simp only [RefOK] at h
    obtain ⟨h1, _, _, rfl, h2, _⟩ := h
    rw [← Prov.det hW h1 h']; exact h2

theorem refOK_prov {W : World} {r : Ref} {t : TVal} (h : RefOK W r t) : Prov W r.hid t ∧ r.cid = t.cid W.H := by
  cases r with
  | atom c h' o =>
    simp only [RefOK] at h
    obtain ⟨h1, v, rfl, h2, _⟩ := h
    exact ⟨h1, h2⟩
  | coll k c h' m ks es =>
    simp only [RefOK] at h
    obtain ⟨h1, _, _, rfl, h2, _⟩ := h
    exact ⟨h1, h2⟩

/-- What the invariants say about the tables. -/
theorem DbOK.intact {W : World} (hW : W.Good) {s : St} (h : DbOK W s) : Intact W.H s := by
  have hS : ∀ k, Has (reopen s).2.shapes k → ∃ rec, s.shapes.pers.get k = .ok rec ∧ rec.hid = k ∧
      ∀ t, Prov W k t → rec.cid = t.cid W.H := by
    rintro k ⟨rec, hrec⟩
    simp only [reopen, open_get] at hrec
    obtain ⟨h1, t, h2⟩ := h.inv.shapes.2.get hrec
    exact ⟨rec, hrec, h1, fun t' ht' => same_cid hW h2 (by rw [h1]; exact ht')⟩
  constructor
  · intro r hr
    obtain ⟨rec, h1, h2, h3⟩ := hS _ (h.db.rows r (.inr hr)).1
    obtain ⟨_, _, _, ⟨t, h4, h5, _⟩, _⟩ := h.inv.pers r hr
    exact ⟨rec, h1, h2, by rw [h5]; exact h3 t h4⟩
  · intro r hr
    obtain ⟨o, ho⟩ := (h.db.rows r (.inr hr)).2
    simp only [reopen, open_get] at ho
    exact ⟨o, ho⟩
  · intro k c h' o hk
    obtain ⟨v, hv⟩ := h.db.atoms k c h' o (by simp only [reopen, open_get]; exact hk)
    simp only [reopen, open_get] at hv
    exact ⟨v, hv, h.inv.atoms.2.get hv⟩
  · intro k kd c h' m ks es hk
    obtain ⟨h1, h2⟩ := h.db.colls k kd c h' m ks es (by simp only [reopen, open_get]; exact hk)
    obtain ⟨_, t, h3⟩ := h.inv.shapes.2.get hk
    simp only [RefOK] at h3
    obtain ⟨_, ks', ts, rfl, h4, h5⟩ := h3
    obtain ⟨rfl, h6⟩ := h5 h1
    refine ⟨h1, by rw [h4, TVal.cid, refsOK_cids h6], fun e he => ?_⟩
    obtain ⟨rec, h7, h8, h9⟩ := hS _ (h2 (by simp) e he).1
    obtain ⟨t, _, ht⟩ := (refsOK_iff.1 h6).mem_left he
    have := refOK_prov ht
    exact ⟨rec, h7, h8, by rw [this.2]; exact h9 t this.1⟩

/-- A database that was just created. -/
theorem sess_fresh (W : World) (o : Option (Joblib Val)) (thr : Nat) (ho : ∀ j, o = some j → j = []) : Sess W (.fresh o thr) [] := by
  have hi : Inv W (.fresh o thr) := inv_fresh o thr (fun j hj => by rw [ho j hj]; exact DictAll.nil)
  have hsh : ∀ k, ((St.fresh o thr).shapes.get k).1 = .error .keyError := by
    intro k; simp [St.fresh, CachedDict.get, CachedDict.open_, SqlDict.get]
  have hw : Whole [] (.fresh o thr) := by
    refine ⟨fun h c h' o' hh => ?_, fun h k c h' m ks es hh => ?_, fun r hr => ?_⟩
    · rw [hsh] at hh; cases hh
    · rw [hsh] at hh; cases hh
    · simp [St.fresh, CachedCalls.open_, InMem.empty] at hr
  exact ⟨hi, hw, hw, Clean.open_ _, Clean.open_ _, Clean.open_ _, rfl, rfl, fun r hr => by simp at hr⟩

/-- C08. Take any sequence of processes working on a database (with or without an overflow directory), each of which
makes any calls of ops, unwraps refs, commits, drops calls, clears the cache and so on, and is then killed, be it
between two statements or in the middle of a commit. In the database that is found afterwards, every input and output
of every recorded call has a record with its history id and content id, every op of a call has its record, every
atom has its value, and every element of every collection has a record, with its content id.
Missing: a process that goes on after a failed commit, and `cleanup_refs`; there the claim is false (`C08_refuted`,
`C08_refuted_cleanup`). -/
theorem C08_nothing_dangling_partial (W : World) (hW : W.Good) (o : Option (Joblib Val)) (thr : Nat) (ho : ∀ j, o = some j → j = [])
    (ps : List (List Cmd × End)) (hps : SessionsOK W (.fresh o thr) ps) : Intact W.H (runSessions W.cfg (.fresh o thr) ps) :=
  DbOK.intact hW (sessions_ok hW ps (sess_fresh W o thr ho) hps).dbOK

theorem commitsGo_last : ∀ (cs : List Cmd) (os : List Obs), (∀ c ∈ cs.dropLast, c ≠ .commit) → commitsGo cs os
  | [], os, _ => by cases os <;> exact trivial
  | [c], os, _ => by
    cases c <;> cases os <;> exact trivial
  | c :: c' :: cs, [], _ => by cases c <;> exact trivial
  | c :: c' :: cs, o :: os, h => by
    have h1 := h c (by simp)
    have ih := commitsGo_last (c' :: cs) os (fun x hx => h x (by
      rw [List.dropLast_cons_of_ne_nil (by simp)]; exact List.mem_cons_of_mem _ hx))
    cases c with
    | commit => exact absurd rfl h1
    | _ => exact ih

/-- Each process commits at most at its end. -/
theorem sessionsOK_of {W : World} : ∀ (ps : List (List Cmd × End)) (s : St), (∀ pe ∈ ps, (∀ c ∈ pe.1, CmdOK W c ∧ c.InSession) ∧
    ∀ c ∈ pe.1.dropLast, c ≠ .commit) → SessionsOK W s ps
  | [], _, _ => trivial
  | (p, e) :: ps, s, h => ⟨(h (p, e) (by simp)).1, commitsGo_last _ _ (h (p, e) (by simp)).2,
      sessionsOK_of ps _ (fun pe hpe => h pe (List.mem_cons_of_mem _ hpe))⟩

/-- ```
total([inc(5), 10]); upto(3); commit     # process killed here
both(7); commit                          # killed in this commit
upto(3); drop_calls(inc(5)); commit      # killed here
``` -/
def threeProcesses : List (List Cmd × End) :=
  [([.call Ex.inc (Ex.arg1 (.raw (.int 5))), .call Ex.total (Ex.totalArgs [.var 0, .raw (.int 10)]), .call Ex.upto (Ex.arg1 (.raw (.int 3))),
     .commit], .between),
   ([.call Ex.both (Ex.bothArgs (.raw (.int 7)) 1)], .inCommit [encH (.int 8)]),
   ([.call Ex.upto (Ex.arg1 (.raw (.int 3))), .dropCalls [incHid 5] false, .commit], .between)]

theorem threeProcesses_ok (s : St) : SessionsOK Ex.W s threeProcesses := by
  have hv : PExprOK Ex.W .atom (.var 0) := by simp only [PExprOK]
  have c1 := Ex.call1_ok Ex.inc_ok (Ex.wf_raw_int 5)
  have c2 : CmdOK Ex.W (.call Ex.total (Ex.totalArgs [.var 0, .raw (.int 10)])) := Ex.total_call_ok (fun e he => by
    simp only [List.mem_cons, List.not_mem_nil, or_false] at he
    rcases he with rfl | rfl
    · exact hv
    · exact Ex.wf_raw_int _)
  have c3 := Ex.call1_ok Ex.upto_ok (Ex.wf_raw_int 3)
  have c4 : CmdOK Ex.W (.call Ex.both (Ex.bothArgs (.raw (.int 7)) 1)) := Ex.both_call_ok (Ex.wf_raw_int 7)
  refine sessionsOK_of _ _ (fun pe hpe => ?_)
  simp only [threeProcesses, List.mem_cons, List.not_mem_nil, or_false] at hpe
  rcases hpe with rfl | rfl | rfl
  all_goals refine ⟨?_, by simp⟩
  · intro c hc
    simp only [List.mem_cons, List.not_mem_nil, or_false] at hc
    rcases hc with rfl | rfl | rfl | rfl
    · exact ⟨c1, trivial⟩
    · exact ⟨c2, trivial⟩
    · exact ⟨c3, trivial⟩
    · exact ⟨trivial, trivial⟩
  · intro c hc
    simp only [List.mem_cons, List.not_mem_nil, or_false] at hc
    rcases hc with rfl
    exact ⟨c4, trivial⟩
  · intro c hc
    simp only [List.mem_cons, List.not_mem_nil, or_false] at hc
    rcases hc with rfl | rfl | rfl
    · exact ⟨c3, trivial⟩
    · exact ⟨trivial, trivial⟩
    · exact ⟨trivial, trivial⟩

/-- The hypotheses hold for these processes; the
database has 16 rows of calls in the end. -/
example : Intact encH (runSessions Ex.W.cfg (.fresh (some []) 100) threeProcesses) :=
  C08_nothing_dangling_partial Ex.W Ex.good (some []) 100 (fun j h => by cases h; rfl) _ (threeProcesses_ok _)

set_option maxRecDepth 20000 in
example : let s := runSessions Ex.W.cfg (.fresh (some []) 100) threeProcesses
    (s.calls.pers.length, s.shapes.pers.keys.length, s.atoms.pers.keys.length) = (16, 13, 8) := by decide +kernel

/-- a row of the database whose ref has no record -/
def missingRecord (s : St) : Bool := s.calls.pers.any fun r => match s.shapes.pers.get r.refHid with
  | .ok _ => false
  | .error _ => true

theorem not_intact {H : Val → String} {s : St} (h : missingRecord s = true) : ¬ Intact H s := by
  intro hi
  obtain ⟨r, hr, hr'⟩ := List.any_eq_true.1 h
  obtain ⟨rec, h1, _⟩ := hi.rows r hr
  rw [h1] at hr'
  cases hr'

/-- C08 is false if the process goes on after a failed commit: the call of `dropUncommitted` is made again and committed; its
refs never get a record. -/
theorem C08_refuted : ¬ Intact encH (runSessions Ex.W.cfg (.fresh none 100)
    [(dropUncommitted ++ [.call Ex.inc (Ex.arg1 (.raw (.int 5))), .commit], .between)]) :=
  not_intact (by decide +kernel)

/-- `a = inc(5); commit; drop_calls(inc(5)); both(5); cleanup_refs(); commit` -/
def cleanupUncommitted : List Cmd :=
  [.call Ex.inc (Ex.arg1 (.raw (.int 5))), .commit, .dropCalls [incHid 5] false, .call Ex.both (Ex.bothArgs (.raw (.int 5)) 1),
   .cleanupRefs, .commit]

/-- C08 is false with `cleanup_refs`: the argument of the uncommitted call has a record in the database, which is deleted since no
call in the database refers to it; all statements succeed. -/
theorem C08_refuted_cleanup : (runProg Ex.W.cfg [] (.fresh none 100) cleanupUncommitted).1 = [.returned 1, .done, .done, .returned 2, .done, .done] ∧
    ¬ Intact encH (runSessions Ex.W.cfg (.fresh none 100) [(cleanupUncommitted, .between)]) :=
  ⟨by decide +kernel, not_intact (by decide +kernel)⟩

end Verif.Props
