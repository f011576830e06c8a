import Verif.Proofs.Backed
import Verif.Props.Drop
/-!
C11: clearing the cache.
-/
namespace Verif.Props

open Verif

theorem commit_clear {V : Type} (d : CachedDict V) (size : V → Nat) :
    ((d.clear false).2.commit size).1 = (d.commit size).1 ∧ ((d.clear false).2.commit size).2.pers = (d.commit size).2.pers := by
  unfold CachedDict.clear
  split
  · exact ⟨rfl, rfl⟩
  · rename_i hd
    have hd : d.dirty = [] := by
      simp only [Bool.not_false, Bool.and_true, decide_eq_true_eq] at hd
      exact List.eq_nil_of_length_eq_zero (by omega)
    unfold CachedDict.commit
    simp [hd, CachedDict.flush]

theorem commit_clear_calls (d : CachedCalls) :
    ((d.clear false).2.commit).1 = d.commit.1 ∧ ((d.clear false).2.commit).2.pers = d.commit.2.pers := by
  unfold CachedCalls.clear
  split
  · exact ⟨rfl, rfl⟩
  · rename_i hd
    have hd : d.dirty = [] := by
      simp only [Bool.not_false, Bool.and_true, decide_eq_true_eq] at hd
      exact List.eq_nil_of_length_eq_zero (by omega)
    unfold CachedCalls.commit
    simp [hd, CachedCalls.flush]

/-- The databases of two storages are the same. -/
def SameDb (s s' : St) : Prop :=
  s'.calls.pers = s.calls.pers ∧ s'.atoms.pers = s.atoms.pers ∧ s'.shapes.pers = s.shapes.pers ∧ s'.ops.pers = s.ops.pers

/-- Storages whose tables commit in the same way commit in the same way. -/
theorem commit_same (cfg : Cfg) {s s' : St} (h0 : SameDb s s')
    (ha : (s'.atoms.commit cfg.sizeA).1 = (s.atoms.commit cfg.sizeA).1 ∧
      (s'.atoms.commit cfg.sizeA).2.pers = (s.atoms.commit cfg.sizeA).2.pers)
    (hb : (s'.shapes.commit cfg.sizeS).1 = (s.shapes.commit cfg.sizeS).1 ∧
      (s'.shapes.commit cfg.sizeS).2.pers = (s.shapes.commit cfg.sizeS).2.pers)
    (ho : (s'.ops.commit cfg.sizeO).1 = (s.ops.commit cfg.sizeO).1 ∧
      (s'.ops.commit cfg.sizeO).2.pers = (s.ops.commit cfg.sizeO).2.pers)
    (hc : s'.calls.commit.1 = s.calls.commit.1 ∧ s'.calls.commit.2.pers = s.calls.commit.2.pers) :
    (commit cfg s').1 = (commit cfg s).1 ∧ SameDb (commit cfg s).2 (commit cfg s').2 := by
  obtain ⟨d1, d2, d3, d4⟩ := h0
  unfold commit commitBody
  cases e1 : s.atoms.commit cfg.sizeA with
  | mk x1 a =>
  cases e1' : s'.atoms.commit cfg.sizeA with
  | mk x1' a' =>
  rw [e1, e1'] at ha
  obtain ⟨rfl, ha⟩ := ha
  cases x1' with
  | error e => exact ⟨rfl, by simp only [SameDb, rollback]; simp_all⟩
  | ok _ =>
  cases e2 : s.shapes.commit cfg.sizeS with
  | mk x2 b =>
  cases e2' : s'.shapes.commit cfg.sizeS with
  | mk x2' b' =>
  rw [e2, e2'] at hb
  obtain ⟨rfl, hb⟩ := hb
  simp only [e2, e2']
  cases x2' with
  | error e => exact ⟨rfl, by simp only [SameDb, rollback]; simp_all⟩
  | ok _ =>
  cases e3 : s.ops.commit cfg.sizeO with
  | mk x3 o =>
  cases e3' : s'.ops.commit cfg.sizeO with
  | mk x3' o' =>
  rw [e3, e3'] at ho
  obtain ⟨rfl, ho⟩ := ho
  simp only
  cases x3' with
  | error e => exact ⟨rfl, by simp only [SameDb, rollback]; simp_all⟩
  | ok _ =>
  cases e4 : s.calls.commit with
  | mk x4 c =>
  cases e4' : s'.calls.commit with
  | mk x4' c' =>
  rw [e4, e4'] at hc
  obtain ⟨rfl, hc⟩ := hc
  simp only
  cases x4' with
  | error e => exact ⟨rfl, by simp only [SameDb, rollback]; simp_all⟩
  | ok _ => exact ⟨rfl, hc, ha, hb, ho⟩

/-- Each table is cleared or left as it is. -/
theorem clearCache_tables (s : St) :
    ((clearCache false s).2.atoms = s.atoms ∨ (clearCache false s).2.atoms = (s.atoms.clear false).2) ∧
    ((clearCache false s).2.shapes = s.shapes ∨ (clearCache false s).2.shapes = (s.shapes.clear false).2) ∧
    ((clearCache false s).2.ops = s.ops ∨ (clearCache false s).2.ops = (s.ops.clear false).2) ∧
    ((clearCache false s).2.calls = s.calls ∨ (clearCache false s).2.calls = (s.calls.clear false).2) ∧
    ((clearCache false s).1 = .ok () ↔ s.atoms.dirty = [] ∧ s.shapes.dirty = [] ∧ s.ops.dirty = [] ∧ s.calls.dirty = []) := by
  have hd : ∀ {V : Type} (d : CachedDict V), ((d.clear false).1 = .ok () ∧ d.dirty = []) ∨ ((∃ e, (d.clear false).1 = .error e) ∧ d.dirty ≠ []) := by
    intro V d
    unfold CachedDict.clear
    cases d.dirty <;> simp
  have hc : ((s.calls.clear false).1 = .ok () ∧ s.calls.dirty = []) ∨ ((∃ e, (s.calls.clear false).1 = .error e) ∧ s.calls.dirty ≠ []) := by
    unfold CachedCalls.clear
    cases s.calls.dirty <;> simp
  have h1 := hd s.atoms
  have h2 := hd s.shapes
  have h3 := hd s.ops
  unfold clearCache
  cases e1 : s.atoms.clear false with
  | mk x1 a =>
  rw [e1] at h1
  cases x1 with
  | error e => simp_all
  | ok _ =>
  cases e2 : s.shapes.clear false with
  | mk x2 b =>
  rw [e2] at h2
  simp only [e2]
  cases x2 with
  | error e => simp_all
  | ok _ =>
  cases e3 : s.ops.clear false with
  | mk x3 o =>
  rw [e3] at h3
  simp only
  cases x3 with
  | error e => simp_all
  | ok _ =>
  cases e4 : s.calls.clear false with
  | mk x4 c =>
  rw [e4] at hc
  simp only
  cases x4 with
  | error e => simp_all
  | ok _ => simp_all

/-- C11, for storages without a failed commit. After any program of well-typed calls and storage operations, on a database
with or without an overflow directory, `clear_cache()` succeeds just if nothing is uncommitted. Whether it succeeds or raises,
every read of a value, ref, op or recorded call gives the same as before, so does loading any ref and unwrapping any ref, the
database is unchanged, and a commit right after it has the outcome and writes the database it would have without it.
Hypotheses: every commit so far went through, and `drop_calls` was not used after an earlier `clear_cache` in the same process
(the storage then edits a cache that is not in use).
Missing: storages with a failed commit, where the claim is false (`C11_refuted_after_failed_commit`). -/
theorem C11_clear_cache_partial (W : World) (hW : W.Good) (overflow : Bool) (thr : Nat) (p : List Cmd) (hp : ∀ c ∈ p, CmdOK W c)
    (hdl : dropsLinked true p)
    (hcd : commitsDone p (runProg W.cfg [] (.fresh (if overflow then some [] else none) thr) p).1)
    (s : St) (hs : s = (runProg W.cfg [] (.fresh (if overflow then some [] else none) thr) p).2.2) :
    ((clearCache false s).1 = .ok () ↔ s.atoms.dirty = [] ∧ s.shapes.dirty = [] ∧ s.ops.dirty = [] ∧ s.calls.dirty = []) ∧
    SameReads s (clearCache false s).2 ∧
    (∀ fuel h b, (loadRef fuel h b (clearCache false s).2).1 = (loadRef fuel h b s).1) ∧
    (∀ r, (unwrapRef W.cfg r (clearCache false s).2).1 = (unwrapRef W.cfg r s).1) ∧
    (commit W.cfg (clearCache false s).2).1 = (commit W.cfg s).1 ∧
    SameDb (commit W.cfg s).2 (commit W.cfg (clearCache false s).2).2 := by
  subst hs
  have hinv : Inv W (.fresh (if overflow then some [] else none) thr) := by
    refine inv_fresh _ _ ?_
    intro j hj
    cases overflow with
    | true => cases hj; exact DictAll.nil
    | false => cases hj
  have hb := backed_prog W hW p hp (env := []) (penv := []) .nil (b := true) hinv (Backed.fresh _ thr) (fun _ => rfl) hdl hcd
  generalize (runProg W.cfg [] (.fresh (if overflow then some [] else none) thr) p).2.2 = s at hb
  obtain ⟨t1, t2, t3, t4, t5⟩ := clearCache_tables s
  have hsr := (backed_clear hb).2
  refine ⟨t5, hsr, fun n h b => (obl_loadRef n h b _ _ hsr).1, fun r => (obl_unwrapRef W.cfg r _ _ hsr).1, ?_⟩
  refine commit_same W.cfg ⟨hsr.dbCalls, hsr.dbAtoms, hsr.dbShapes, hsr.dbOps⟩ ?_ ?_ ?_ ?_
  · rcases t1 with h | h <;> rw [h]
    · exact ⟨rfl, rfl⟩
    · exact commit_clear _ _
  · rcases t2 with h | h <;> rw [h]
    · exact ⟨rfl, rfl⟩
    · exact commit_clear _ _
  · rcases t3 with h | h <;> rw [h]
    · exact ⟨rfl, rfl⟩
    · exact commit_clear _ _
  · rcases t4 with h | h <;> rw [h]
    · exact ⟨rfl, rfl⟩
    · exact commit_clear_calls _

/-- A call, a commit, another call: the cache may not be cleared. -/
def halfCommitted : List Cmd := [.call Ex.inc (Ex.arg1 (.raw (.int 5))), .commit, .call Ex.inc (Ex.arg1 (.raw (.int 6)))]

example : (∀ c ∈ halfCommitted, CmdOK Ex.W c) ∧ dropsLinked true halfCommitted ∧
    commitsDone halfCommitted (runProg Ex.W.cfg [] (.fresh none 100) halfCommitted).1 ∧
    (runProg Ex.W.cfg [] (.fresh none 100) (halfCommitted ++ [.clearCache false, .unwrap 1, .commit, .clearCache false, .unwrap 1])).1 =
      [.returned 1, .done, .returned 1, .raised .valueError, .value (.int 7), .done, .done, .value (.int 7)] := by
  have hr : (runProg Ex.W.cfg [] (.fresh none 100) halfCommitted).1 = [.returned 1, .done, .returned 1] := by decide +kernel
  rw [hr]
  refine ⟨?_, trivial, ⟨rfl, trivial⟩, by decide +kernel⟩
  intro c hc
  simp only [halfCommitted, List.mem_cons, List.not_mem_nil, or_false] at hc
  rcases hc with rfl | rfl | rfl
  · exact Ex.call1_ok Ex.inc_ok (Ex.wf_raw_int 5)
  · trivial
  · exact Ex.call1_ok Ex.inc_ok (Ex.wf_raw_int 6)

/-- C11 is false: after a failed commit values and refs that are in no database count as committed, and `clear_cache()` throws them
away although it refuses. The call is made, dropped, the commit fails (C56), the call is made again: it is recorded and can be
repeated. With the `clear_cache()`, which raises `ValueError`, it can not be repeated any more. -/
theorem C11_refuted_after_failed_commit :
    (runProg Ex.W.cfg [] (.fresh none 100) (dropUncommitted ++
      [.call Ex.inc (Ex.arg1 (.raw (.int 5))), .call Ex.inc (Ex.arg1 (.raw (.int 5)))])).1 =
      [.returned 1, .done, .raised .valueError, .returned 1, .returned 1] ∧
    (runProg Ex.W.cfg [] (.fresh none 100) (dropUncommitted ++
      [.call Ex.inc (Ex.arg1 (.raw (.int 5))), .clearCache false, .call Ex.inc (Ex.arg1 (.raw (.int 5)))])).1 =
      [.returned 1, .done, .raised .valueError, .returned 1, .raised .valueError, .raised .keyError] := by
  decide +kernel

end Verif.Props
