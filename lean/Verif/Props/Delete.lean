import Verif.Proofs.Delete
import Verif.Props.Attach
import Verif.Props.FrameTable
/-!
C78: deleting the calls of a frame or of a table; `drop_calls` in any process and with any argument.
-/
namespace Verif.Props

open Verif

/-- C78: in any process, at any point where no call is waiting to be committed, `delete_calls` of any frame succeeds, and it deletes exactly the calls of the frame and
the calls that depend on them.
Partial: not when calls are uncommitted (`C14_refuted`) and not after `clear_cache` in the same process (`C56_refuted`). -/
theorem C78_delete_calls_partial (W : World) (hW : W.Good) (o : Option (Joblib Val)) (thr : Nat) (ho : ∀ j, o = some j → j = [])
    (ps : List (List Cmd × End)) (p : List Cmd) (h : KeptOK W (.fresh o thr) ps p) (hp : ∀ c ∈ p, c.NoClear)
    (hc : (runLast W.cfg (.fresh o thr) ps p).2.2.calls.dirty = []) (f : CFrame) :
    ∃ s', f.deleteCalls (runLast W.cfg (.fresh o thr) ps p).2.2 = (.ok (), s') ∧
      DeletedExactly (runLast W.cfg (.fresh o thr) ps p).2.2 s' f.calls.keys := by
  obtain ⟨⟨orig, h1, _⟩, _⟩ := fsess_kept_run hW (sess_fresh W o thr ho) ⟨rfl, rfl⟩ h
  have hl := linked_last (cfg := W.cfg) (o := o) (thr := thr) ps hp
  obtain ⟨s', h2⟩ := drop_succeeds hW hl h1.sess.inv h1.full hc (PySet.ofList f.calls.keys) true
  exact ⟨s', h2, (drop_exact hl hc h2).same fun x => PySet.mem_ofList⟩

/-- C78, for `drop_calls`: with any list, set or other collection of calls or of ids, in any order and with repetitions.
Partial: like `C78_delete_calls_partial`; and not with generators (`C78_refuted_generator`). -/
theorem C78_drop_calls_partial (W : World) (hW : W.Good) (o : Option (Joblib Val)) (thr : Nat) (ho : ∀ j, o = some j → j = [])
    (ps : List (List Cmd × End)) (p : List Cmd) (h : KeptOK W (.fresh o thr) ps p) (hp : ∀ c ∈ p, c.NoClear)
    (hc : (runLast W.cfg (.fresh o thr) ps p).2.2.calls.dirty = []) (g : Iter) (hg : g.repeats = true) :
    ∃ s', dropIter g true (runLast W.cfg (.fresh o thr) ps p).2.2 = (.ok (), s') ∧ DeletedExactly (runLast W.cfg (.fresh o thr) ps p).2.2 s' g.ids := by
  obtain ⟨⟨orig, h1, _⟩, _⟩ := fsess_kept_run hW (sess_fresh W o thr ho) ⟨rfl, rfl⟩ h
  have hl := linked_last (cfg := W.cfg) (o := o) (thr := thr) ps hp
  obtain ⟨s', h2⟩ := drop_succeeds hW hl h1.sess.inv h1.full hc g.taken true
  have ht : g.taken = g.ids := by simp [Iter.taken, hg]
  exact ⟨s', h2, ht ▸ drop_exact hl hc h2⟩

theorem mem_callCells {f : CFrame} {t : Table} {h : String} (hdis : ∀ x ∈ f.calls.keys, x ∉ f.refs.keys)
    (hone : ∀ row ∈ t.rows, ∀ col ∈ t.cols, ∀ ids, row.get? col = some ids → (∃ x ∈ ids, x ∈ f.calls.keys) → ids.length = 1) :
    h ∈ t.cols.flatMap (f.callCells t) ↔ f.Shown t h := by
  simp only [List.mem_flatMap, CFrame.callCells, List.mem_filterMap, CFrame.Shown]
  constructor
  · rintro ⟨col, hcol, row, hrow, hm⟩
    split at hm
    · rename_i x hx
      split at hm
      · cases hm
      · split at hm
        · cases hm
          exact ⟨by assumption, row, hrow, col, hcol, [h], hx, by simp⟩
        · cases hm
    · cases hm
  · rintro ⟨hk, row, hrow, col, hcol, ids, hget, hin⟩
    refine ⟨col, hcol, row, hrow, ?_⟩
    have h1 := hone row hrow col hcol ids hget ⟨h, hin, hk⟩
    match ids, h1, hin, hget with
    | [x], _, hin, hget =>
      simp only [List.mem_singleton] at hin
      subst hin
      rw [hget]
      simp [hdis h hk, hk]

/-- C78, for tables: `delete_calls_from_df` deletes exactly the calls in the table and what depends on them, if no cell has several calls.
Partial: calls that share a cell with others are left (`C78_refuted_table`); and like `C78_delete_calls_partial`. -/
theorem C78_delete_calls_from_df_partial (W : World) (hW : W.Good) (o : Option (Joblib Val)) (thr : Nat) (ho : ∀ j, o = some j → j = [])
    (ps : List (List Cmd × End)) (p : List Cmd) (h : KeptOK W (.fresh o thr) ps p) (hp : ∀ c ∈ p, c.NoClear)
    (hc : (runLast W.cfg (.fresh o thr) ps p).2.2.calls.dirty = []) (f : CFrame) (t : Table) (hdis : ∀ x ∈ f.calls.keys, x ∉ f.refs.keys)
    (hone : ∀ row ∈ t.rows, ∀ col ∈ t.cols, ∀ ids, row.get? col = some ids → (∃ x ∈ ids, x ∈ f.calls.keys) → ids.length = 1) :
    ∃ s' hids, f.deleteCallsFrom t (runLast W.cfg (.fresh o thr) ps p).2.2 = (.ok (), s') ∧ (∀ x, x ∈ hids ↔ f.Shown t x) ∧
      DeletedExactly (runLast W.cfg (.fresh o thr) ps p).2.2 s' hids := by
  obtain ⟨⟨orig, h1, _⟩, _⟩ := fsess_kept_run hW (sess_fresh W o thr ho) ⟨rfl, rfl⟩ h
  have hl := linked_last (cfg := W.cfg) (o := o) (thr := thr) ps hp
  obtain ⟨s', h2⟩ := drop_succeeds hW hl h1.sess.inv h1.full hc (PySet.ofList (t.cols.flatMap (f.callCells t))) true
  exact ⟨s', t.cols.flatMap (f.callCells t), h2, fun x => mem_callCells hdis hone, (drop_exact hl hc h2).same fun x => PySet.mem_ofList⟩

/-- C56 in any process, whether or not there are uncommitted calls: calls deleted by a successful `drop_calls` are not recorded any more.
Missing: processes in which the cache was cleared before; there the claim is false (`C56_refuted`). -/
theorem C56_dropped_calls_forgotten_sessions_partial (W : World) (o : Option (Joblib Val)) (thr : Nat) (ps : List (List Cmd × End)) (p : List Cmd)
    (hp : ∀ c ∈ p, c.NoClear) (hids : List String) (b : Bool) (s' : St) (hd : dropCalls hids b (runLast W.cfg (.fresh o thr) ps p).2.2 = (.ok (), s'))
    (h : String) (hh : h ∈ hids) : s'.calls.exists_ h = false ∧ rowsOf s'.calls.pers h = [] := by
  have hl := linked_last (cfg := W.cfg) (o := o) (thr := thr) ps hp
  obtain ⟨_, _, _, _, _, _, _, _, h5⟩ := dropCalls_spec hl.1 hd
  have hm : h ∈ dropSet (runLast W.cfg (.fresh o thr) ps p).2.2 hids b := by
    unfold dropSet
    split
    · split <;> simp [hh]
    · exact hh
  rcases h5 with ⟨_, h6, h7⟩ | ⟨⟨e, he⟩, _⟩
  · have hrows : rowsOf s'.calls.pers h = [] := by
      rw [h6]
      simp only [rowsOf, List.filter_filter, List.filter_eq_nil_iff, Bool.and_eq_true, decide_eq_true_eq, not_and]
      intro r _ hr
      simp [hr, hm]
    refine ⟨?_, hrows⟩
    cases he : s'.calls.exists_ h with
    | false => rfl
    | true =>
      rcases exists_iff.1 he with h8 | h8
      · rw [h7 h hm] at h8; cases h8
      · obtain ⟨r, hr, hrh⟩ := sqlExists_iff.1 h8
        have : r ∈ rowsOf s'.calls.pers h := by simp [rowsOf, hr, hrh]
        rw [hrows] at this; simp at this
  · cases he

/-! ### a concrete case -/

/-- the history id of `inc(inc(5))` -/
def incTwice : String := callId encH "inc" 0 [("x", outHid encH (incHid 5) "output_0")]

/-- a process: `inc(5); commit` -/
def incDay : List (List Cmd × End) := [([.call Ex.inc (Ex.arg1 (.raw (.int 5))), .commit], .between)]

/-- `a = inc(5); b = inc(a); c = inc(7); commit`, where the first call is found in the database -/
def chainDay : List Cmd := [.call Ex.inc (Ex.arg1 (.raw (.int 5))), .call Ex.inc (Ex.arg1 (.var 0)), .call Ex.inc (Ex.arg1 (.raw (.int 7))), .commit]

set_option maxRecDepth 20000 in
theorem chainDay_orderly : orderly Ex.W.cfg [] (runSessions Ex.W.cfg (.fresh none 100) incDay) chainDay = true := by decide +kernel

set_option maxRecDepth 20000 in
theorem incDay_orderly : orderly Ex.W.cfg [] (.fresh none 100) (incDay.map Prod.fst).flatten = true := by decide +kernel

theorem chainDay_ok : KeptOK Ex.W (.fresh none 100) incDay chainDay := by
  have c1 := Ex.call1_ok Ex.inc_ok (Ex.wf_raw_int 5)
  refine ⟨⟨orderly_sound _ (fun c hc => ?_) incDay_orderly, trivial⟩, orderly_sound _ ?_ chainDay_orderly⟩
  · simp only [List.mem_cons, List.not_mem_nil, or_false] at hc
    rcases hc with rfl | rfl
    · exact c1
    · trivial
  have c2 := Ex.call1_ok Ex.inc_ok (Ex.wf_raw_int 7)
  have c3 := Ex.call1_ok Ex.inc_ok (e := .var 0) trivial
  intro c hc
  simp only [chainDay, List.mem_cons, List.not_mem_nil, or_false] at hc
  rcases hc with rfl | rfl | rfl | rfl
  · exact c1
  · exact c3
  · exact c2
  · trivial

/-- the storage then -/
def chained : St := (runLast Ex.W.cfg (.fresh none 100) incDay chainDay).2.2

theorem chainDay_keeps : ∀ c ∈ chainDay, c.NoClear := by
  intro c hc
  simp only [chainDay, List.mem_cons, List.not_mem_nil, or_false] at hc
  rcases hc with rfl | rfl | rfl | rfl <;> trivial

set_option maxRecDepth 20000 in
theorem chained_committed : (runLast Ex.W.cfg (.fresh none 100) incDay chainDay).2.2.calls.dirty = [] := by decide +kernel

/-- The frame of `inc(5)` and `inc(inc(5))`; `inc` takes from and puts into the same variable. -/
def chainFrame : CFrame := ((runOps {} [.addFunc "inc", .addVar "v", .addEdge "v" "inc" "x", .addEdge "inc" "v" "output_0",
  .addCall "inc" ⟨incHid 5, "inc", [("x", ⟨rawHid encH (.int 5), "5"⟩)], [("output_0", ⟨outHid encH (incHid 5) "output_0", "6"⟩)]⟩,
  .addCall "inc" ⟨incTwice, "inc", [("x", ⟨outHid encH (incHid 5) "output_0", "6"⟩)], [("output_0", ⟨outHid encH incTwice "output_0", "7"⟩)]⟩]).toOption).getD {}

/-- The hypotheses hold. -/
example : ∃ s', chainFrame.deleteCalls chained = (.ok (), s') ∧ DeletedExactly chained s' chainFrame.calls.keys := by
  unfold chained
  exact C78_delete_calls_partial Ex.W Ex.good none 100 nofun _ _ chainDay_ok chainDay_keeps chained_committed chainFrame

set_option maxRecDepth 20000 in
/-- Dropping `inc(5)` deletes `inc(inc(5))`, too; `inc(7)` stays. -/
example : ((dropIter ⟨true, true, [incHid 5]⟩ true chained).2.calls.exists_ (incHid 5), (dropIter ⟨true, true, [incHid 5]⟩ true chained).2.calls.exists_ incTwice,
    (dropIter ⟨true, true, [incHid 5]⟩ true chained).2.calls.exists_ (incHid 7)) = (false, false, true) := by decide +kernel

set_option maxRecDepth 20000 in
/-- C78 is false for generators. Of the ids of `inc(5)` and `inc(7)`, given by a generator, the first one is not dropped; and of calls given by a generator none is. -/
theorem C78_refuted_generator :
    (dropIter ⟨false, false, [incHid 5, incHid 7]⟩ true chained).1 = .ok () ∧
    (dropIter ⟨false, false, [incHid 5, incHid 7]⟩ true chained).2.calls.exists_ (incHid 5) = true ∧
    (dropIter ⟨false, false, [incHid 5, incHid 7]⟩ true chained).2.calls.exists_ (incHid 7) = false ∧
    (dropIter ⟨true, false, [incHid 5, incHid 7]⟩ true chained).1 = .ok () ∧
    (dropIter ⟨true, false, [incHid 5, incHid 7]⟩ true chained).2.calls.exists_ (incHid 5) = true ∧
    (dropIter ⟨true, false, [incHid 5, incHid 7]⟩ true chained).2.calls.exists_ (incHid 7) = true := by decide +kernel

/-- The row of `inc(inc(5))` in `chainFrame.get_history_df("v")` (a user selects rows with pandas), up to the order of the ids in a cell. -/
def chainRow : TRow :=
  ((chainFrame.totalHistory (fun d => d.keys) true 10 "v" [outHid encH incTwice "output_0"] none).toOption).getD []

set_option maxRecDepth 20000 in
example : chainRow = [("v", [outHid encH incTwice "output_0", outHid encH (incHid 5) "output_0", rawHid encH (.int 5)]), ("inc", [incTwice, incHid 5])] := by
  decide +kernel

/-- The table with this row -/
def chainRows : Table := ⟨["v", "inc"], [chainRow]⟩

/-- The row of `inc(5)` -/
def firstRows : Table := ⟨["v", "inc"], [[("v", [outHid encH (incHid 5) "output_0", rawHid encH (.int 5)]), ("inc", [incHid 5])]]⟩

set_option maxRecDepth 20000 in
/-- The hypotheses hold of the table with this row. -/
example : ∃ s' hids, chainFrame.deleteCallsFrom firstRows chained = (.ok (), s') ∧ (∀ x, x ∈ hids ↔ chainFrame.Shown firstRows x) ∧ DeletedExactly chained s' hids := by
  unfold chained
  refine C78_delete_calls_from_df_partial Ex.W Ex.good none 100 nofun _ _ chainDay_ok chainDay_keeps chained_committed chainFrame firstRows
    (by decide +kernel) ?_
  have h1 : ∀ row ∈ firstRows.rows, ∀ col ∈ firstRows.cols, (match row.get? col with
      | some ids => decide (∃ x ∈ ids, x ∈ chainFrame.calls.keys) && ids.length != 1
      | none => false) = false := by decide +kernel
  intro row hrow col hcol ids hget hx
  have := h1 row hrow col hcol
  rw [hget] at this
  simpa [hx] using this

set_option maxRecDepth 20000 in
/-- C78 is false for tables in which a cell has several calls: both calls are in the table, and none of them is deleted. -/
theorem C78_refuted_table : chainFrame.Shown chainRows (incHid 5) ∧ chainFrame.Shown chainRows incTwice ∧
    (chainFrame.deleteCallsFrom chainRows chained).1 = .ok () ∧
    (chainFrame.deleteCallsFrom chainRows chained).2.calls.exists_ (incHid 5) = true ∧
    (chainFrame.deleteCallsFrom chainRows chained).2.calls.exists_ incTwice = true :=
  ⟨⟨by decide +kernel, chainRow, by simp [chainRows], "inc", by simp [chainRows], [incTwice, incHid 5], by decide +kernel, by simp⟩,
   ⟨by decide +kernel, chainRow, by simp [chainRows], "inc", by simp [chainRows], [incTwice, incHid 5], by decide +kernel, by simp⟩, by decide +kernel⟩

end Verif.Props
