import Verif.Proofs.Drop
import Verif.Props.Creator
/-!
C14, C15, C56, C10: dropping calls.
-/
namespace Verif.Props

open Verif

theorem stateAfter_append (W : World) (thr : Nat) (p q : List Cmd) : stateAfter W thr (p ++ q) =
    (runProg W.cfg (runProg W.cfg [] (.fresh none thr) p).2.1 (stateAfter W thr p) q).2.2 := by
  unfold stateAfter
  rw [runProg_append]

/-- The last statement is a maintenance statement that succeeds. -/
theorem last_done {W : World} {thr : Nat} {p : List Cmd} {c : Cmd} {m : M Unit}
    (hc : ∀ env s, c.run W.cfg env s = Cmd.run.admin env s m) (h : lastObs W thr (p ++ [c]) = some .done) :
    m (stateAfter W thr p) = (.ok (), stateAfter W thr (p ++ [c])) := by
  unfold lastObs at h
  unfold stateAfter
  rw [runProg_append W.cfg p [c]] at h ⊢
  simp only [runProg, List.getLast?_append, List.getLast?_singleton, Option.some_or, Option.some.injEq, hc] at h ⊢
  unfold Cmd.run.admin at h ⊢
  cases hm : m (runProg W.cfg [] (St.fresh none thr) p).2.2 with
  | mk x s' =>
    rw [hm] at h
    cases x with
    | ok _ => rfl
    | error e => cases h

/-- C14. After any program without `clear_cache` whose last statement is a successful commit, a successful
`drop_calls(hids, delete_dependents=True)`:
the calls recorded afterwards are exactly those recorded before that do not depend on a dropped call; their rows are
unchanged; and none of them consumes an output of a deleted call.
Missing: uncommitted calls, and storages whose cache was cleared; there the claim is false (`C14_refuted`,
`C56_refuted`). -/
theorem C14_drops_exactly_dependents_partial (W : World) (thr : Nat) (p : List Cmd) (hids : List String)
    (hp : ∀ c ∈ p, c.NoClear) (hcommit : lastObs W thr (p ++ [.commit]) = some .done)
    (hdrop : lastObs W thr (p ++ [.commit] ++ [.dropCalls hids true]) = some .done) :
    let s := stateAfter W thr (p ++ [.commit])
    let s' := stateAfter W thr (p ++ [.commit] ++ [.dropCalls hids true])
    (∀ h, s'.calls.exists_ h = true ↔ s.calls.exists_ h = true ∧ ¬ Dependent s.calls.pers [] hids (.call h)) ∧
    (∀ h, s'.calls.exists_ h = true → rowsOf s'.calls.pers h = rowsOf s.calls.pers h) ∧
    (∀ r ∈ s.calls.pers, s'.calls.exists_ r.callHid = false → r.dir = .out →
      ∀ r' ∈ s'.calls.pers, r'.dir = .in_ → r'.refHid ≠ r.refHid) := by
  intro s s'
  have hl0 : Linked (stateAfter W thr p) := linked_prog W.cfg p [] _ hp (linked_fresh none thr)
  have hc : commit W.cfg (stateAfter W thr p) = (.ok (), s) := last_done (fun _ _ => rfl) hcommit
  have hd : dropCalls hids true s = (.ok (), s') := last_done (fun _ _ => rfl) hdrop
  have hl : Linked s := by
    have := linked_of (stale_commit W.cfg (stateAfter W thr p)) (grows_commit W.cfg (stateAfter W thr p)) hl0
    rw [hc] at this; exact this
  have hdirty : s.calls.dirty = [] := by
    obtain ⟨_, h⟩ := commit_calls hc
    rcases h with ⟨⟨e, he⟩, _⟩ | ⟨_, h, _⟩
    · cases he
    · exact h
  have hpers : ∀ h, s.calls.exists_ h = true → sqlExists s.calls.pers h = true := by
    intro h hh
    rcases exists_iff.1 hh with h1 | h1
    · rcases hl.2 h h1 with h2 | h2
      · rw [hdirty] at h2; simp at h2
      · exact h2
    · exact h1
  obtain ⟨_, _, _, _, _, _, h3, h4, h5⟩ := dropCalls_spec hl.1 hd
  rcases h5 with ⟨_, h6, h7⟩ | ⟨⟨e, he⟩, _⟩
  · have hex : ∀ h, s'.calls.exists_ h = true ↔ s.calls.exists_ h = true ∧ ¬ Dependent s.calls.pers [] hids (.call h) := by
      intro h
      rw [← mem_dropSet]
      constructor
      · intro hh
        rcases exists_iff.1 hh with h8 | h8
        · refine ⟨exists_iff.2 (.inl (h3 h h8)), fun hm => ?_⟩
          rw [h7 h hm] at h8; cases h8
        · rw [h6, sqlExists_filter (p := fun k => k ∈ dropSet s hids true)] at h8
          exact ⟨exists_iff.2 (.inr h8.1), h8.2⟩
      · rintro ⟨h8, h9⟩
        rw [exists_iff]
        right
        rw [h6, sqlExists_filter (p := fun k => k ∈ dropSet s hids true)]
        exact ⟨hpers h h8, h9⟩
    refine ⟨hex, ?_, ?_⟩
    · intro h hh
      have hnm : h ∉ dropSet s hids true := by rw [mem_dropSet]; exact ((hex h).1 hh).2
      rw [h6]
      simp only [rowsOf, List.filter_filter]
      congr 1
      funext r
      by_cases hr : r.callHid = h
      · simp [hr, hnm]
      · simp [hr]
    · intro r hr hgone hout r' hr' hin heq
      have hex' : s.calls.exists_ r.callHid = true := exists_iff.2 (.inr (sqlExists_iff.2 ⟨r, hr, rfl⟩))
      have hdep : Dependent s.calls.pers [] hids (.call r.callHid) := by
        by_cases hdep : Dependent s.calls.pers [] hids (.call r.callHid)
        · exact hdep
        · rw [(hex r.callHid).2 ⟨hex', hdep⟩] at hgone; cases hgone
      rw [h6, List.mem_filter] at hr'
      simp only [decide_eq_true_eq, mem_dropSet] at hr'
      apply hr'.2
      obtain ⟨st, hst, hstar⟩ := hdep
      refine ⟨st, hst, ?_⟩
      have f1 : Flow s.calls.pers (.call r.callHid) (.ref r.refHid) := .produce hr hout
      have f2 : Flow s.calls.pers (.ref r.refHid) (.call r'.callHid) := heq ▸ .consume hr'.1 hin
      exact (hstar.tail f1).tail f2
  · cases he

/-- the history id of the call `inc(n)` -/
def incHid (n : Int) : String := callId encH "inc" 0 [("x", rawHid encH (.int n))]

/-- `a = inc(5); b = inc(a); c = inc(7); commit`, then dropping `inc(5)`: the hypotheses hold. -/
example : lastObs Ex.W 100 ([.call Ex.inc (Ex.arg1 (.raw (.int 5))), .call Ex.inc (Ex.arg1 (.var 0)),
      .call Ex.inc (Ex.arg1 (.raw (.int 7)))] ++ [.commit]) = some .done ∧
    lastObs Ex.W 100 ([.call Ex.inc (Ex.arg1 (.raw (.int 5))), .call Ex.inc (Ex.arg1 (.var 0)),
      .call Ex.inc (Ex.arg1 (.raw (.int 7)))] ++ [.commit] ++ [.dropCalls [incHid 5] true]) = some .done := by decide +kernel

/-- Only `inc(7)` survives in this case. -/
example : (stateAfter Ex.W 100 ([.call Ex.inc (Ex.arg1 (.raw (.int 5))), .call Ex.inc (Ex.arg1 (.var 0)),
      .call Ex.inc (Ex.arg1 (.raw (.int 7)))] ++ [.commit] ++ [.dropCalls [incHid 5] true])).calls.pers.map (·.callHid) =
    [incHid 7, incHid 7] := by decide +kernel

/-- `a = inc(5); commit; b = inc(a)`; then the call `inc(5)` is dropped with its dependents. -/
def lateDependent : List Cmd :=
  [.call Ex.inc (Ex.arg1 (.raw (.int 5))), .commit, .call Ex.inc (Ex.arg1 (.var 0)), .dropCalls [incHid 5] true]

/-- C14 is false for uncommitted calls: the call that consumes the output of the dropped call survives. -/
theorem C14_refuted : (stateAfter Ex.W 100 lateDependent).calls.exists_ (incHid 5) = false ∧
    (stateAfter Ex.W 100 lateDependent).calls.exists_
      (callId encH "inc" 0 [("x", outHid encH (incHid 5) "output_0")]) = true := by decide +kernel

/-- C56. After a program without `clear_cache`, calls deleted by a successful `drop_calls` are not recorded any more,
neither in the cache nor in the database.
Missing: storages whose cache was cleared before; there the claim is false (`C56_refuted`). -/
theorem C56_dropped_calls_forgotten_partial (W : World) (thr : Nat) (p : List Cmd) (hids : List String) (b : Bool)
    (hp : ∀ c ∈ p, c.NoClear) (hdrop : lastObs W thr (p ++ [.dropCalls hids b]) = some .done) (h : String) (hh : h ∈ hids) :
    (stateAfter W thr (p ++ [.dropCalls hids b])).calls.exists_ h = false ∧
    rowsOf (stateAfter W thr (p ++ [.dropCalls hids b])).calls.pers h = [] := by
  have hl : Linked (stateAfter W thr p) := linked_prog W.cfg p [] _ hp (linked_fresh none thr)
  have hd : dropCalls hids b (stateAfter W thr p) = (.ok (), stateAfter W thr (p ++ [.dropCalls hids b])) :=
    last_done (fun _ _ => rfl) hdrop
  obtain ⟨_, _, _, _, _, _, h3, h4, h5⟩ := dropCalls_spec hl.1 hd
  have hm : h ∈ dropSet (stateAfter W thr p) hids b := by
    unfold dropSet
    split
    · split <;> simp [hh]
    · exact hh
  rcases h5 with ⟨_, h6, h7⟩ | ⟨⟨e, he⟩, _⟩
  · have hrows : rowsOf (stateAfter W thr (p ++ [.dropCalls hids b])).calls.pers h = [] := by
      rw [h6]
      simp only [rowsOf, List.filter_filter, List.filter_eq_nil_iff, Bool.and_eq_true, decide_eq_true_eq, not_and]
      intro r _ hrh hn
      rw [hrh] at hn
      exact hn hm
    refine ⟨?_, hrows⟩
    cases hx : (stateAfter W thr (p ++ [.dropCalls hids b])).calls.exists_ h with
    | false => rfl
    | true =>
      rcases exists_iff.1 hx with h8 | h8
      · rw [h7 h hm] at h8; cases h8
      · obtain ⟨r, hr, hrh⟩ := sqlExists_iff.1 h8
        have : r ∈ rowsOf (stateAfter W thr (p ++ [.dropCalls hids b])).calls.pers h := mem_rowsOf.2 ⟨hr, hrh⟩
        rw [hrows] at this
        cases this
  · cases he

/-- The hypotheses hold for an uncommitted call, too; the function is then executed again. -/
example : lastObs Ex.W 100 ([.call Ex.inc (Ex.arg1 (.raw (.int 5)))] ++ [.dropCalls [incHid 5] false]) = some .done ∧
    (executed Ex.W 100 ([.call Ex.inc (Ex.arg1 (.raw (.int 5)))] ++ [.dropCalls [incHid 5] false] ++
      [.call Ex.inc (Ex.arg1 (.raw (.int 5)))])).length = 2 := by decide +kernel

/-- `storage.clear_cache(); a = inc(5); commit; drop_calls([inc(5)])` -/
def dropAfterClear : List Cmd :=
  [.clearCache false, .call Ex.inc (Ex.arg1 (.raw (.int 5))), .commit, .dropCalls [incHid 5] true]

/-- C56 is false after `clear_cache`: the dropped call is still answered from the cache (so the function is not executed
again), but it is gone from the database and will not be written again: after re-opening it is lost. -/
theorem C56_refuted : (runProg Ex.W.cfg [] (.fresh none 100) dropAfterClear).1 = [.done, .returned 1, .done, .done] ∧
    (stateAfter Ex.W 100 dropAfterClear).calls.exists_ (incHid 5) = true ∧
    executed Ex.W 100 (dropAfterClear ++ [.call Ex.inc (Ex.arg1 (.raw (.int 5)))]) = executed Ex.W 100 dropAfterClear ∧
    (stateAfter Ex.W 100 (dropAfterClear ++ [.call Ex.inc (Ex.arg1 (.raw (.int 5))), .commit])).calls.pers = [] := by
  decide +kernel

/-! ### dropping and committing -/

theorem insertRows_fewer : ∀ {rs rows rows' : List Row} {p : Row → Bool},
    insertRows rows rs = (.ok (), rows') → (∀ r ∈ rs, p r = true) → insertRows (rows.filter p) rs = (.ok (), rows'.filter p)
  | [], rows, rows', p, h, _ => by simp only [insertRows, Prod.mk.injEq] at h ⊢; rw [← h.2]; exact ⟨trivial, rfl⟩
  | r :: rs, rows, rows', p, h, hp => by
    simp only [insertRows] at h ⊢
    cases hi : insertRow rows r with
    | error e => rw [hi] at h; simp at h
    | ok rows1 =>
      rw [hi] at h
      unfold insertRow at hi
      split at hi <;> cases hi
      rename_i hany
      have : insertRow (rows.filter p) r = .ok (rows.filter p ++ [r]) := by
        unfold insertRow
        rw [if_neg]
        intro hc
        apply hany
        rw [List.any_eq_true] at hc ⊢
        obtain ⟨x, hx, hx2⟩ := hc
        exact ⟨x, (List.mem_filter.1 hx).1, hx2⟩
      rw [this]
      have h2 := insertRows_fewer (p := p) h (fun q hq => hp q (List.mem_cons_of_mem _ hq))
      rw [List.filter_append, List.filter_cons_of_pos (hp r (by simp)), List.filter_nil] at h2
      exact h2

theorem toRows_hid {d : CallData} {r : Row} (h : r ∈ d.toRows) : r.callHid = d.hid := by
  unfold CallData.toRows at h
  rcases List.mem_append.1 h with h | h <;>
  · obtain ⟨p, _, rfl⟩ := List.mem_map.1 h
    rfl

theorem getData_congr {m m' : InMem} {h : String} (h1 : m'.exists_ h = m.exists_ h) (h2 : rowsOf m'.df h = rowsOf m.df h) :
    m'.getData h = m.getData h := by
  unfold InMem.getData
  rw [h1]
  simp only [mgetData, h2]

/-- Committing calls that were not dropped is not affected by dropping others. -/
theorem flush_fewer {m m' : InMem} {D : List String} : ∀ {hs : List String} {rows rows' : List Row},
    CachedCalls.flush m hs rows = (.ok (), rows') →
    (∀ h ∈ hs, h ∉ D ∧ m'.exists_ h = m.exists_ h ∧ rowsOf m'.df h = rowsOf m.df h) →
    CachedCalls.flush m' hs (rows.filter fun r => r.callHid ∉ D) = (.ok (), rows'.filter fun r => r.callHid ∉ D)
  | [], rows, rows', h, _ => by simp only [CachedCalls.flush, Prod.mk.injEq] at h ⊢; rw [← h.2]; exact ⟨trivial, rfl⟩
  | h :: hs, rows, rows', hf, hh => by
    simp only [CachedCalls.flush] at hf ⊢
    obtain ⟨h1, h2, h3⟩ := hh h (by simp)
    rw [getData_congr h2 h3]
    cases hg : m.getData h with
    | error e => rw [hg] at hf; simp at hf
    | ok d =>
      rw [hg] at hf
      simp only at hf ⊢
      cases hs' : sqlSave rows d with
      | mk y rows1 =>
        rw [hs'] at hf
        cases y with
        | error e => simp at hf
        | ok _ =>
          have hdh : d.hid = h := (dataOfRows_ne (getData_rows hg)).1
          have := insertRows_fewer (p := fun r => decide (r.callHid ∉ D)) hs' (fun r hr => by
            rw [decide_eq_true_eq, toRows_hid hr, hdh]; exact h1)
          unfold sqlSave
          rw [this]
          exact flush_fewer hf (fun k hk => hh k (List.mem_cons_of_mem _ hk))

/-- C15, for calls that are committed: if the storage could be committed, it can still be committed after a `drop_calls`
that deletes no uncommitted call.
Missing: dropping uncommitted calls, for which the claim is false (`C15_refuted`). -/
theorem C15_commit_after_drop_partial (W : World) (thr : Nat) (p : List Cmd) (hids : List String) (b : Bool)
    (hp : ∀ c ∈ p, c.NoClear) (hdrop : lastObs W thr (p ++ [.dropCalls hids b]) = some .done)
    (hun : ∀ h ∈ dropSet (stateAfter W thr p) hids b, h ∉ (stateAfter W thr p).calls.dirty)
    (hcommit : lastObs W thr (p ++ [.commit]) = some .done) :
    lastObs W thr (p ++ [.dropCalls hids b] ++ [.commit]) = some .done := by
  have hl : Linked (stateAfter W thr p) := linked_prog W.cfg p [] _ hp (linked_fresh none thr)
  have hd : dropCalls hids b (stateAfter W thr p) = (.ok (), stateAfter W thr (p ++ [.dropCalls hids b])) :=
    last_done (fun _ _ => rfl) hdrop
  have hc : commit W.cfg (stateAfter W thr p) = (.ok (), stateAfter W thr (p ++ [.commit])) := last_done (fun _ _ => rfl) hcommit
  obtain ⟨_, h2, ha, hsh, ho, _, _, h4, h5⟩ := dropCalls_spec hl.1 hd
  rcases h5 with ⟨_, h6, h7⟩ | ⟨⟨e, he⟩, _⟩
  · have hgoal : ∃ s', commit W.cfg (stateAfter W thr (p ++ [.dropCalls hids b])) = (.ok (), s') := by
      unfold commit commitBody at hc ⊢
      rw [ha, hsh, ho]
      cases hac : (stateAfter W thr p).atoms.commit W.cfg.sizeA with
      | mk xa a =>
        rw [hac] at hc
        cases xa with
        | error e => cases hc
        | ok _ =>
          dsimp only at hc ⊢
          cases hbc : (stateAfter W thr p).shapes.commit W.cfg.sizeS with
          | mk xb b' =>
            rw [hbc] at hc
            cases xb with
            | error e => cases hc
            | ok _ =>
              dsimp only at hc ⊢
              cases hoc : (stateAfter W thr p).ops.commit W.cfg.sizeO with
              | mk xo o =>
                rw [hoc] at hc
                cases xo with
                | error e => cases hc
                | ok _ =>
                  dsimp only at hc ⊢
                  unfold CachedCalls.commit at hc ⊢
                  rw [h2, h6]
                  cases hcc : CachedCalls.flush (stateAfter W thr p).calls.cache (stateAfter W thr p).calls.dirty (stateAfter W thr p).calls.pers with
                  | mk xc c =>
                    rw [hcc] at hc
                    cases xc with
                    | error e => cases hc
                    | ok _ =>
                      rw [flush_fewer hcc (fun h hh => ⟨fun hm => hun h hm hh, h4 h (fun hm => hun h hm hh)⟩)]
                      exact ⟨_, rfl⟩
    obtain ⟨s', hs'⟩ := hgoal
    unfold lastObs
    rw [runProg_append W.cfg (p ++ [Cmd.dropCalls hids b]) [.commit]]
    simp only [runProg, List.getLast?_append, List.getLast?_singleton, Option.some_or, Option.some.injEq]
    simp only [Cmd.run, Cmd.run.admin]
    have : (runProg W.cfg [] (St.fresh none thr) (p ++ [Cmd.dropCalls hids b])).2.2 = stateAfter W thr (p ++ [.dropCalls hids b]) := rfl
    rw [this, hs']
  · cases he

/-- A committed call is dropped while another one is not committed yet: the hypotheses hold. -/
example : lastObs Ex.W 100 ([.call Ex.inc (Ex.arg1 (.raw (.int 5))), .commit, .call Ex.inc (Ex.arg1 (.raw (.int 7)))] ++
      [.dropCalls [incHid 5] false] ++ [.commit]) = some .done :=
  C15_commit_after_drop_partial Ex.W 100 _ [incHid 5] false (by simp [Cmd.NoClear]) (by decide +kernel) (by decide +kernel) (by decide +kernel)

/-- `a = inc(5); drop_calls([inc(5)])`, then commit -/
def dropUncommitted : List Cmd := [.call Ex.inc (Ex.arg1 (.raw (.int 5))), .dropCalls [incHid 5] false, .commit]

/-- C15 is false for uncommitted calls: the commit raises `ValueError`. -/
theorem C15_refuted : lastObs Ex.W 100 dropUncommitted = some (.raised .valueError) := by decide +kernel

/-- C10 is false: after the failed commit of `dropUncommitted` the call is made again and the next commit succeeds; but
the database now has the call without its refs and values: after re-opening, the recorded call cannot be read. -/
theorem C10_refuted : (runProg Ex.W.cfg [] (.fresh none 100) (dropUncommitted ++ [.call Ex.inc (Ex.arg1 (.raw (.int 5))), .commit,
      .reopen, .call Ex.inc (Ex.arg1 (.raw (.int 5)))])).1 =
    [.returned 1, .done, .raised .valueError, .returned 1, .done, .done, .raised .keyError] := by decide +kernel

/-- Writing the uncommitted values stops at a value that is too large for the table, and touches at most the rows of the table. -/
theorem flush_too_large {V : Type} (size : V → Nat) (cache : Dict String V) : ∀ (ks : List String) (p : SqlDict V), p.overflow = none →
    (∃ k ∈ ks, ∃ v, cache.get? k = some v ∧ p.threshold < size v) →
    ∃ e rows, CachedDict.flush size cache ks p = (.error e, { p with rows := rows })
  | [], _, _, ⟨_, h, _⟩ => by cases h
  | k :: ks, p, hp, h => by
    rw [CachedDict.flush]
    cases hc : cache.get? k with
    | none => exact ⟨_, p.rows, rfl⟩
    | some v =>
      dsimp only
      by_cases hv : size v > p.threshold
      · have : p.set size k v = .error .valueError := by simp [SqlDict.set, hv, hp]
        rw [this]
        exact ⟨_, p.rows, rfl⟩
      · have : p.set size k v = .ok { p with rows := p.rows.set k v } := by simp [SqlDict.set, hv]
        rw [this]
        dsimp only
        have h' : ∃ k ∈ ks, ∃ v, cache.get? k = some v ∧ p.threshold < size v := by
          obtain ⟨k', hk', v', hv', hb⟩ := h
          rcases List.mem_cons.mp hk' with rfl | hk'
          · rw [hc] at hv'; cases hv'; exact absurd hb hv
          · exact ⟨k', hk', v', hv', hb⟩
        obtain ⟨e, rows, hr⟩ := flush_too_large size cache ks { p with rows := p.rows.set k v } hp h'
        exact ⟨e, rows, hr⟩

/-- C10, for the values: a commit that fails since a value is too large for the table (and there is no overflow directory) leaves the
storage exactly as it was, so everything is still to be committed. (This is not so for a commit that fails later on, see `C10_refuted`.) -/
theorem C10_too_large_value_partial (cfg : Cfg) (s : St) (k : String) (v : Val) (hk : k ∈ s.atoms.dirty)
    (hv : s.atoms.cache.get? k = some v) (hbig : s.atoms.pers.threshold < cfg.sizeA v) (hno : s.atoms.pers.overflow = none) :
    ∃ e, commit cfg s = (.error e, s) := by
  obtain ⟨e, rows, hf⟩ := flush_too_large cfg.sizeA s.atoms.cache s.atoms.dirty s.atoms.pers hno ⟨k, hk, v, hv, hbig⟩
  refine ⟨e, ?_⟩
  unfold commit commitBody CachedDict.commit
  rw [hf]
  rfl

/-- `inc(5)` with a table that holds no values at all: the commit fails, again and again, and the call is answered all the same. -/
example : (runProg Ex.W.cfg [] (.fresh none 0) [.call Ex.inc (Ex.arg1 (.raw (.int 5))), .commit, .commit,
    .call Ex.inc (Ex.arg1 (.raw (.int 5))), .unwrap 1]).1 =
    [.returned 1, .raised .valueError, .raised .valueError, .returned 1, .value (.int 6)] ∧
    (stateAfter Ex.W 0 [.call Ex.inc (Ex.arg1 (.raw (.int 5)))]).atoms.dirty.length = 2 := by decide +kernel

/-- C10, for the calls themselves: whatever commits failed before, a successful commit writes every recorded call to the
database (without `clear_cache`, see C56).
Missing: the refs and values of the calls, which can be lost (`C10_refuted`). -/
theorem C10_calls_persisted_partial (W : World) (thr : Nat) (p : List Cmd) (hp : ∀ c ∈ p, c.NoClear)
    (hcommit : lastObs W thr (p ++ [.commit]) = some .done) (h : String)
    (hh : (stateAfter W thr p).calls.exists_ h = true) :
    rowsOf (stateAfter W thr (p ++ [.commit])).calls.pers h ≠ [] := by
  have hl : Linked (stateAfter W thr p) := linked_prog W.cfg p [] _ hp (linked_fresh none thr)
  have hc : commit W.cfg (stateAfter W thr p) = (.ok (), stateAfter W thr (p ++ [.commit])) := last_done (fun _ _ => rfl) hcommit
  obtain ⟨r, hr, hrh⟩ := sqlExists_iff.1 (commit_persists hl.2 hc hh)
  intro h0
  have : r ∈ rowsOf (stateAfter W thr (p ++ [.commit])).calls.pers h := mem_rowsOf.2 ⟨hr, hrh⟩
  rw [h0] at this
  cases this

/-- A program with a failed commit whose next commit succeeds: the hypotheses hold. -/
example : lastObs Ex.W 100 ((dropUncommitted ++ [.call Ex.inc (Ex.arg1 (.raw (.int 5)))]) ++ [.commit]) = some .done ∧
    (stateAfter Ex.W 100 (dropUncommitted ++ [.call Ex.inc (Ex.arg1 (.raw (.int 5)))])).calls.exists_ (incHid 5) = true := by
  decide +kernel

end Verif.Props
