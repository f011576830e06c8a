import Verif.Model.Delete
import Verif.Spec.Delete
import Verif.Proofs.Drop
import Verif.Proofs.Upkeep
/-!
Deleting calls succeeds and deletes what it should.
-/
namespace Verif

theorem linked_reopen (s : St) : Linked (reopen s).2 :=
  ⟨rfl, fun h hh => by simp [reopen, CachedCalls.open_, InMem.empty, InMem.exists_] at hh⟩

theorem linked_end (cfg : Cfg) (e : End) (s : St) : Linked (endSession cfg e s) := by
  cases e <;> exact linked_reopen _

theorem linked_sessions (cfg : Cfg) : ∀ (ps : List (List Cmd × End)) {s : St}, Linked s → Linked (runSessions cfg s ps)
  | [], _, h => h
  | (_, _) :: ps, _, _ => linked_sessions cfg ps (linked_end cfg _ _)

theorem linked_last {cfg : Cfg} {o : Option (Joblib Val)} {thr : Nat} (ps : List (List Cmd × End)) {p : List Cmd} (hp : ∀ c ∈ p, c.NoClear) :
    Linked (runLast cfg (.fresh o thr) ps p).2.2 :=
  linked_prog cfg p [] _ hp (linked_sessions cfg ps (linked_fresh o thr))

/-- The cached calls can be dropped if all of them have rows. -/
theorem dropCached_ok : ∀ (hs : List String) (s : St), s.stale = none → (∀ h ∈ hs, s.calls.cache.exists_ h = true → rowsOf s.calls.cache.df h ≠ []) →
    ∃ s', dropCached hs s = (.ok (), s')
  | [], s, _, _ => ⟨s, rfl⟩
  | k :: hs, s, hst, hr => by
    unfold dropCached
    have hcc : s.callCache = s.calls.cache := by simp [St.callCache, hst]
    rw [hcc]
    by_cases hex : s.calls.cache.exists_ k = true
    · rw [if_pos hex]
      have hd : s.calls.cache.drop k = .ok { df := s.calls.cache.df.filter (fun r => r.callHid ≠ k), callHids := s.calls.cache.callHids.filter (· ≠ k) } := by
        unfold InMem.drop
        rw [if_neg (hr k (by simp) hex)]
      rw [hd]
      have hset : ∀ m, s.setCallCache m = { s with calls := { s.calls with cache := m } } := fun m => by unfold St.setCallCache; rw [hst]
      simp only [hset]
      refine dropCached_ok hs _ hst fun h hh he => ?_
      have hne : h ≠ k ∧ s.calls.cache.exists_ h = true := by
        simp only [InMem.exists_, List.mem_filter, decide_eq_true_eq] at he ⊢
        exact ⟨he.2, he.1⟩
      have := hr h (by simp [hh]) hne.2
      intro h0
      apply this
      simp only [rowsOf, List.filter_filter] at h0 ⊢
      rw [← h0]
      congr 1
      funext r
      by_cases hrh : r.callHid = h
      · simp [hrh, hne.1]
      · simp [hrh]
    · rw [if_neg hex]
      exact dropCached_ok hs s hst fun h hh => hr h (by simp [hh])

theorem dropCalls_ok {hids : List String} {b : Bool} {s : St} (hst : s.stale = none)
    (hr : ∀ h ∈ dropSet s hids b, s.calls.cache.exists_ h = true → rowsOf s.calls.cache.df h ≠ []) : ∃ s', dropCalls hids b s = (.ok (), s') := by
  obtain ⟨s1, h1⟩ := dropCached_ok _ s hst hr
  refine ⟨{ s1 with calls := { s1.calls with pers := s1.calls.pers.filter (fun r => r.callHid ∉ dropSet s hids b) } }, ?_⟩
  unfold dropCalls
  change (match dropCached (dropSet s hids b) s with
    | (.error e, s') => (Except.error e, s')
    | (.ok _, s') => (Except.ok (), { s' with calls := { s'.calls with pers := s'.calls.pers.filter (fun r => r.callHid ∉ dropSet s hids b) } })) = _
  rw [h1]

/-- Committed calls that are cached have rows in the cache. -/
theorem cached_rows {W : World} (hW : W.Good) {s : St} (hi : Inv W s) (hf : MemFull W s.calls.cache) {h : String} (hc : s.calls.cache.exists_ h = true)
    (hp : sqlExists s.calls.pers h = true) : rowsOf s.calls.cache.df h ≠ [] := by
  intro h0
  obtain ⟨r, hr, rfl⟩ := sqlExists_iff.1 hp
  rcases hf r.callHid (by simpa [InMem.exists_] using hc) with ⟨r', hr', he⟩ | ⟨op, cid, hs⟩
  · have : r' ∈ rowsOf s.calls.cache.df r.callHid := by simp [rowsOf, hr', he]
    rw [h0] at this
    simp at this
  · obtain ⟨cins, outs, g1, ⟨t, _, _, g2⟩, g3, _⟩ := hi.pers r hr
    obtain ⟨_, g4, g5⟩ := callSem_functional hW hs g1
    cases hd : r.dir with
    | in_ =>
      have := g2 hd
      simp_all
    | out =>
      obtain ⟨t, ht, _⟩ := g3 hd
      simp_all

/-- Deleting calls with their dependents, when nothing is uncommitted and the cache has not been replaced. -/
theorem drop_exact {s s' : St} {hids : List String} (hl : Linked s) (hdirty : s.calls.dirty = []) (hd : dropCalls hids true s = (.ok (), s')) :
    DeletedExactly s s' hids := by
  have hpers : ∀ h, s.calls.exists_ h = true → sqlExists s.calls.pers h = true := by
    intro h hh
    rcases exists_iff.1 hh with h1 | h1
    · rcases hl.2 h h1 with h2 | h2
      · rw [hdirty] at h2; simp at h2
      · exact h2
    · exact h1
  obtain ⟨_, _, v1, v2, v3, v4, h3, h4, h5⟩ := dropCalls_spec hl.1 hd
  rcases h5 with ⟨_, h6, h7⟩ | ⟨⟨e, he⟩, _⟩
  · have hex : ∀ h, s'.calls.exists_ h = true ↔ s.calls.exists_ h = true ∧ ¬ Dependent s.calls.pers [] hids (.call h) := by
      intro h
      rw [← mem_dropSet]
      constructor
      · intro hh
        rcases exists_iff.1 hh with h8 | h8
        · refine ⟨exists_iff.2 (.inl (h3 h h8)), fun hm => ?_⟩
          rw [h7 h hm] at h8; cases h8
        · rw [h6, sqlExists_filter (p := fun k => k ∈ dropSet s hids true)] at h8
          exact ⟨exists_iff.2 (.inr h8.1), h8.2⟩
      · rintro ⟨h8, h9⟩
        rw [exists_iff]
        right
        rw [h6, sqlExists_filter (p := fun k => k ∈ dropSet s hids true)]
        exact ⟨hpers h h8, h9⟩
    refine ⟨hex, ?_, ?_, ⟨v1, v2, v3⟩, v4⟩
    · intro h hh
      have hnm : h ∉ dropSet s hids true := by rw [mem_dropSet]; exact ((hex h).1 hh).2
      rw [h6]
      simp only [rowsOf, List.filter_filter]
      congr 1
      funext r
      by_cases hr : r.callHid = h
      · simp [hr, hnm]
      · simp [hr]
    · intro r hr hgone hout r' hr' hin heq
      have hex' : s.calls.exists_ r.callHid = true := exists_iff.2 (.inr (sqlExists_iff.2 ⟨r, hr, rfl⟩))
      have hdep : Dependent s.calls.pers [] hids (.call r.callHid) := by
        by_cases hdep : Dependent s.calls.pers [] hids (.call r.callHid)
        · exact hdep
        · rw [(hex r.callHid).2 ⟨hex', hdep⟩] at hgone; cases hgone
      rw [h6, List.mem_filter] at hr'
      simp only [decide_eq_true_eq, mem_dropSet] at hr'
      apply hr'.2
      obtain ⟨st, hst, hstar⟩ := hdep
      refine ⟨st, hst, ?_⟩
      have f1 : Flow s.calls.pers (.call r.callHid) (.ref r.refHid) := .produce hr hout
      have f2 : Flow s.calls.pers (.ref r.refHid) (.call r'.callHid) := heq ▸ .consume hr'.1 hin
      exact (hstar.tail f1).tail f2
  · cases he

/-- In any process, dropping calls succeeds once everything is committed. -/
theorem drop_succeeds {W : World} (hW : W.Good) {s : St} (hl : Linked s) (hi : Inv W s) (hf : MemFull W s.calls.cache) (hdirty : s.calls.dirty = [])
    (hids : List String) (b : Bool) : ∃ s', dropCalls hids b s = (.ok (), s') := by
  refine dropCalls_ok hl.1 fun h _ hc => cached_rows hW hi hf hc ?_
  rcases hl.2 h hc with h2 | h2
  · rw [hdirty] at h2; simp at h2
  · exact h2

/-- The order and repetitions of the ids do not matter. -/
theorem DeletedExactly.same {s s' : St} {hids hids' : List String} (h : DeletedExactly s s' hids) (hm : ∀ x, x ∈ hids ↔ x ∈ hids') :
    DeletedExactly s s' hids' := by
  have hd : ∀ n, Dependent s.calls.pers [] hids n ↔ Dependent s.calls.pers [] hids' n := by
    intro n
    unfold Dependent
    simp only [List.mem_map, hm]
  exact ⟨fun x => by rw [h.calls x, hd], h.rows, h.closed, h.values, h.silent⟩

end Verif
