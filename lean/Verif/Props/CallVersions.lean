import Verif.Props.DropVersion
import Verif.Proofs.Backed
import Verif.Proofs.FirmSess
/-!
C37: which version a recorded call has.
-/
namespace Verif.Props

open Verif VStorage DropEx

/-- The rows a storage has of calls, in memory and in the database. -/
def allRows (s : St) : List Row := s.calls.cache.df ++ s.calls.pers

/-- The storage has something of the call. -/
def HoldsCall (s : St) (h : String) : Prop := ∃ r ∈ allRows s, r.callHid = h

/-- The call has this semantic version (`none`: no version). -/
def HasVersion (s : St) (h : String) (x : Option String) : Prop := ∃ r ∈ allRows s, r.callHid = h ∧ r.semVer = x

/-- Each call has one version. -/
structure OneVersion (s : St) : Prop where
  known : ∀ r ∈ s.calls.cache.df, r.callHid ∈ s.calls.cache.callHids
  same : ∀ r ∈ allRows s, ∀ r' ∈ allRows s, r.callHid = r'.callHid → r.semVer = r'.semVer

/-- Rows are only added, or only removed, and each call keeps one version. -/
def Evolves (s s' : St) : Prop := OneVersion s → OneVersion s' ∧ ((∀ r ∈ allRows s, r ∈ allRows s') ∨ ∀ r ∈ allRows s', r ∈ allRows s)

/-- Rows are only added, and each call keeps one version. -/
def Gains (s s' : St) : Prop := OneVersion s → OneVersion s' ∧ ∀ r ∈ allRows s, r ∈ allRows s'

theorem Gains.ord : PreOrd Gains := ⟨fun _ h => ⟨h, fun _ h => h⟩, fun h1 h2 h =>
  ⟨(h2 (h1 h).1).1, fun r hr => (h2 (h1 h).1).2 r ((h1 h).2 r hr)⟩⟩

theorem Gains.of_calls {s s' : St} (h : s'.calls = s.calls) : Gains s s' := by
  intro hs
  have e : allRows s' = allRows s := by simp [allRows, h]
  exact ⟨⟨by rw [h]; exact hs.known, by rw [e]; exact hs.same⟩, by rw [e]; exact fun _ h => h⟩

theorem OneVersion.of_subset {s s' : St} (h : OneVersion s) (hk : ∀ r ∈ s'.calls.cache.df, r.callHid ∈ s'.calls.cache.callHids)
    (hs : ∀ r ∈ allRows s', r ∈ allRows s) : OneVersion s' := ⟨hk, fun r hr r' hr' => h.same r (hs r hr) r' (hs r' hr')⟩

theorem saveCallV_adds {c : CallObj} {sv cv : Option String} {s s' : St} {x : Except Err Unit} (h : saveCallV c sv cv s = (x, s')) :
    (s'.calls = s.calls ∧ (x = .ok () → s.calls.exists_ c.hid = true)) ∨
    s.calls.exists_ c.hid = false ∧ s'.calls = s.calls.save { c.toRec with semVer := sv, contVer := cv } := by
  have heq : saveCallV c sv cv s = if s.calls.exists_ c.hid then (.ok (), s) else
      M.bind (do if ← M.read (fun s => s.ops.exists_ c.op) then M.pure () else opsSet c.op)
        (fun _ => M.bind (saveRefs (c.inputs.map (·.2) ++ c.outputs.map (·.2)))
          (fun _ s => (.ok (), { s with calls := s.calls.save { c.toRec with semVer := sv, contVer := cv } }))) s := by
    unfold saveCallV
    show M.bind _ _ s = _
    unfold M.bind
    simp only [M.read]
    split <;> rfl
  rw [heq] at h
  split at h
  · rename_i hex; cases h; exact .inl ⟨rfl, fun _ => hex⟩
  · rename_i hne
    have hq1 : Pres Quiet (do if ← M.read (fun s => s.ops.exists_ c.op) then M.pure () else opsSet c.op) :=
      Pres.bind Quiet.ord (Pres.read Quiet.ord _) (fun _ => Pres.ite (fun _ => Pres.pure Quiet.ord _) (fun _ => quiet_opsSet _))
    have hq2 := quiet_saveRefs (c.inputs.map (·.2) ++ c.outputs.map (·.2))
    unfold M.bind at h
    have h1 := hq1 s
    split at h
    · rename_i s1 hs1
      rw [hs1] at h1
      have h2 := hq2 s1
      dsimp only at h
      split at h
      · rename_i s2 hs2
        rw [hs2] at h2
        cases h
        right
        refine ⟨by simpa using hne, ?_⟩
        have h3 : s2.calls = s1.calls := h2.calls
        have h4 : s1.calls = s.calls := h1.calls
        simp only [h3, h4]
      · rename_i s2 hs2
        rw [hs2] at h2
        cases h
        exact .inl ⟨h2.calls.trans h1.calls, fun h => by cases h⟩
    · rename_i s1 hs1
      rw [hs1] at h1
      cases h
      exact .inl ⟨h1.calls, fun h => by cases h⟩

theorem save_semVer {m : InMem} {c : CallRec} {x : Row} (h : x ∈ (m.save c).df) : x ∈ m.df ∨ x.callHid = c.hid ∧ x.semVer = c.semVer := by
  unfold InMem.save at h
  split at h
  · exact .inl h
  · rcases mem_foldl_setRow h with h | h
    · obtain ⟨p, _, rfl⟩ := List.mem_map.1 h
      exact .inr ⟨rfl, rfl⟩
    · rcases mem_foldl_setRow h with h | h
      · obtain ⟨p, _, rfl⟩ := List.mem_map.1 h
        exact .inr ⟨rfl, rfl⟩
      · exact .inl h

theorem not_exists_rows {s : St} (h : OneVersion s) {k : String} (hn : s.calls.exists_ k = false) : ∀ r ∈ allRows s, r.callHid ≠ k := by
  intro r hr e
  subst e
  have : s.calls.exists_ r.callHid = true := by
    rw [exists_iff]
    rcases List.mem_append.1 hr with hr | hr
    · exact .inl (by simp [InMem.exists_, h.known r hr])
    · exact .inr (sqlExists_iff.2 ⟨r, hr, rfl⟩)
  rw [this] at hn
  cases hn

theorem gains_saveCallV (c : CallObj) (sv cv : Option String) : Pres Gains (saveCallV c sv cv) := by
  intro s
  rcases saveCallV_adds (x := (saveCallV c sv cv s).1) (s' := (saveCallV c sv cv s).2) rfl with ⟨h, _⟩ | ⟨hn, h⟩
  · exact .of_calls h
  · intro hs
    have hne := not_exists_rows hs hn
    have hk := InMem.save_new (c := { c.toRec with semVer := sv, contVer := cv }) hs.known
    have hrow : ∀ r ∈ allRows (saveCallV c sv cv s).2, r ∈ allRows s ∨ r.callHid = c.hid ∧ r.semVer = sv := by
      intro r hr
      unfold allRows at hr
      rw [h] at hr
      rcases List.mem_append.1 hr with hr | hr
      · rcases save_semVer hr with hr | hr
        · exact .inl (List.mem_append_left _ hr)
        · exact .inr hr
      · exact .inl (List.mem_append_right _ hr)
    refine ⟨⟨by rw [h]; exact hk.1, ?_⟩, ?_⟩
    · intro r hr r' hr' e
      rcases hrow r hr with h1 | ⟨h1, h2⟩
      · rcases hrow r' hr' with h3 | ⟨h3, _⟩
        · exact hs.same r h1 r' h3 e
        · exact absurd (e.trans h3) (hne r h1)
      · rcases hrow r' hr' with h3 | ⟨_, h4⟩
        · exact absurd (e.symm.trans h1) (hne r' h3)
        · rw [h2, h4]
    · intro r hr
      unfold allRows
      rw [h]
      rcases List.mem_append.1 hr with hr | hr
      · exact List.mem_append_left _ (hk.2 r hr)
      · exact List.mem_append_right _ hr

theorem addRow_semVer (rs : List Row) : ∀ d : CallData, (rs.foldl CallData.addRow d).semVer = d.semVer := by
  induction rs with
  | nil => intro d; rfl
  | cons r rs ih =>
    intro d
    rw [List.foldl_cons, ih]
    unfold CallData.addRow
    cases r.dir <;> rfl

theorem dataOfRows_semVer {rows : List Row} {h : String} {d : CallData} (hd : dataOfRows (rowsOf rows h) = some d) :
    ∃ r ∈ rows, r.callHid = h ∧ r.semVer = d.semVer := by
  unfold dataOfRows at hd
  split at hd
  · cases hd
  · rename_i r rs heq
    cases hd
    have : r ∈ rowsOf rows h := by rw [heq]; simp
    obtain ⟨h1, h2⟩ := mem_rowsOf.1 this
    refine ⟨r, h1, h2, ?_⟩
    rw [addRow_semVer]

theorem toRows_semVer {d : CallData} {r : Row} (h : r ∈ d.toRows) : r.semVer = d.semVer := by
  simp only [CallData.toRows, List.mem_append, List.mem_map] at h
  rcases h with ⟨p, _, rfl⟩ | ⟨p, _, rfl⟩ <;> rfl

theorem flush_versions {cache : InMem} : ∀ {hs : List String} {rows rows' : List Row}, CachedCalls.flush cache hs rows = (.ok (), rows') →
    ∀ r ∈ rows', r ∈ rows ∨ ∃ q ∈ cache.df, q.callHid = r.callHid ∧ q.semVer = r.semVer
  | [], rows, rows', hf => by simp only [CachedCalls.flush, Prod.mk.injEq, true_and] at hf; subst hf; exact fun r hr => .inl hr
  | h :: hs, rows, rows', hf => by
    simp only [CachedCalls.flush] at hf
    cases hg : cache.getData h with
    | error e => rw [hg] at hf; simp at hf
    | ok d =>
      rw [hg] at hf
      simp only at hf
      cases hs' : sqlSave rows d with
      | mk y rows1 =>
        rw [hs'] at hf
        cases y with
        | error e => simp at hf
        | ok _ =>
          intro r hr
          rcases flush_versions hf r hr with h1 | h1
          · rw [insertRows_ok hs'] at h1
            rcases List.mem_append.1 h1 with h1 | h1
            · exact .inl h1
            · have hd := getData_rows hg
              obtain ⟨q, q1, q2, q3⟩ := dataOfRows_semVer hd
              refine .inr ⟨q, q1, ?_, ?_⟩
              · rw [q2, toRows_hid h1, (dataOfRows_ne hd).1]
              · rw [q3, toRows_semVer h1]
          · exact .inr h1

theorem gains_commit (cfg : Cfg) : Pres Gains (Verif.commit cfg) := by
  intro s
  obtain ⟨hc, h⟩ := commit_calls (x := (Verif.commit cfg s).1) (s' := (Verif.commit cfg s).2) rfl
  rcases h with ⟨_, hp, hd⟩ | ⟨_, hd, hf⟩
  · intro hs
    have e : allRows (Verif.commit cfg s).2 = allRows s := by simp [allRows, hc, hp]
    exact ⟨⟨by rw [hc]; exact hs.known, by rw [e]; exact hs.same⟩, by rw [e]; exact fun _ h => h⟩
  · intro hs
    have hrow : ∀ r ∈ allRows (Verif.commit cfg s).2, ∃ q ∈ allRows s, q.callHid = r.callHid ∧ q.semVer = r.semVer := by
      intro r hr
      unfold allRows at hr
      rw [hc] at hr
      rcases List.mem_append.1 hr with hr | hr
      · exact ⟨r, List.mem_append_left _ hr, rfl, rfl⟩
      · rcases flush_versions hf r hr with h | ⟨q, h1, h2⟩
        · exact ⟨r, List.mem_append_right _ h, rfl, rfl⟩
        · exact ⟨q, List.mem_append_left _ h1, h2⟩
    refine ⟨⟨by rw [hc]; exact hs.known, ?_⟩, ?_⟩
    · intro r hr r' hr' e
      obtain ⟨q, q1, q2, q3⟩ := hrow r hr
      obtain ⟨q', p1, p2, p3⟩ := hrow r' hr'
      rw [← q3, ← p3]
      exact hs.same q q1 q' p1 (by rw [q2, p2, e])
    · intro r hr
      unfold allRows
      rw [hc]
      rcases List.mem_append.1 hr with hr | hr
      · exact List.mem_append_left _ hr
      · exact List.mem_append_right _ (flush_sub hf r hr)

theorem calls_cleanupRefs (s : St) : (Verif.cleanupRefs s).2.calls = s.calls := by
  have ho : PreOrd (fun s s' : St => s'.calls = s.calls) := ⟨fun _ => rfl, fun h1 h2 => h2.trans h1⟩
  have : Pres (fun s s' : St => s'.calls = s.calls) Verif.cleanupRefs := by
    unfold cleanupRefs
    refine Pres.bind ho (Pres.read ho _) (fun _ => ?_)
    refine Pres.bind ho (Pres.forM' ho _ (fun h _ => fun s => rfl)) (fun _ => ?_)
    refine Pres.bind ho (Pres.read ho _) (fun _ => ?_)
    exact Pres.forM' ho _ (fun h _ => fun s => rfl)
  exact this s

theorem evolves_dropCalls {hids : List String} {b : Bool} {s : St} (hst : s.stale = none) : Evolves s (Verif.dropCalls hids b s).2 := by
  intro hs
  obtain ⟨hk, hrows⟩ := dropCalls_known (hids := hids) (b := b) hst hs.known
  have hsub : ∀ r ∈ allRows (Verif.dropCalls hids b s).2, r ∈ allRows s := by
    intro r hr
    rcases List.mem_append.1 hr with hr | hr
    · refine List.mem_append_left _ ?_
      have hx := hrows r.callHid (by simp [InMem.exists_, hk r hr])
      have : r ∈ rowsOf s.calls.cache.df r.callHid := by rw [← hx]; exact mem_rowsOf.2 ⟨hr, rfl⟩
      exact (mem_rowsOf.1 this).1
    · refine List.mem_append_right _ ?_
      obtain ⟨_, _, _, _, _, _, _, _, h5⟩ := dropCalls_spec (x := (Verif.dropCalls hids b s).1) (s' := (Verif.dropCalls hids b s).2) hst rfl
      rcases h5 with ⟨_, h6, _⟩ | ⟨_, h6⟩
      · rw [h6] at hr; exact (List.mem_filter.1 hr).1
      · rw [h6] at hr; exact hr
  exact ⟨hs.of_subset hk hsub, .inr hsub⟩

theorem Gains.evolves {s s' : St} (h : Gains s s') : Evolves s s' := fun hs => ⟨(h hs).1, .inl (h hs).2⟩

/-- Every statement only adds or only removes rows, and leaves each call with one version. -/
theorem evolves_step (H : Val → String) (cfg : Cfg) (v : VStorage) (c : VStorage.Cmd) (hst : v.s.stale = none) : Evolves v.s (v.step H cfg c).2.s := by
  cases c with
  | enter cs answer => exact (Gains.ord.1 _).evolves
  | record uid roots trace edges c structural =>
    simp only [VStorage.step]
    cases hx : v.st.executed H uid roots trace edges with
    | mk x st =>
      cases x with
      | error e => exact (Gains.ord.1 _).evolves
      | ok w =>
        exact (Pres.bind Gains.ord (gains_saveCallV _ _ _) (fun _ => Pres.forM' Gains.ord _ (fun c _ => gains_saveCallV c _ _)) v.s).evolves
  | again c known =>
    simp only [VStorage.step]
    cases v.s.calls.getData known with
    | error e => exact (Gains.ord.1 _).evolves
    | ok d => exact (gains_saveCallV _ _ _ v.s).evolves
  | commit =>
    have := gains_commit cfg v.s
    simp only [VStorage.step]
    cases hc : Verif.commit cfg v.s with
    | mk x s =>
      rw [hc] at this
      cases x <;> exact this.evolves
  | dropCalls hids b => exact evolves_dropCalls hst
  | dropVersion sv =>
    have := evolves_dropCalls (hids := versionHids v.s.calls.pers sv) (b := true) hst
    simp only [VStorage.step, VStorage.dropVersion]
    cases hc : Verif.dropCalls (versionHids v.s.calls.pers sv) true v.s with
    | mk x s =>
      rw [hc] at this
      cases x <;> exact this
  | cleanupRefs => exact (Gains.of_calls (calls_cleanupRefs v.s)).evolves
  | preload =>
    intro hs
    have hc : (v.step H cfg .preload).2.s.calls = { v.s.calls with cache := InMem.ofRows v.s.calls.pers } := by
      show (Verif.preload v.s).2.calls = _
      unfold preload St.setCallCache
      rw [hst]
    have hsub : ∀ r ∈ allRows (v.step H cfg .preload).2.s, r ∈ allRows v.s := by
      intro r hr
      unfold allRows at hr
      rw [hc] at hr
      rcases List.mem_append.1 hr with hr | hr <;> exact List.mem_append_right _ hr
    refine ⟨hs.of_subset ?_ hsub, .inr hsub⟩
    rw [hc]
    intro r hr
    exact List.mem_map.2 ⟨r, hr, rfl⟩
  | reopen =>
    intro hs
    have hsub : ∀ r ∈ allRows (v.step H cfg .reopen).2.s, r ∈ allRows v.s := fun r hr => List.mem_append_right _ hr
    exact ⟨hs.of_subset (fun r hr => by cases hr) hsub, .inr hsub⟩

theorem oneVersion_fresh (thr : Nat) : OneVersion (St.fresh none thr) := ⟨fun r hr => by simp [St.fresh, CachedCalls.open_, InMem.empty] at hr, fun r hr => by simp [allRows, St.fresh, CachedCalls.open_, InMem.empty] at hr⟩

theorem oneVersion_run (H : Val → String) (cfg : Cfg) : ∀ (cmds : List VStorage.Cmd) (v : VStorage), Linked v.s → OneVersion v.s → OneVersion (v.run H cfg cmds).s
  | [], _, _, h => h
  | c :: cs, v, hl, h => oneVersion_run H cfg cs _ (linked_step H cfg v c hl) (evolves_step H cfg v c hl.1 h).1

theorem Evolves.keeps {s s' : St} (h : Evolves s s') (hs : OneVersion s) {k : String} {x : Option String} (hv : HasVersion s k x) (hk : HoldsCall s' k) :
    HasVersion s' k x := by
  obtain ⟨r, hr, rfl, rfl⟩ := hv
  rcases (h hs).2 with h1 | h1
  · exact ⟨r, h1 r hr, rfl, rfl⟩
  · obtain ⟨r', hr', e⟩ := hk
    exact ⟨r', hr', e, hs.same r' (h1 r' hr') r hr e⟩

/-- The storage has the call at every moment of the run. -/
def Stays (H : Val → String) (cfg : Cfg) (v : VStorage) (cmds : List VStorage.Cmd) (h : String) : Prop :=
  ∀ cs cs', cmds = cs ++ cs' → HoldsCall (v.run H cfg cs).s h

theorem keeps_run (H : Val → String) (cfg : Cfg) {h : String} {x : Option String} : ∀ (cmds : List VStorage.Cmd) (v : VStorage), Linked v.s → OneVersion v.s →
    HasVersion v.s h x → Stays H cfg v cmds h → HasVersion (v.run H cfg cmds).s h x
  | [], _, _, _, hv, _ => hv
  | c :: cs, v, hl, hs, hv, hst => by
    refine keeps_run H cfg cs _ (linked_step H cfg v c hl) (evolves_step H cfg v c hl.1 hs).1 ?_ ?_
    · exact Evolves.keeps (evolves_step H cfg v c hl.1) hs hv (hst [c] cs rfl)
    · intro as bs e
      exact hst (c :: as) bs (by rw [e]; rfl)

theorem saved_version {c : CallObj} {sv cv : Option String} {s : St} (hn : s.calls.exists_ c.hid = false) (hio : c.inputs ≠ [] ∨ c.outputs ≠ [])
    (hok : (saveCallV c sv cv s).1 = .ok ()) (hs : OneVersion s) : HasVersion (saveCallV c sv cv s).2 c.hid sv := by
  rcases saveCallV_adds (x := (saveCallV c sv cv s).1) (s' := (saveCallV c sv cv s).2) rfl with ⟨_, h⟩ | ⟨_, h⟩
  · rw [h hok] at hn; cases hn
  · have hcn : c.hid ∉ s.calls.cache.callHids := by
      intro hm
      have : s.calls.exists_ c.hid = true := exists_iff.2 (.inl (by simp [InMem.exists_, hm]))
      rw [this] at hn; cases hn
    have hsome : ∃ r ∈ (s.calls.cache.save { c.toRec with semVer := sv, contVer := cv }).df, r.callHid = c.hid := by
      unfold InMem.save
      rw [if_neg (by exact hcn)]
      rcases hio with hi | ho
      · obtain ⟨p, hp⟩ := List.exists_mem_of_ne_nil _ hi
        exact foldl_setRow_has (foldl_setRow_new ⟨_, List.mem_map_of_mem (List.mem_map_of_mem hp), rfl⟩)
      · obtain ⟨p, hp⟩ := List.exists_mem_of_ne_nil _ ho
        exact foldl_setRow_new ⟨_, List.mem_map_of_mem (List.mem_map_of_mem hp), rfl⟩
    obtain ⟨r, hr, hh⟩ := hsome
    refine ⟨r, ?_, hh, ?_⟩
    · unfold allRows; rw [h]; exact List.mem_append_left _ hr
    · rcases save_semVer hr with h1 | h1
      · exact absurd (hh ▸ hs.known r h1) hcn
      · exact h1.2

/-- C37: a call that is executed and new is recorded with the semantic version it was executed with, and has it as long as the storage has the
call, whatever happens. -/
theorem C37_executed_call_has_version (H : Val → String) (cfg : Cfg) (strict : Bool) (thr : Nat) (cmds cmds' : List VStorage.Cmd)
    {uid : String} {roots : List DepKey} {trace : Dict DepKey TNode} {edges : List (DepKey × DepKey)} {c : String → CallObj} {structural : String → List CallObj}
    {v v1 : VStorage} (hv : v = (fresh strict thr).run H cfg cmds) {w : Version} {st : VSt} (hw : v.st.executed H uid roots trace edges = (.ok w, st))
    (hnew : v.s.calls.exists_ (c w.semanticVersion).hid = false) (hio : (c w.semanticVersion).inputs ≠ [] ∨ (c w.semanticVersion).outputs ≠ [])
    (hstep : v.step H cfg (.record uid roots trace edges c structural) = (.ok (), v1)) (hstays : Stays H cfg v1 cmds' (c w.semanticVersion).hid) :
    HasVersion (v1.run H cfg cmds').s (c w.semanticVersion).hid (some w.semanticVersion) := by
  have hl : Linked v.s := by rw [hv]; exact linked_run H cfg cmds _ (linked_fresh none thr)
  have ho : OneVersion v.s := by rw [hv]; exact oneVersion_run H cfg cmds _ (linked_fresh none thr) (oneVersion_fresh thr)
  have hl1 := linked_step H cfg v (.record uid roots trace edges c structural) hl
  have ho1 := (evolves_step H cfg v (.record uid roots trace edges c structural) hl.1 ho).1
  rw [hstep] at hl1 ho1
  refine keeps_run H cfg cmds' v1 hl1 ho1 ?_ hstays
  simp only [VStorage.step, hw, VStorage.onStore] at hstep
  cases hs : saveCallV (c w.semanticVersion) (some w.semanticVersion) (some w.contentVersion) v.s with
  | mk x s1 =>
    change ((M.bind _ _ v.s).1, ({ v with st := st, s := (M.bind _ _ v.s).2 } : VStorage)) = _ at hstep
    unfold M.bind at hstep
    rw [hs] at hstep
    cases x with
    | error e => cases hstep
    | ok u =>
      have h1 := saved_version hnew hio (by rw [hs]) ho (sv := some w.semanticVersion) (cv := some w.contentVersion)
      have h2 := gains_saveCallV (c w.semanticVersion) (some w.semanticVersion) (some w.contentVersion) v.s ho
      rw [hs] at h1 h2
      obtain ⟨r, hr, e1, e2⟩ := h1
      have h3 := Pres.forM' Gains.ord (structural w.semanticVersion) (fun c _ => gains_saveCallV c none none) s1 h2.1
      have e := congrArg Prod.snd hstep
      simp only at e
      subst e
      exact ⟨r, h3.2 r hr, e1, e2⟩

/-- C37: a call whose contents are known but whose history is new gets the version of the known call. -/
theorem C37_known_call_has_version (H : Val → String) (cfg : Cfg) (strict : Bool) (thr : Nat) (cmds cmds' : List VStorage.Cmd)
    {c : CallObj} {known : String} {x : Option String} {v v1 : VStorage} (hv : v = (fresh strict thr).run H cfg cmds) (hx : HasVersion v.s known x)
    (hnew : v.s.calls.exists_ c.hid = false) (hio : c.inputs ≠ [] ∨ c.outputs ≠ []) (hstep : v.step H cfg (.again c known) = (.ok (), v1))
    (hstays : Stays H cfg v1 cmds' c.hid) : HasVersion (v1.run H cfg cmds').s c.hid x := by
  have hl : Linked v.s := by rw [hv]; exact linked_run H cfg cmds _ (linked_fresh none thr)
  have ho : OneVersion v.s := by rw [hv]; exact oneVersion_run H cfg cmds _ (linked_fresh none thr) (oneVersion_fresh thr)
  have hl1 := linked_step H cfg v (.again c known) hl
  have ho1 := (evolves_step H cfg v (.again c known) hl.1 ho).1
  rw [hstep] at hl1 ho1
  refine keeps_run H cfg cmds' v1 hl1 ho1 ?_ hstays
  simp only [VStorage.step] at hstep
  cases hg : v.s.calls.getData known with
  | error e => rw [hg] at hstep; cases hstep
  | ok d =>
    rw [hg] at hstep
    have hd : d.semVer = x := by
      obtain ⟨r, hr, e1, e2⟩ := hx
      have : ∃ q ∈ allRows v.s, q.callHid = known ∧ q.semVer = d.semVer := by
        unfold CachedCalls.getData at hg
        split at hg
        · obtain ⟨q, h1, h2⟩ := dataOfRows_semVer (getData_rows hg)
          exact ⟨q, List.mem_append_left _ h1, h2⟩
        · obtain ⟨q, h1, h2⟩ := dataOfRows_semVer (sqlGetData_iff.1 hg)
          exact ⟨q, List.mem_append_right _ h1, h2⟩
      obtain ⟨q, q1, q2, q3⟩ := this
      rw [← q3, ← e2]
      exact ho.same q q1 r hr (q2.trans e1.symm)
    simp only [VStorage.onStore] at hstep
    have hok : (saveCallV c d.semVer d.contVer v.s).1 = .ok () := (Prod.mk.injEq _ _ _ _ ▸ hstep).1
    have h1 := saved_version hnew hio hok ho
    obtain rfl : ({ v with s := (saveCallV c d.semVer d.contVer v.s).2 } : VStorage) = v1 := (Prod.mk.injEq _ _ _ _ ▸ hstep).2
    rw [hd] at h1 ⊢
    exact h1

theorem commit_clean (H : Val → String) (cfg : Cfg) {v v1 : VStorage} (hcommit : v.step H cfg .commit = (.ok (), v1)) : v1.s.calls.dirty = [] := by
  simp only [VStorage.step] at hcommit
  cases hc : Verif.commit cfg v.s with
  | mk x s =>
    rw [hc] at hcommit
    cases x with
    | error e => simp at hcommit
    | ok u =>
      simp only [Prod.mk.injEq, true_and] at hcommit
      obtain ⟨_, h⟩ := commit_calls hc
      rcases h with ⟨⟨e, he⟩, _⟩ | ⟨_, h, _⟩
      · cases he
      · rw [← hcommit]; exact h

/-- C37: after a commit, the calls that have a version are those found in the database when it is dropped. -/
theorem C37_committed_versions (H : Val → String) (cfg : Cfg) (strict : Bool) (thr : Nat) (cmds : List VStorage.Cmd) {v1 : VStorage}
    (hcommit : ((fresh strict thr).run H cfg cmds).step H cfg .commit = (.ok (), v1)) (h sv : String) :
    HasVersion v1.s h (some sv) ↔ OfVersion v1.s.calls.pers sv h := by
  have hl0 : Linked ((fresh strict thr).run H cfg cmds).s := linked_run H cfg cmds _ (linked_fresh none thr)
  have ho0 := oneVersion_run H cfg cmds (fresh strict thr) (linked_fresh none thr) (oneVersion_fresh thr)
  have hl := linked_step H cfg _ .commit hl0
  have ho := (evolves_step H cfg _ .commit hl0.1 ho0).1
  rw [hcommit] at hl ho
  have hdirty := commit_clean H cfg hcommit
  constructor
  · rintro ⟨r, hr, rfl, e2⟩
    rcases List.mem_append.1 hr with hr' | hr'
    · rcases hl.2 r.callHid (by simp [InMem.exists_, ho.known r hr']) with h2 | h2
      · rw [hdirty] at h2; simp at h2
      · obtain ⟨q, q1, q2⟩ := sqlExists_iff.1 h2
        exact ⟨q, q1, q2, (ho.same q (List.mem_append_right _ q1) r hr q2).trans e2⟩
    · exact ⟨r, hr', rfl, e2⟩
  · rintro ⟨r, hr, e1, e2⟩
    exact ⟨r, List.mem_append_right _ hr, e1, e2⟩

/-- C37: what was committed is what the next process has: the same calls with the same versions, and all versions that are known. -/
theorem C37_committed_for_all_processes (H : Val → String) (cfg : Cfg) (strict : Bool) (thr : Nat) (cmds : List VStorage.Cmd) {v1 v2 : VStorage}
    (hcommit : ((fresh strict thr).run H cfg cmds).step H cfg .commit = (.ok (), v1)) (hre : v1.step H cfg .reopen = (.ok (), v2)) :
    (∀ h, v2.s.calls.exists_ h = ((fresh strict thr).run H cfg cmds).s.calls.exists_ h) ∧
    (∀ h x, HasVersion v2.s h x ↔ HasVersion ((fresh strict thr).run H cfg cmds).s h x) ∧
    v2.st.versioner = ((fresh strict thr).run H cfg cmds).st.versioner := by
  have hl0 : Linked ((fresh strict thr).run H cfg cmds).s := linked_run H cfg cmds _ (linked_fresh none thr)
  have ho0 := oneVersion_run H cfg cmds (fresh strict thr) (linked_fresh none thr) (oneVersion_fresh thr)
  have hl := linked_step H cfg _ .commit hl0
  have ho := (evolves_step H cfg _ .commit hl0.1 ho0).1
  have hd := commit_clean H cfg hcommit
  rw [hcommit] at hl ho
  have hpers : ∀ h, v1.s.calls.exists_ h = true → sqlExists v1.s.calls.pers h = true := by
    intro h hh
    rcases exists_iff.1 hh with h5 | h5
    · rcases hl.2 h h5 with h6 | h6
      · rw [hd] at h6; simp at h6
      · exact h6
    · exact h5
  cases hre
  simp only [VStorage.step] at hcommit
  cases hc : Verif.commit cfg ((fresh strict thr).run H cfg cmds).s with
  | mk x s =>
    rw [hc] at hcommit
    cases x with
    | error e => simp at hcommit
    | ok u =>
      simp only [Prod.mk.injEq, true_and] at hcommit
      have g1 := grows_commit cfg ((fresh strict thr).run H cfg cmds).s hl0.2
      have g2 := gains_commit cfg ((fresh strict thr).run H cfg cmds).s ho0
      rw [hc] at g1 g2
      obtain ⟨c1, c2⟩ := commit_calls hc
      rcases c2 with ⟨⟨e, he⟩, _⟩ | ⟨_, _, hf⟩
      · cases he
      · subst hcommit
        refine ⟨?_, ?_, rfl⟩
        · intro h
          show (CachedCalls.open_ s.calls.pers).exists_ h = _
          cases hx : ((fresh strict thr).run H cfg cmds).s.calls.exists_ h with
          | true => exact exists_iff.2 (.inr (hpers h (g1.2.1 h hx)))
          | false =>
            cases hy : (CachedCalls.open_ s.calls.pers).exists_ h with
            | false => rfl
            | true =>
              rcases exists_iff.1 hy with hy | hy
              · simp [CachedCalls.open_, InMem.empty, InMem.exists_] at hy
              · obtain ⟨r, hr, e⟩ := sqlExists_iff.1 hy
                have hne := not_exists_rows ho0 hx
                rcases flush_versions hf r hr with h1 | ⟨q, q1, q2, _⟩
                · exact absurd e (hne r (List.mem_append_right _ h1))
                · exact absurd (q2.trans e) (hne q (List.mem_append_left _ q1))
        · intro h x
          constructor
          · rintro ⟨r, hr, e1, e2⟩
            rcases flush_versions hf r hr with h1 | ⟨q, q1, q2, q3⟩
            · exact ⟨r, List.mem_append_right _ h1, e1, e2⟩
            · exact ⟨q, List.mem_append_left _ q1, q2.trans e1, q3.trans e2⟩
          · rintro ⟨r, hr, e1, e2⟩
            have hr1 := g2.2 r hr
            rcases List.mem_append.1 hr1 with hr' | hr'
            · obtain ⟨q, q1, q2⟩ := sqlExists_iff.1 (hpers h (exists_iff.2 (.inl (by simp [InMem.exists_, ← e1, ho.known r hr']))))
              exact ⟨q, List.mem_append_right _ q1, q2, (ho.same q (List.mem_append_right _ q1) r hr1 (q2.trans e1.symm)).trans e2⟩
            · exact ⟨r, List.mem_append_right _ hr', e1, e2⟩

/-- C37 (partial, as `C37_drop_version_calls_partial`): dropping a version after a commit leaves no call of the version and no call computed from
one, and all others; a process that opens the database afterwards has the same calls and does not know the version either. -/
theorem C37_dropped_for_all_processes_partial (H : Val → String) (cfg : Cfg) (strict : Bool) (thr : Nat) (cmds : List VStorage.Cmd) (sv : String)
    {v1 v2 v3 : VStorage} (hcommit : ((fresh strict thr).run H cfg cmds).step H cfg .commit = (.ok (), v1))
    (hdrop : v1.step H cfg (.dropVersion sv) = (.ok (), v2)) (hre : v2.step H cfg .reopen = (.ok (), v3)) :
    (∀ h, HasVersion v1.s h (some sv) → v2.s.calls.exists_ h = false) ∧ (∀ h, v3.s.calls.exists_ h = v2.s.calls.exists_ h) ∧
    (∀ h x, HasVersion v3.s h x ↔ HasVersion v2.s h x) ∧ v3.st.versioner = v1.st.versioner.dropSemanticVersion sv := by
  obtain ⟨h1, h2, h3, h4, _⟩ := C37_drop_version_calls_partial H cfg strict thr cmds sv hcommit hdrop
  have hl0 : Linked ((fresh strict thr).run H cfg cmds).s := linked_run H cfg cmds _ (linked_fresh none thr)
  have ho0 := oneVersion_run H cfg cmds (fresh strict thr) (linked_fresh none thr) (oneVersion_fresh thr)
  have hl := linked_step H cfg _ .commit hl0
  have ho := (evolves_step H cfg _ .commit hl0.1 ho0).1
  rw [hcommit] at hl ho
  have ho2 := (evolves_step H cfg _ (.dropVersion sv) hl.1 ho).1
  have hl2 := linked_step H cfg _ (.dropVersion sv) hl
  rw [hdrop] at ho2 hl2
  have hd2 : v2.s.calls.dirty = [] := by
    rw [← commit_clean H cfg hcommit]
    simp only [VStorage.step, VStorage.dropVersion] at hdrop
    cases hd : Verif.dropCalls (versionHids v1.s.calls.pers sv) true v1.s with
    | mk x s2 =>
      rw [hd] at hdrop
      cases x with
      | error e => simp at hdrop
      | ok u =>
        simp only [Prod.mk.injEq, true_and] at hdrop
        subst hdrop
        exact (dropCalls_spec hl.1 hd).2.1
  have hpers : ∀ h, v2.s.calls.exists_ h = true → sqlExists v2.s.calls.pers h = true := by
    intro h hh
    rcases exists_iff.1 hh with h5 | h5
    · rcases hl2.2 h h5 with h6 | h6
      · rw [hd2] at h6; simp at h6
      · exact h6
    · exact h5
  cases hre
  refine ⟨?_, ?_, ?_, ?_⟩
  · intro h hv
    cases hx : v2.s.calls.exists_ h with
    | false => rfl
    | true => exact absurd ⟨h, (C37_committed_versions H cfg strict thr cmds hcommit h sv).1 hv, .refl⟩ ((h1 h).1 hx).2
  · intro h
    show (CachedCalls.open_ v2.s.calls.pers).exists_ h = _
    cases hx : v2.s.calls.exists_ h with
    | false =>
      cases hy : (CachedCalls.open_ v2.s.calls.pers).exists_ h with
      | false => rfl
      | true =>
        rcases exists_iff.1 hy with hy | hy
        · simp [CachedCalls.open_, InMem.empty, InMem.exists_] at hy
        · have : v2.s.calls.exists_ h = true := exists_iff.2 (.inr hy)
          rw [this] at hx; cases hx
    | true => exact exists_iff.2 (.inr (hpers h hx))
  · intro h x
    constructor
    · rintro ⟨r, hr, e⟩
      exact ⟨r, List.mem_append_right _ hr, e⟩
    · rintro ⟨r, hr, e1, e2⟩
      rcases List.mem_append.1 hr with hr' | hr'
      · obtain ⟨q, q1, q2⟩ := sqlExists_iff.1 (hpers h (exists_iff.2 (.inl (by simp [InMem.exists_, ← e1, ho2.known r hr']))))
        exact ⟨q, List.mem_append_right _ q1, q2, (ho2.same q (List.mem_append_right _ q1) r hr (q2.trans e1.symm)).trans e2⟩
      · exact ⟨r, List.mem_append_right _ hr', e1, e2⟩
  · exact h4.trans h3

/-! ### examples: the hypotheses are met -/

namespace DropEx

def first : VStorage := (fresh true 100).run encH Ex.W.cfg [.enter (code "def g") (fun _ => .yes)]
def second : VStorage := (first.step encH Ex.W.cfg (execF f1)).2
/-- `f(1)` where the argument has another history -/
def f3 : CallObj := ⟨"f", "cf1", "f3", [("x", val 1 "x'")], [("output_0", val 2 "y3")]⟩
def third : VStorage := (second.step encH Ex.W.cfg (.again f3 "f1")).2

def holdsB (s : St) (h : String) : Bool := (allRows s).any fun r => r.callHid = h

theorem holds_of {s : St} {h : String} (hb : holdsB s h = true) : HoldsCall s h := by
  obtain ⟨r, h1, h2⟩ := List.any_eq_true.1 hb
  exact ⟨r, h1, by simpa using h2⟩

theorem stays_of {H : Val → String} {cfg : Cfg} {v : VStorage} {cmds : List VStorage.Cmd} {h : String}
    (hb : ((List.range (cmds.length + 1)).all fun i => holdsB (v.run H cfg (cmds.take i)).s h) = true) : Stays H cfg v cmds h := by
  intro cs cs' e
  have := List.all_eq_true.1 hb cs.length (by rw [List.mem_range, e, List.length_append]; omega)
  rw [e, List.take_left] at this
  exact holds_of this

end DropEx

set_option maxRecDepth 20000 in
/-- `f(1)` is executed, then it stays through a commit, a new process and dropping another version. -/
example : (first.st.executed encH "f(1)" ["f"] (traceOf "0") [("f", "g"), ("f", "G")]).1.toOption.isSome = true ∧
    first.s.calls.exists_ "f1" = false ∧ (first.step encH Ex.W.cfg (execF f1)).1 = .ok () ∧
    Stays encH Ex.W.cfg second [.commit, .reopen, .dropVersion "other", .preload] "f1" := by
  exact ⟨by decide +kernel, by decide +kernel, by decide +kernel, stays_of (by decide +kernel)⟩

set_option maxRecDepth 20000 in
/-- The same computation with another history of the argument. -/
example : second.s.calls.exists_ "f3" = false ∧ (second.step encH Ex.W.cfg (.again f3 "f1")).1 = .ok () ∧
    Stays encH Ex.W.cfg third [.commit, .reopen] "f3" := by
  exact ⟨by decide +kernel, by decide +kernel, stays_of (by decide +kernel)⟩

end Verif.Props
