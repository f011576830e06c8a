import Verif.Proofs.NoNew
import Verif.Proofs.CallClosure
/-!
Dropping calls, as long as the storage refers to its current cache (`stale = none`).
-/
namespace Verif

/-- The storage refers to its current cache, and every cached call is uncommitted or in the database. -/
def Linked (s : St) : Prop := s.stale = none ∧ Coh s

theorem drop_ok {m m' : InMem} {h : String} (hd : m.drop h = .ok m') :
    m' = { df := m.df.filter (fun r => r.callHid ≠ h), callHids := m.callHids.filter (· ≠ h) } := by
  unfold InMem.drop at hd
  split at hd
  · cases hd
  · cases hd; rfl

/-- What is left of the cache. -/
theorem dropCached_spec : ∀ (hs : List String) (s s' : St) (x : Except Err Unit), s.stale = none → dropCached hs s = (x, s') →
    s'.stale = none ∧ s'.calls.pers = s.calls.pers ∧ s'.calls.dirty = s.calls.dirty ∧ s'.atoms = s.atoms ∧
    s'.shapes = s.shapes ∧ s'.ops = s.ops ∧ s'.log = s.log ∧
    (∀ h, s'.calls.cache.exists_ h = true → s.calls.cache.exists_ h = true) ∧
    (∀ r, r ∈ s'.calls.cache.df → r ∈ s.calls.cache.df) ∧
    (∀ h, h ∉ hs → (s'.calls.cache.exists_ h = s.calls.cache.exists_ h ∧
      rowsOf s'.calls.cache.df h = rowsOf s.calls.cache.df h)) ∧
    (x = .ok () → ∀ h ∈ hs, s'.calls.cache.exists_ h = false)
  | [], s, s', x, hst, h => by
    cases h
    exact ⟨hst, rfl, rfl, rfl, rfl, rfl, rfl, fun _ h => h, fun _ h => h, fun _ _ => ⟨rfl, rfl⟩, fun _ _ h => by simp at h⟩
  | k :: hs, s, s', x, hst, h => by
    unfold dropCached at h
    have hcc : s.callCache = s.calls.cache := by simp [St.callCache, hst]
    rw [hcc] at h
    by_cases hex : s.calls.cache.exists_ k = true
    · rw [if_pos hex] at h
      cases hd : s.calls.cache.drop k with
      | error e =>
        rw [hd] at h
        cases h
        exact ⟨hst, rfl, rfl, rfl, rfl, rfl, rfl, fun _ h => h, fun _ h => h, fun _ _ => ⟨rfl, rfl⟩, nofun⟩
      | ok m =>
        rw [hd] at h
        have hm := drop_ok hd
        have hset : s.setCallCache m = { s with calls := { s.calls with cache := m } } := by
          unfold St.setCallCache; rw [hst]
        have h : dropCached hs (s.setCallCache m) = (x, s') := h
        rw [hset] at h
        obtain ⟨h1, h2, h3, h4, h5, h6, h7, h8, h9, h10, h11⟩ := dropCached_spec hs _ _ _ (by exact hst) h
        have hme : ∀ z, m.exists_ z = true ↔ s.calls.cache.exists_ z = true ∧ z ≠ k := by
          intro z; rw [hm]; simp [InMem.exists_]
        refine ⟨h1, h2, h3, h4, h5, h6, h7, fun z hz => ((hme z).1 (h8 z hz)).1, fun r hr => ?_, fun z hz => ?_, fun hx z hz => ?_⟩
        · have := h9 r hr
          rw [hm] at this
          exact (List.mem_filter.1 this).1
        · simp only [List.mem_cons, not_or] at hz
          obtain ⟨h12, h13⟩ := h10 z hz.2
          constructor
          · rw [h12]
            cases hzz : s.calls.cache.exists_ z with
            | true => exact (hme z).2 ⟨hzz, hz.1⟩
            | false =>
              simp only
              cases hmz : m.exists_ z with
              | false => rfl
              | true => rw [((hme z).1 hmz).1] at hzz; cases hzz
          · rw [h13]
            rw [hm]
            simp only [rowsOf, List.filter_filter]
            congr 1
            funext r
            by_cases hrz : r.callHid = z
            · simp [hrz, hz.1]
            · simp [hrz]
        · rcases List.mem_cons.1 hz with rfl | hz
          · cases hmz : s'.calls.cache.exists_ z with
            | false => rfl
            | true => exact absurd rfl ((hme z).1 (h8 z hmz)).2
          · exact h11 hx z hz
    · rw [if_neg hex] at h
      obtain ⟨h1, h2, h3, h4, h5, h6, h7, h8, h9, h10, h11⟩ := dropCached_spec hs _ _ _ hst h
      refine ⟨h1, h2, h3, h4, h5, h6, h7, h8, h9, fun z hz => h10 z (fun hm => hz (List.mem_cons_of_mem _ hm)), fun hx z hz => ?_⟩
      rcases List.mem_cons.1 hz with rfl | hz
      · cases hmz : s'.calls.cache.exists_ z with
        | false => rfl
        | true => exact absurd (h8 z hmz) hex
      · exact h11 hx z hz

/-- The calls that are dropped. -/
def dropSet (s : St) (hids : List String) (b : Bool) : List String :=
  if b then
    match getDependents s.calls.pers [] hids with
    | some (_, C) => hids ++ C
    | none => hids
  else hids

theorem mem_dropSet {s : St} {hids : List String} {h : String} :
    h ∈ dropSet s hids true ↔ Dependent s.calls.pers [] hids (.call h) := by
  obtain ⟨R, C, h1, h2⟩ := getDependents_spec s.calls.pers [] hids
  unfold dropSet
  rw [if_pos rfl, h1]
  simp only [List.mem_append]
  have := h2 (.call h)
  simp only [InRes] at this
  rw [this]
  constructor
  · rintro (hh | hh)
    · exact ⟨.call h, by simp [hh], .refl⟩
    · exact hh
  · exact .inr

/-- What `drop_calls` does. -/
theorem dropCalls_spec {hids : List String} {b : Bool} {s s' : St} {x : Except Err Unit} (hst : s.stale = none)
    (h : dropCalls hids b s = (x, s')) :
    s'.stale = none ∧ s'.calls.dirty = s.calls.dirty ∧ s'.atoms = s.atoms ∧ s'.shapes = s.shapes ∧ s'.ops = s.ops ∧
    s'.log = s.log ∧
    (∀ h, s'.calls.cache.exists_ h = true → s.calls.cache.exists_ h = true) ∧
    (∀ h, h ∉ dropSet s hids b → (s'.calls.cache.exists_ h = s.calls.cache.exists_ h ∧
      rowsOf s'.calls.cache.df h = rowsOf s.calls.cache.df h)) ∧
    ((x = .ok () ∧ s'.calls.pers = s.calls.pers.filter (fun r => r.callHid ∉ dropSet s hids b) ∧
      ∀ h ∈ dropSet s hids b, s'.calls.cache.exists_ h = false) ∨
     (∃ e, x = .error e) ∧ s'.calls.pers = s.calls.pers) := by
  unfold dropCalls at h
  change (match dropCached (dropSet s hids b) s with
    | (.error e, s') => (.error e, s')
    | (.ok _, s') => (.ok (), { s' with calls := { s'.calls with pers := s'.calls.pers.filter (fun r => r.callHid ∉ dropSet s hids b) } })) =
    (x, s') at h
  cases hd : dropCached (dropSet s hids b) s with
  | mk y s1 =>
    rw [hd] at h
    obtain ⟨h1, h2, h3, h4, h5, h6, h7, h8, h9, h10, h11⟩ := dropCached_spec _ _ _ _ hst hd
    cases y with
    | error e => cases h; exact ⟨h1, h3, h4, h5, h6, h7, h8, h10, .inr ⟨⟨e, rfl⟩, h2⟩⟩
    | ok _ =>
      cases h
      exact ⟨h1, h3, h4, h5, h6, h7, h8, h10, .inl ⟨rfl, by simp only [h2], h11 rfl⟩⟩

theorem sqlExists_filter {rows : List Row} {p : String → Prop} [DecidablePred p] {h : String} :
    sqlExists (rows.filter fun r => ¬ p r.callHid) h = true ↔ sqlExists rows h = true ∧ ¬ p h := by
  simp only [sqlExists_iff, List.mem_filter, decide_eq_true_eq]
  constructor
  · rintro ⟨r, ⟨h1, h2⟩, rfl⟩; exact ⟨⟨r, h1, rfl⟩, h2⟩
  · rintro ⟨⟨r, h1, rfl⟩, h2⟩; exact ⟨r, ⟨h1, h2⟩, rfl⟩

theorem linked_dropCalls {hids : List String} {b : Bool} {s : St} (hl : Linked s) : Linked (dropCalls hids b s).2 := by
  obtain ⟨h1, h2, _, _, _, _, h3, h4, h5⟩ := dropCalls_spec (x := (dropCalls hids b s).1) (s' := (dropCalls hids b s).2) hl.1 rfl
  refine ⟨h1, fun h hh => ?_⟩
  rcases hl.2 h (h3 h hh) with h6 | h6
  · left; rw [h2]; exact h6
  · rcases h5 with ⟨_, h7, h8⟩ | ⟨_, h7⟩
    · right
      by_cases hm : h ∈ dropSet s hids b
      · rw [h8 h hm] at hh; cases hh
      · rw [h7, sqlExists_filter (p := fun k => k ∈ dropSet s hids b)]
        exact ⟨h6, hm⟩
    · right; rw [h7]; exact h6

/-- Statements that do not replace the cache behind the storage's back. -/
def Cmd.NoClear : Cmd → Prop
  | .clearCache _ => False
  | _ => True

/-- `stale` is not touched. -/
def SameStale (s s' : St) : Prop := s'.stale = s.stale

theorem SameStale.ord : PreOrd SameStale := ⟨fun _ => rfl, fun h1 h2 => Eq.trans h2 h1⟩

theorem Pres.sameStale {α : Type} {m : M α} (h : Pres Quiet m) : Pres SameStale m := h.mono (fun _ _ h => h.stale)

theorem stale_saveCall (c : CallObj) : Pres SameStale (saveCall c) := by
  unfold saveCall
  refine Pres.bind SameStale.ord (Pres.read SameStale.ord _) (fun _ => Pres.ite (fun _ => Pres.pure SameStale.ord _) (fun _ => ?_))
  refine Pres.bind SameStale.ord (Pres.bind SameStale.ord (Pres.read SameStale.ord _) (fun _ => Pres.ite (fun _ => Pres.pure SameStale.ord _)
    (fun _ => (quiet_opsSet _).sameStale))) (fun _ => ?_)
  exact Pres.bind SameStale.ord (quiet_saveRefs _).sameStale (fun _ s => rfl)

theorem stale_callInternal (cfg : Cfg) (d : OpDef) (args : List BArg) : Pres SameStale (callInternal cfg d args) := by
  unfold callInternal
  refine Pres.bind SameStale.ord (quiet_wrapInputs cfg _).sameStale (fun p => ?_)
  refine Pres.bind SameStale.ord (quiet_lookupCall cfg _ _ _ _).sameStale (fun o => ?_)
  cases o with
  | some c => exact Pres.pure SameStale.ord _
  | none =>
    refine Pres.bind SameStale.ord (Pres.read SameStale.ord _) (fun _ => Pres.ite (fun _ => ?_) (fun _ => Pres.raise SameStale.ord _))
    refine Pres.bind SameStale.ord (Pres.mapM' SameStale.ord _ (fun a _ => Pres.bind SameStale.ord (quiet_bodyArg cfg _).sameStale (fun _ => Pres.pure SameStale.ord _))) (fun _ => ?_)
    refine Pres.bind SameStale.ord (fun s => rfl) (fun _ => ?_)
    refine Pres.bind SameStale.ord (Pres.lift SameStale.ord _) (fun _ => Pres.bind SameStale.ord (Pres.lift SameStale.ord _) (fun _ => ?_))
    refine Pres.bind SameStale.ord (Pres.mapM' SameStale.ord _ (fun a _ => Pres.bind SameStale.ord (quiet_wrapOutput cfg _ _ _).sameStale (fun _ => Pres.pure SameStale.ord _))) (fun _ => ?_)
    exact Pres.pure SameStale.ord _

theorem stale_call (cfg : Cfg) (d : OpDef) (args : List BArg) : Pres SameStale (call cfg d args) := by
  unfold call
  refine Pres.bind SameStale.ord (stale_callInternal cfg d args) (fun p => ?_)
  refine Pres.bind SameStale.ord (stale_saveCall _) (fun _ => ?_)
  refine Pres.bind SameStale.ord (Pres.forM' SameStale.ord _ (fun c _ => stale_saveCall c)) (fun _ => ?_)
  exact Pres.lift SameStale.ord _

theorem stale_commit (cfg : Cfg) : Pres SameStale (commit cfg) := by
  intro s
  obtain ⟨_, _, h⟩ := commitBody_same cfg s
  unfold commit
  cases hb : commitBody cfg s with
  | mk x s' =>
    rw [hb] at h
    cases x <;> exact h

theorem stale_cleanupRefs : Pres SameStale cleanupRefs := by
  unfold cleanupRefs
  refine Pres.bind SameStale.ord (Pres.read SameStale.ord _) (fun _ => ?_)
  refine Pres.bind SameStale.ord (Pres.forM' SameStale.ord _ (fun h _ => fun s => rfl)) (fun _ => ?_)
  refine Pres.bind SameStale.ord (Pres.read SameStale.ord _) (fun _ => ?_)
  exact Pres.forM' SameStale.ord _ (fun h _ => fun s => rfl)

/-- as a relation -/
def LinkedR (s s' : St) : Prop := Linked s → Linked s'

theorem linked_of {s s' : St} (h1 : SameStale s s') (h2 : Grows s s') : LinkedR s s' := fun h => ⟨h1.trans h.1, (h2 h.2).1⟩

theorem linked_cmd (cfg : Cfg) (env : List Ref) (s : St) {c : Cmd} (hc : c.NoClear) : LinkedR s (c.run cfg env s).2.2 := by
  cases c with
  | call d args =>
    simp only [Cmd.run]
    cases bindArgs env args with
    | none => exact id
    | some bargs =>
      have := linked_of (stale_call cfg d bargs s) (grows_call cfg d bargs s)
      simp only
      cases hm : call cfg d bargs s with
      | mk x s' => rw [hm] at this; cases x <;> exact this
  | unwrap x =>
    simp only [Cmd.run]
    cases env[x]? with
    | none => exact id
    | some r =>
      have := linked_of ((quiet_unwrapRef cfg r).sameStale s) ((quiet_unwrapRef cfg r).grows s)
      simp only
      cases hm : unwrapRef cfg r s with
      | mk x s' => rw [hm] at this; cases x <;> exact this
  | commit => exact Pres.admin (R := LinkedR) (fun s => linked_of (stale_commit cfg s) (grows_commit cfg s)) env s
  | clearCache b => exact hc.elim
  | dropCalls hs b => exact Pres.admin (R := LinkedR) (fun s => linked_dropCalls) env s
  | cleanupRefs => exact Pres.admin (R := LinkedR) (fun s => linked_of (stale_cleanupRefs s) (grows_cleanupRefs s)) env s
  | preload =>
    refine Pres.admin (R := LinkedR) (fun s hl => ⟨?_, (growsP_preload s hl.2).1⟩) env s
    unfold preload St.setCallCache
    rw [hl.1]
  | reopen => exact Pres.admin (R := LinkedR) (fun s hl => ⟨rfl, (growsP_reopen s hl.2).1⟩) env s
  | allowNew b => exact id

theorem linked_prog (cfg : Cfg) : ∀ (cs : List Cmd) (env : List Ref) (s : St), (∀ c ∈ cs, c.NoClear) →
    Linked s → Linked (runProg cfg env s cs).2.2
  | [], _, s, _, h => h
  | c :: cs, env, s, h, hl => by
    simp only [runProg]
    exact linked_prog cfg cs _ _ (fun c hc => h c (List.mem_cons_of_mem _ hc)) (linked_cmd cfg env s (h c (by simp)) hl)

theorem linked_fresh (o : Option (Joblib Val)) (thr : Nat) : Linked (.fresh o thr) := ⟨rfl, coh_fresh o thr⟩

end Verif
