import Verif.Spec.Upkeep
import Verif.Proofs.Cleanup
import Verif.Proofs.FirmRun
/-!
`preload` and `cleanup_refs` within sessions.
-/
namespace Verif

section
variable {V : Type}

/-- If nothing is uncommitted, reads are reads of the database. -/
theorem Clean.reads {d : CachedDict V} (h : Clean d) (hd : d.dirty = []) (k : String) : (d.get k).1 = d.pers.get k := by
  unfold CachedDict.get
  cases hc : d.cache.get? k with
  | some v =>
    have := (h k v hc).resolve_left (by simp [hd])
    exact this.symm
  | none =>
    dsimp only
    cases d.pers.get k <;> rfl

theorem drop_dirty {d : CachedDict V} {k : String} (h : d.dirty = []) : (d.drop k).2.dirty = [] := by
  unfold CachedDict.drop
  dsimp only
  split <;> simp [h]

end

section
variable {W : World}

/-- Nothing becomes dirty by dropping refs. -/
def DropR (s s' : St) : Prop := (Clean s.atoms ∧ Clean s.shapes ∧ s.atoms.dirty = [] ∧ s.shapes.dirty = [] ∧ s.shapes.pers.overflow = none) →
  (Clean s'.atoms ∧ Clean s'.shapes ∧ s'.atoms.dirty = [] ∧ s'.shapes.dirty = [] ∧ s'.shapes.pers.overflow = none)

theorem DropR.ord : (∀ s, DropR s s) ∧ ∀ {a b c}, DropR a b → DropR b c → DropR a c := ⟨fun _ h => h, fun h1 h2 h => h2 (h1 h)⟩

theorem dropR_shapes : ∀ (ks : List String) (s : St), DropR s (M.forM' shapesDrop ks s).2
  | [], _ => fun h => h
  | k :: ks, s => by
    have h1 : shapesDrop k s = (.ok (), { s with shapes := (s.shapes.drop k).2 }) := by unfold shapesDrop; rw [drop_res]
    show DropR s (M.bind (shapesDrop k) (fun _ => M.forM' shapesDrop ks) s).2
    unfold M.bind
    rw [h1]
    refine fun h => dropR_shapes ks _ ⟨h.1, h.2.1.drop k, h.2.2.1, drop_dirty h.2.2.2.1, drop_overflow h.2.2.2.2⟩

theorem dropR_atoms : ∀ (ks : List String) (s : St), DropR s (M.forM' atomsDrop ks s).2
  | [], _ => fun h => h
  | k :: ks, s => by
    have h1 : atomsDrop k s = (.ok (), { s with atoms := (s.atoms.drop k).2 }) := by unfold atomsDrop; rw [drop_res]
    show DropR s (M.bind (atomsDrop k) (fun _ => M.forM' atomsDrop ks) s).2
    unfold M.bind
    rw [h1]
    refine fun h => dropR_atoms ks _ ⟨h.1.drop k, h.2.1, drop_dirty h.2.2.1, h.2.2.2.1, h.2.2.2.2⟩

theorem dropR_cleanup (s : St) : DropR s (cleanupRefs s).2 := by
  show DropR s (M.bind (M.read orphans) (fun os => M.bind (M.forM' shapesDrop os) (fun _ => M.bind (M.read unreferencedCids) (fun cs => M.forM' atomsDrop cs))) s).2
  simp only [M.bind, M.read]
  have h1 := dropR_shapes (orphans s) s
  cases hm : M.forM' shapesDrop (orphans s) s with
  | mk x s1 =>
    rw [hm] at h1
    cases x with
    | error e => exact h1
    | ok _ => exact fun h => dropR_atoms _ s1 (h1 h)

mutual
theorem Live.cut {A S A' S' U : String → Prop} (hA : ∀ c h o t, U h → RefOK W (.atom c h o) t → A c → A' c) (hS : ∀ h, U h → S h → S' h) :
    ∀ (r : Ref) (t : TVal), RefOK W r t → U r.hid → Nested U r → Live A S r → Live A' S' r
  | .atom c h o, t, ht, hu, _, hh => by
    simp only [Live] at hh ⊢
    exact fun ho => hA c h o t hu ht (hh ho)
  | .coll _ _ h m _ es, t, ht, hu, hn, hh => by
    simp only [Live, Nested, RefOK] at hh hn ht ⊢
    obtain ⟨_, _, ts, _, _, h1⟩ := ht
    exact ⟨fun hm => Lives.cut hA hS es ts (h1 hm).2 hn (hh.1 hm), fun hm => hS h hu (hh.2 hm)⟩
theorem Lives.cut {A S A' S' U : String → Prop} (hA : ∀ c h o t, U h → RefOK W (.atom c h o) t → A c → A' c) (hS : ∀ h, U h → S h → S' h) :
    ∀ (rs : List Ref) (ts : List TVal), RefsOK W rs ts → Nesteds U rs → Lives A S rs → Lives A' S' rs
  | [], _, _, _, _ => by simp [Lives]
  | r :: rs, [], ht, _, _ => by simp only [RefsOK] at ht
  | r :: rs, t :: ts, ht, hn, h => by
    simp only [Lives, Nesteds, RefsOK] at h hn ht ⊢
    exact ⟨Live.cut hA hS r t ht.1 hn.1.1 hn.1.2 h.1, Lives.cut hA hS rs ts ht.2 hn.2 h.2⟩
end

mutual
theorem Firm.cut {S S' U : String → Prop} (hS : ∀ h, U h → S h → S' h) : ∀ (r : Ref), U r.hid → Nested U r → Firm S r → Firm S' r
  | .atom c h o, hu, _, hh => by
    simp only [Firm] at hh ⊢
    exact fun ho => hS h hu (hh ho)
  | .coll _ _ h m _ es, hu, hn, hh => by
    simp only [Firm, Nested] at hh hn ⊢
    exact ⟨hh.1, Firms.cut hS es hn hh.2⟩
theorem Firms.cut {S S' U : String → Prop} (hS : ∀ h, U h → S h → S' h) : ∀ (rs : List Ref), Nesteds U rs → Firms S rs → Firms S' rs
  | [], _, _ => by simp [Firms]
  | r :: rs, hn, h => by
    simp only [Firms, Nesteds] at h hn ⊢
    exact ⟨Firm.cut hS r hn.1.1 hn.1.2 h.1, Firms.cut hS rs hn.2 h.2⟩
end

theorem refsOK_mem : ∀ (es : List Ref) (ts : List TVal), RefsOK W es ts → ∀ e ∈ es, ∃ t, RefOK W e t
  | [], _, _, _, he => by simp at he
  | r :: rs, [], ht, _, _ => by simp only [RefsOK] at ht
  | r :: rs, t :: ts, ht, e, he => by
    simp only [RefsOK] at ht
    rcases List.mem_cons.1 he with rfl | he
    · exact ⟨t, ht.1⟩
    · exact refsOK_mem rs ts ht.2 e he

/-- `s'` is `s` without what is not used. -/
theorem Whole.cut (hW : W.Good) {s s' : St} (h : Whole [] s) (hi : Inv W s) {U UC : String → Prop}
    (hs : ∀ k r, (s'.shapes.get k).1 = .ok r → (s.shapes.get k).1 = .ok r ∧ U k) (hk : ∀ k, U k → (s'.shapes.get k).1 = (s.shapes.get k).1)
    (ha : ∀ c, UC c → Has s.atoms c → Has s'.atoms c) (ho : s'.ops = s.ops) (hr : s'.calls = s.calls)
    (hu : ∀ r, r ∈ s.calls.cache.df ∨ r ∈ s.calls.pers → U r.refHid)
    (he : ∀ k, U k → ∀ r, (s.shapes.get k).1 = .ok r → Nested U r)
    (hc : ∀ k r t, U k → r.hid = k → RefOK W r t → UC r.cid) : Whole [] s' := by
  have hS : ∀ k, U k → Has s.shapes k → Has s'.shapes k := fun k hu ⟨v, hv⟩ => ⟨v, by rw [hk k hu]; exact hv⟩
  refine ⟨fun k c h' o hg => ?_, fun k k' c h' m ks es hg => ?_, fun r hr' => ?_⟩
  · obtain ⟨g1, g2⟩ := hs _ _ hg
    obtain ⟨hh, t, ht⟩ := store_get hi.shapes g1
    exact ha c (hc k _ t g2 hh ht) (h.atoms k c h' o g1)
  · obtain ⟨g1, g2⟩ := hs _ _ hg
    obtain ⟨g3, g4⟩ := h.colls k k' c h' m ks es g1
    refine ⟨g3, fun hK e hem => ?_⟩
    obtain ⟨g5, g6⟩ := g4 hK e hem
    have hn := he k g2 _ g1
    simp only [Nested] at hn
    obtain ⟨g7, g8⟩ := nesteds_iff.1 hn e hem
    obtain ⟨hh, t, ht⟩ := store_get hi.shapes g1
    simp only [RefOK] at ht
    obtain ⟨_, _, ts, _, _, h1⟩ := ht
    obtain ⟨te, hte⟩ : ∃ t, RefOK W e t := by
      exact refsOK_mem es ts (h1 g3).2 e hem
    exact ⟨hS _ g7 g5, Live.cut (fun c h o t hu' ht => ha c (hc h _ t hu' rfl ht)) hS e te hte g7 g8 g6⟩
  · rw [hr] at hr'
    obtain ⟨g1, g2⟩ := h.rows r hr'
    exact ⟨hS _ (hu r hr') g1, by rw [ho]; exact g2⟩

theorem sess_cleanup (hW : W.Good) {s : St} {env : List Ref} {penv : List Val} (h : Sess W s env) (hen : EnvOK W env penv) (hc : Committed s) (hu : AllUsed env s) :
    Sess W (cleanupRefs s).2 env ∧ (∀ k, UsedHid s k → Has s.shapes k → Has (cleanupRefs s).2.shapes k) ∧ (cleanupRefs s).2.calls = s.calls := by
  obtain ⟨s', h1, hg, h2, h3⟩ := cleanup_exact hW h.inv
  have hi' : Inv W s' := by
    have := keeps_cleanupRefs (W := W) s h.inv
    rw [h1] at this
    exact this.1
  have hd := dropR_cleanup s ⟨h.atoms, h.shapes, hc.atoms, hc.shapes, h.ovfS⟩
  rw [h1] at hd ⊢
  obtain ⟨d1, d2, d3, d4, d5⟩ := hd
  have hcid : ∀ k (r : Ref) t, UsedHid s k → r.hid = k → RefOK W r t → UsedCid s r.cid := fun k r t hk hr ht => used_cid hW h.inv.pers hk ⟨hr, t, ht⟩
  have hS : ∀ k, UsedHid s k → Has s.shapes k → Has s'.shapes k := fun k hu ⟨v, hv⟩ => ⟨v, by rw [h2 k hu]; exact hv⟩
  have hA : ∀ c, UsedCid s c → Has s.atoms c → Has s'.atoms c := fun c hu ⟨v, hv⟩ => ⟨v, by rw [h3 c hu]; exact hv⟩
  have hw : Whole [] s' := by
    refine h.whole.cut hW h.inv (U := UsedHid s) (UC := UsedCid s) (fun k r hr => ?_) h2 hA hg.ops hg.calls ?_ hu.elts hcid
    · rw [d2.reads d4] at hr
      rw [h.shapes.reads hc.shapes]
      exact (hg.refs k r).1 hr
    · rintro r (hr | hr)
      · exact hu.cached r hr
      · exact ⟨r, hr, rfl⟩
  refine ⟨⟨hi', hw, ?_, d1, d2, by rw [hg.ops]; exact h.ops, d5, by rw [hg.ops]; exact h.ovfO, fun r hr => ?_⟩, hS, hg.calls⟩
  · refine hw.of_reads ?_ ?_ ?_ ?_
    · intro c ⟨v, hv⟩
      exact ⟨v, by simp only [reopen, open_get]; rw [← d1.reads d3]; exact hv⟩
    · intro k
      simp only [reopen, open_get]
      exact (d2.reads d4 k).symm
    · intro c ⟨v, hv⟩
      rw [hg.ops] at hv
      exact ⟨v, by simp only [reopen, open_get]; rw [hg.ops, ← h.ops.reads hc.ops]; exact hv⟩
    · rintro r (hr | hr)
      · simp [reopen, CachedCalls.open_, InMem.empty] at hr
      · exact .inr hr
  · obtain ⟨g1, g2⟩ := h.env r hr
    obtain ⟨g3, g4⟩ := hu.held r hr
    obtain ⟨v, hv⟩ : ∃ t, RefOK W r t := by
      obtain ⟨v, _, t, ht, _⟩ := All2.mem_left hen hr
      exact ⟨t, ht⟩
    exact ⟨Live.cut (fun c h o t hu' ht => hA c (hcid h _ t hu' rfl ht)) hS r v hv g3 g4 g1, g2⟩

theorem sess_preload (hW : W.Good) {s : St} {env : List Ref} (h : Sess W s env) (hc : Committed s) :
    Sess W (preload s).2 env ∧ (∀ k, (Has (preload s).2.shapes k) ↔ Has s.shapes k) := by
  have hi : Inv W (preload s).2 := (keeps_preload (W := W) s h.inv).1
  have e : ∀ m, (s.setCallCache m).atoms = s.atoms ∧ (s.setCallCache m).shapes = s.shapes ∧ (s.setCallCache m).ops = s.ops ∧
      (s.setCallCache m).calls.pers = s.calls.pers := by
    intro m; unfold St.setCallCache; split <;> exact ⟨rfl, rfl, rfl, rfl⟩
  obtain ⟨e1, e2, e3, e4⟩ := e (InMem.ofRows s.calls.pers)
  have ea : (preload s).2.atoms = { s.atoms with cache := s.atoms.pers.loadAll } := by unfold preload; dsimp only; rw [e1]
  have es : (preload s).2.shapes = { s.shapes with cache := s.shapes.pers.loadAll } := by unfold preload; dsimp only; rw [e2]
  have eo : (preload s).2.ops = { s.ops with cache := s.ops.pers.loadAll } := by unfold preload; dsimp only; rw [e3]
  have hca : Clean (preload s).2.atoms := by rw [ea]; exact Clean.preload (h.inv.unique W hW)
  have hcs : Clean (preload s).2.shapes := by rw [es]; exact Clean.preload (P := fun _ _ => True) (.inl h.ovfS)
  have hco : Clean (preload s).2.ops := by rw [eo]; exact Clean.preload (P := fun _ _ => True) (.inl h.ovfO)
  have ra : ∀ k, ((preload s).2.atoms.get k).1 = (s.atoms.get k).1 := fun k => by
    rw [hca.reads (by rw [ea]; exact hc.atoms), h.atoms.reads hc.atoms, ea]
  have rs : ∀ k, ((preload s).2.shapes.get k).1 = (s.shapes.get k).1 := fun k => by
    rw [hcs.reads (by rw [es]; exact hc.shapes), h.shapes.reads hc.shapes, es]
  have ro : ∀ k, ((preload s).2.ops.get k).1 = (s.ops.get k).1 := fun k => by
    rw [hco.reads (by rw [eo]; exact hc.ops), h.ops.reads hc.ops, eo]
  have hp : (preload s).2.calls.pers = s.calls.pers := e4
  have hrows : ∀ r ∈ (preload s).2.calls.cache.df, r ∈ s.calls.cache.df ∨ r ∈ s.calls.pers := by
    intro r hr
    change r ∈ (s.setCallCache (InMem.ofRows s.calls.pers)).calls.cache.df at hr
    unfold St.setCallCache at hr
    split at hr
    · exact .inr hr
    · exact .inl hr
  have hA : ∀ c, Has s.atoms c → Has (preload s).2.atoms c := fun c ⟨v, hv⟩ => ⟨v, by rw [ra]; exact hv⟩
  have hS : ∀ c, Has s.shapes c → Has (preload s).2.shapes c := fun c ⟨v, hv⟩ => ⟨v, by rw [rs]; exact hv⟩
  have hO : ∀ c, Has s.ops c → Has (preload s).2.ops c := fun c ⟨v, hv⟩ => ⟨v, by rw [ro]; exact hv⟩
  refine ⟨h.of_pres hi (h.whole.of_reads hA rs hO ?_) ⟨hca, hcs, hco⟩ (by rw [ea]) (by rw [es]) (by rw [eo]) (fun r hr => by rw [← hp]; exact hr)
    (fun r hr => ⟨Live.mono hA hS r (h.env r hr).1, (h.env r hr).2⟩), fun k => ⟨fun ⟨v, hv⟩ => ⟨v, by rw [← rs]; exact hv⟩, hS k⟩⟩
  rintro r (hr | hr)
  · exact hrows r hr
  · exact .inr (by rw [← hp]; exact hr)

theorem full_preload {s : St} (h : MemFull W s.calls.cache) : MemFull W (preload s).2.calls.cache := by
  change MemFull W (s.setCallCache (InMem.ofRows s.calls.pers)).calls.cache
  unfold St.setCallCache
  split
  · intro k hk
    obtain ⟨r, hr, rfl⟩ := List.mem_map.1 hk
    exact .inl ⟨r, hr, rfl⟩
  · exact h

theorem allowed_cases {c : Cmd} {env : List Ref} {s : St} (h : c.AllowedAt env s) :
    c.InSession ∨ (c = .cleanupRefs ∧ Committed s ∧ AllUsed env s) ∨ (c = .preload ∧ Committed s) := by
  cases c with
  | clearCache b => exact .inl h
  | cleanupRefs => exact .inr (.inl ⟨rfl, h⟩)
  | preload => exact .inr (.inr ⟨rfl, h⟩)
  | reopen => exact absurd h id
  | _ => exact .inl trivial

theorem admin_state (m : M Unit) (env : List Ref) (s : St) : (Cmd.run.admin env s m).2.2 = (m s).2 ∧ (Cmd.run.admin env s m).2.1 = env := by
  unfold Cmd.run.admin; cases m s with | mk x s' => cases x <;> exact ⟨rfl, rfl⟩

/-- A statement that may be run. -/
theorem sess_kept (hW : W.Good) {c : Cmd} (hok : CmdOK W c) {s : St} {env : List Ref} {penv : List Val} (hin : c.AllowedAt env s) (h : Sess W s env)
    (he : EnvOK W env penv) :
    ((c = .commit → (c.run W.cfg env s).1 = .done) → Sess W (c.run W.cfg env s).2.2 (c.run W.cfg env s).2.1) ∧
      DbOK W (c.run W.cfg env s).2.2 := by
  rcases allowed_cases hin with hin | ⟨rfl, hc, hu⟩ | ⟨rfl, hc⟩
  · exact sess_cmd hW hok hin h he
  · simp only [Cmd.run, (admin_state _ _ _).1, (admin_state _ _ _).2]
    have := (sess_cleanup hW h he hc hu).1
    exact ⟨fun _ => this, this.dbOK⟩
  · simp only [Cmd.run, (admin_state _ _ _).1, (admin_state _ _ _).2]
    have := (sess_preload hW h hc).1
    exact ⟨fun _ => this, this.dbOK⟩

theorem env_after (hW : W.Good) {c : Cmd} (hok : CmdOK W c) {s : St} {env : List Ref} {penv : List Val} (h : Inv W s) (he : EnvOK W env penv) :
    ∃ penv', EnvOK W (c.run W.cfg env s).2.1 penv' := by
  obtain ⟨_, h5⟩ := step_ok hW hok he h (o := (c.run W.cfg env s).1) (env' := (c.run W.cfg env s).2.1) (s' := (c.run W.cfg env s).2.2) rfl
  rcases h5 with ⟨_, h5⟩ | ⟨_, _, _, h5⟩
  · exact ⟨_, h5⟩
  · exact ⟨penv, by rw [h5]; exact he⟩

theorem sess_orderly (hW : W.Good) : ∀ (cs : List Cmd) {env : List Ref} {penv : List Val} {s : St}, EnvOK W env penv → Sess W s env →
    Orderly W false env s cs → DbOK W (runProg W.cfg env s cs).2.2
  | [], _, _, _, _, h, _ => h.dbOK
  | c :: cs, env, penv, s, he, h, hg => by
    obtain ⟨h1, h2, h3, h4⟩ := hg
    simp only [runProg]
    obtain ⟨g1, g2⟩ := sess_kept hW h1 h2 h he
    by_cases hcs : cs = []
    · subst hcs; exact g2
    · obtain ⟨penv', he'⟩ := env_after hW h1 h.inv he
      exact sess_orderly hW cs he' (g1 fun hc => h3 hc (.inr hcs)) h4

theorem allOrderly_ok (hW : W.Good) : ∀ (ps : List (List Cmd × End)) {s : St}, Sess W s [] → AllOrderly W s ps → Sess W (runSessions W.cfg s ps) []
  | [], _, h, _ => h
  | (p, e) :: ps, s, h, hok => by
    simp only [runSessions]
    exact allOrderly_ok hW ps (endSession_sess (sess_orderly hW p (env := []) (penv := []) All2.nil h hok.1) e) hok.2

theorem fsess_kept (hW : W.Good) {c : Cmd} (hok : CmdOK W c) {s : St} {env : List Ref} {orig : List OpDef} {penv : List Val} (hin : c.AllowedAt env s)
    (h : FSess W s env orig) (he : EnvOK W env penv) (hd : c = .commit → (c.run W.cfg env s).1 = .done) :
    FSess W (c.run W.cfg env s).2.2 (c.run W.cfg env s).2.1 (c.origins orig ((c.run W.cfg env s).2.1.length - env.length)) ∧
    (MustAnswer W.cfg.fuel s.allowNew penv orig c →
      (c.run W.cfg env s).1 = (c.plain penv).1 ∧ EnvOK W (c.run W.cfg env s).2.1 (c.plain penv).2) ∧
    (c.run W.cfg env s).2.2.allowNew = c.allowsAfter s.allowNew := by
  rcases allowed_cases hin with hin | ⟨rfl, hc, hu⟩ | ⟨rfl, hc⟩
  · obtain ⟨h1, h2⟩ := fsess_cmd hW hok hin h he hd
    exact ⟨h1, h2, allow_cmd hin W.cfg env s⟩
  · obtain ⟨h1, h2, h3⟩ := sess_cleanup hW h.sess he hc hu
    simp only [Cmd.run, (admin_state _ _ _).1, (admin_state _ _ _).2, Cmd.origins, Cmd.allowsAfter]
    refine ⟨⟨h1, by rw [h3]; exact h.full, h.flat, fun r hr => ?_⟩, fun hm => absurd hm id, ?_⟩
    · obtain ⟨g3, g4⟩ := hu.held r hr
      obtain ⟨f1, f2⟩ := h.firm r hr
      exact ⟨fun t ht hf => Firm.cut h2 r g3 g4 (f1 t ht hf), h2 _ g3 f2⟩
    · obtain ⟨d1, d2, h1, _⟩ := cleanup_state s
      rw [h1]
  · obtain ⟨h1, h2⟩ := sess_preload hW h.sess hc
    simp only [Cmd.run, (admin_state _ _ _).1, (admin_state _ _ _).2, Cmd.origins, Cmd.allowsAfter]
    refine ⟨h.of_reads h1 (full_preload h.full) (fun k => (h2 k).2), fun hm => absurd hm id, ?_⟩
    unfold preload St.setCallCache
    dsimp only
    split <;> rfl

/-- A session with upkeep: what must be answered is. -/
theorem fsess_orderly (hW : W.Good) : ∀ (cs : List Cmd) {env : List Ref} {orig : List OpDef} {penv : List Val} {s : St}, EnvOK W env penv →
    FSess W s env orig → Orderly W true env s cs →
    (∃ orig', FSess W (runProg W.cfg env s cs).2.2 (runProg W.cfg env s cs).2.1 orig' ∧
      ∀ d ∈ orig', d ∈ orig ∨ ∃ args, Cmd.call d args ∈ cs) ∧
    Answers W.cfg.fuel s.allowNew penv orig cs (runProg W.cfg env s cs).1 ∧
    ∃ penv', EnvOK W (runProg W.cfg env s cs).2.1 penv'
  | [], env, orig, penv, s, he, h, _ => ⟨⟨orig, h, fun _ hd => .inl hd⟩, .nil, penv, he⟩
  | c :: cs, env, orig, penv, s, he, h, hg => by
    obtain ⟨hok, hin, hcd, hrest⟩ := hg
    simp only [runProg]
    obtain ⟨h1, h2, hal⟩ := fsess_kept hW hok hin h he (fun hc => hcd hc (.inl rfl))
    obtain ⟨_, h5⟩ := step_ok hW hok he h.sess.inv (o := (c.run W.cfg env s).1) (env' := (c.run W.cfg env s).2.1)
      (s' := (c.run W.cfg env s).2.2) rfl
    have hrec := fun {penv'} (he' : EnvOK W (c.run W.cfg env s).2.1 penv') => fsess_orderly hW cs he' h1 hrest
    have hor : ∀ {n d}, (d ∈ c.origins orig n ∨ ∃ args, Cmd.call d args ∈ cs) → d ∈ orig ∨ ∃ args, Cmd.call d args ∈ c :: cs := by
      rintro n d (hd | ⟨args, hd⟩)
      · cases c with
        | call d' args =>
          simp only [Cmd.origins] at hd
          rcases List.mem_append.1 hd with hd | hd
          · exact .inl hd
          · exact .inr ⟨args, by rw [List.eq_of_mem_replicate hd]; simp⟩
        | _ => exact .inl hd
      · exact .inr ⟨args, List.mem_cons_of_mem _ hd⟩
    have hsame : (c.run W.cfg env s).1 = (c.plain penv).1 ∧ EnvOK W (c.run W.cfg env s).2.1 (c.plain penv).2 →
        (∃ orig', FSess W (runProg W.cfg (c.run W.cfg env s).2.1 (c.run W.cfg env s).2.2 cs).2.2
          (runProg W.cfg (c.run W.cfg env s).2.1 (c.run W.cfg env s).2.2 cs).2.1 orig' ∧ ∀ d ∈ orig', d ∈ orig ∨ ∃ args, Cmd.call d args ∈ c :: cs) ∧
        Answers W.cfg.fuel s.allowNew penv orig (c :: cs) ((c.run W.cfg env s).1 :: (runProg W.cfg (c.run W.cfg env s).2.1 (c.run W.cfg env s).2.2 cs).1) ∧
        ∃ penv', EnvOK W (runProg W.cfg (c.run W.cfg env s).2.1 (c.run W.cfg env s).2.2 cs).2.1 penv' := fun hh => by
      obtain ⟨⟨o1, g1, g1'⟩, g2, g3⟩ := hrec hh.2
      rw [hal, All2.length_eq hh.2, All2.length_eq he] at g2
      exact ⟨⟨o1, g1, fun d hd => hor (g1' d hd)⟩, .same (Prod.ext hh.1.symm rfl) g2, g3⟩
    by_cases hm : MustAnswer W.cfg.fuel s.allowNew penv orig c
    · exact hsame (h2 hm)
    · rcases h5 with h5 | ⟨e, h6, h7, h8⟩
      · exact hsame h5
      · obtain ⟨⟨o1, g1, g1'⟩, g2, g3⟩ := hrec (by rw [h8]; exact he)
        have hl : (c.run W.cfg env s).2.1.length - env.length = 0 := by rw [h8, Nat.sub_self]
        rw [hal, hl] at g2
        have ho : c.origins orig 0 = orig := by cases c <;> simp [Cmd.origins]
        rw [ho] at g2
        rw [h6]
        exact ⟨⟨o1, g1, fun d hd => hor (g1' d hd)⟩, .failed hm h7 g2, g3⟩

theorem fsess_kept_run (hW : W.Good) {s0 : St} (h0 : Sess W s0 []) (hc : s0.calls.cache = .empty ∧ s0.allowNew = true) {ps : List (List Cmd × End)} {p : List Cmd}
    (h : KeptOK W s0 ps p) : (∃ orig, FSess W (runLast W.cfg s0 ps p).2.2 (runLast W.cfg s0 ps p).2.1 orig ∧ ∀ d ∈ orig, ∃ args, Cmd.call d args ∈ p) ∧
      Answers W.cfg.fuel true [] [] p (runLast W.cfg s0 ps p).1 ∧ ∃ penv, EnvOK W (runLast W.cfg s0 ps p).2.1 penv := by
  obtain ⟨c1, c2⟩ := sessions_cache (W := W) ps hc
  have h1 := FSess.start (allOrderly_ok hW ps h0 h.before) (by rw [c1]; exact memFull_empty)
  obtain ⟨⟨o, g1, g2⟩, g3, g4⟩ := fsess_orderly hW p (penv := []) All2.nil h1 h.stmts
  rw [c2] at g3
  exact ⟨⟨o, g1, fun d hd => (g2 d hd).resolve_left (by simp)⟩, g3, g4⟩

/-- Ordinary sessions are orderly. -/
theorem orderly_of_done : ∀ (cs : List Cmd) {env : List Ref} {s : St}, (∀ c ∈ cs, CmdOK W c ∧ c.InSession) → commitsDone cs (runProg W.cfg env s cs).1 →
    Orderly W true env s cs
  | [], _, _, _, _ => trivial
  | c :: cs, env, s, hok, hd => by
    simp only [runProg] at hd
    obtain ⟨h1, h2⟩ := hok c (by simp)
    have h3 : c.AllowedAt env s := by cases c <;> first | exact h2 | exact h2.elim
    have hcd : (c = .commit → (c.run W.cfg env s).1 = .done) ∧ commitsDone cs (runProg W.cfg (c.run W.cfg env s).2.1 (c.run W.cfg env s).2.2 cs).1 := by
      cases c with
      | commit => exact ⟨fun _ => hd.1, hd.2⟩
      | _ => exact ⟨fun h => (nomatch h), hd⟩
    exact ⟨h1, h3, fun hc _ => hcd.1 hc, orderly_of_done cs (fun c hc => hok c (List.mem_cons_of_mem _ hc)) hcd.2⟩

theorem orderly_of_go : ∀ (cs : List Cmd) {env : List Ref} {s : St}, (∀ c ∈ cs, CmdOK W c ∧ c.InSession) → commitsGo cs (runProg W.cfg env s cs).1 →
    Orderly W false env s cs
  | [], _, _, _, _ => trivial
  | c :: cs, env, s, hok, hd => by
    simp only [runProg] at hd
    obtain ⟨h1, h2⟩ := hok c (by simp)
    have h3 : c.AllowedAt env s := by cases c <;> first | exact h2 | exact h2.elim
    obtain ⟨g1, g2⟩ := commitsGo_cons hd
    exact ⟨h1, h3, fun hc ho => g1 (ho.resolve_left nofun) hc, orderly_of_go cs (fun c hc => hok c (List.mem_cons_of_mem _ hc)) g2⟩

theorem allOrderly_of : ∀ (ps : List (List Cmd × End)) {s : St}, SessionsOK W s ps → AllOrderly W s ps
  | [], _, _ => trivial
  | (p, e) :: ps, s, h => ⟨orderly_of_go p h.1 h.2.1, allOrderly_of ps h.2.2⟩

theorem RunOK.kept {s0 : St} {ps : List (List Cmd × End)} {p : List Cmd} (h : RunOK W s0 ps p) : KeptOK W s0 ps p :=
  ⟨allOrderly_of ps h.before, orderly_of_done p h.stmts h.commits⟩

/-- A record in the database stays there. -/
theorem phas_kept (hW : W.Good) {c : Cmd} {s : St} {env : List Ref} (hin : c.AllowedAt env s) (h : Sess W s env) {k : String}
    (hk : PHas s k) (hu : c = .cleanupRefs → UsedHid s k) : PHas (c.run W.cfg env s).2.2 k := by
  rcases allowed_cases hin with hin | ⟨rfl, _, _⟩ | ⟨rfl, _⟩
  · exact phas_cmd hin h hk
  · simp only [Cmd.run, (admin_state _ _ _).1]
    obtain ⟨s', h1, hg, _⟩ := cleanup_exact hW h.inv
    obtain ⟨r, hr⟩ := hk
    rw [h1]
    exact ⟨r, (hg.refs k r).2 ⟨hr, hu rfl⟩⟩
  · simp only [Cmd.run, (admin_state _ _ _).1]
    have e : ∀ m, (s.setCallCache m).shapes = s.shapes := by
      intro m; unfold St.setCallCache; split <;> rfl
    have es : (preload s).2.shapes = { s.shapes with cache := s.shapes.pers.loadAll } := by unfold preload; dsimp only; rw [e]
    unfold PHas
    rw [es]
    exact hk

theorem phas_orderly (hW : W.Good) {k : String} {all : Bool} : ∀ (cs : List Cmd) {env : List Ref} {penv : List Val} {s : St}, EnvOK W env penv → Sess W s env →
    Orderly W all env s cs → Spared W k env s cs → PHas s k → PHas (runProg W.cfg env s cs).2.2 k
  | [], _, _, _, _, _, _, _, hk => hk
  | c :: cs, env, penv, s, he, h, hg, hsp, hk => by
    obtain ⟨h1, h2, h3, h4⟩ := hg
    obtain ⟨k1, k2⟩ := hsp
    simp only [runProg]
    obtain ⟨g1, g2⟩ := sess_kept hW h1 h2 h he
    have hk' := phas_kept hW h2 h hk k1
    by_cases hcs : cs = []
    · subst hcs; exact hk'
    · obtain ⟨penv', he'⟩ := env_after hW h1 h.inv he
      exact phas_orderly hW cs he' (g1 fun hc => h3 hc (.inr hcs)) h4 k2 hk'

theorem phas_allOrderly (hW : W.Good) {k : String} : ∀ (ps : List (List Cmd × End)) {s : St}, Sess W s [] → AllOrderly W s ps → SparedIn W k s ps → PHas s k →
    PHas (runSessions W.cfg s ps) k
  | [], _, _, _, _, hk => hk
  | (p, e) :: ps, s, h, hok, hsp, hk => by
    simp only [runSessions]
    exact phas_allOrderly hW ps (endSession_sess (sess_orderly hW p (env := []) (penv := []) All2.nil h hok.1) e) hok.2 hsp.2
      (phas_end (phas_orderly hW p (penv := []) All2.nil h hok.1 hsp.1 hk) e)

theorem loadsOn_of (hW : W.Good) {s : St} {env : List Ref} (hs : Sess W s env) (hf : MemFull W s.calls.cache) {h : String} {t : TVal} (hp : Prov W h t)
    (hh : Has s.shapes h) (hfl : t.Flat) (hn : t.Fits W.cfg.fuel) : LoadsOn W h t.erase s := by
  refine ⟨fun b => load_unwrap hW ⟨hs.inv, hs.whole, hf⟩ hp hh hfl hn b, fun s1 hc e qs q hr hsq hsp b => ?_⟩
  have h1 := endSession_sess (sess_commit_ok hW hs hc).dbOK e
  have hcache : (endSession W.cfg e s1).calls.cache = .empty ∧ (endSession W.cfg e s1).allowNew = true := by cases e <;> exact ⟨rfl, rfl⟩
  obtain ⟨⟨o, g1, _⟩, _⟩ := fsess_kept_run hW h1 hcache hr
  have hk := phas_allOrderly hW qs h1 hr.before hsq (phas_end (phas_commit hs hh hc) e)
  have hk' := phas_orderly hW q (penv := []) All2.nil (allOrderly_ok hW qs h1 hr.before) hr.stmts hsp hk
  exact load_unwrap hW g1.base hp hk'.has' hfl hn b
end
end Verif
