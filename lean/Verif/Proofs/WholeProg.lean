import Verif.Proofs.Whole
import Verif.Spec.Sessions
/-!
No statement of a session leaves a dangling reference, and neither does the end of the process.
-/
namespace Verif

section
variable {V : Type} {P : String → V → Prop}

/-- A commit changes no read; afterwards the database alone answers every read. -/
theorem commit_reads {d d' : CachedDict V} {size : V → Nat} (h : Clean d) (hu : Unique P d) (hc : d.commit size = (.ok (), d')) (k : String) :
    (d'.get k).1 = (d.get k).1 ∧ d'.pers.get k = (d'.get k).1 := by
  have hcl := (h.commit hu hc).1
  unfold CachedDict.commit at hc
  split at hc
  · rename_i p hf
    cases hc
    obtain ⟨f1, _⟩ := flush_get (P := P) _ _ _ hf (hu.imp id (fun h => ⟨h.1.2, h.1.1, h.2⟩))
    have h1 : ∀ v, d.cache.get? k = some v → p.get k = .ok v := by
      intro v hv
      exact (hcl k v hv).resolve_left (by simp)
    unfold CachedDict.get
    dsimp only
    cases hv : d.cache.get? k with
    | some v => exact ⟨rfl, h1 v hv⟩
    | none =>
      have hk : k ∉ d.dirty := by
        intro hk
        obtain ⟨v, h2, _⟩ := (f1 k).1 hk
        rw [hv] at h2; cases h2
      dsimp only
      rw [(f1 k).2 hk]
      cases d.pers.get k <;> exact ⟨rfl, rfl⟩
  · cases hc

/-- The overflow directory has a file for the key. -/
def OvHas (p : SqlDict V) (k : String) : Prop := ∃ j v, p.overflow = some j ∧ Dict.get? j k = some v

theorem sql_get_iff {p : SqlDict V} {k : String} : (∃ v, p.get k = .ok v) ↔ (∃ v, p.rows.get? k = some v) ∨ OvHas p k := by
  unfold SqlDict.get OvHas
  cases hr : p.rows.get? k with
  | some v => simp
  | none =>
    cases p.overflow with
    | none => simp
    | some j =>
      simp only [Joblib.get]
      cases hg : Dict.get? j k <;> simp [hg]

theorem flush_ov {size : V → Nat} {cache : Dict String V} : ∀ (ks : List String) (p : SqlDict V) (k : String), OvHas p k →
    OvHas (CachedDict.flush size cache ks p).2 k
  | [], _, _, h => h
  | x :: ks, p, k, h => by
    unfold CachedDict.flush
    split
    · exact h
    · split
      · exact h
      · rename_i v _ p' hp
        refine flush_ov ks p' k ?_
        obtain ⟨j, w, h1, h2⟩ := h
        unfold SqlDict.set at hp
        split at hp
        · rw [h1] at hp
          cases hp
          by_cases hk : k = x
          · exact ⟨_, _, rfl, by rw [joblib_set_get, if_pos hk]⟩
          · exact ⟨_, w, rfl, by rw [joblib_set_get, if_neg hk]; exact h2⟩
        · cases hp
          exact ⟨j, w, h1, h2⟩

theorem flush_ov_none {size : V → Nat} {cache : Dict String V} : ∀ (ks : List String) (p : SqlDict V), p.overflow = none →
    (CachedDict.flush size cache ks p).2.overflow = none
  | [], _, h => h
  | x :: ks, p, h => by
    unfold CachedDict.flush
    split
    · exact h
    · split
      · exact h
      · rename_i v _ p' hp
        refine flush_ov_none ks p' ?_
        unfold SqlDict.set at hp
        split at hp
        · rw [h] at hp; cases hp
        · cases hp; exact h

theorem commit_pers {d : CachedDict V} {size : V → Nat} : (d.commit size).2.pers = (CachedDict.flush size d.cache d.dirty d.pers).2 := by
  unfold CachedDict.commit
  cases CachedDict.flush size d.cache d.dirty d.pers with
  | mk x p => cases x <;> rfl
end

/-! ### rows -/

theorem foldOK_of_rows {rs : List Row} {d : CallData} (h : dataOfRows rs = some d) : FoldOK rs d := by
  cases rs with
  | nil => cases h
  | cons r rs =>
    simp only [dataOfRows, Option.some.injEq] at h
    rw [← h]
    refine FoldOK.foldl (rs0 := []) ⟨?_, ?_, ?_, ?_, ?_, ?_⟩
    · simp [Dict.keys]
    · simp [Dict.keys]
    · intro n x hx; cases hx
    · intro n x hx; cases hx
    · intro r hr; simp at hr
    · intro r hr; simp at hr

theorem header_of_rows {rs : List Row} {d : CallData} (h : dataOfRows rs = some d) : ∃ r ∈ rs, d.opName = r.op ∧ d.hid = r.callHid := by
  cases rs with
  | nil => cases h
  | cons r rs =>
    simp only [dataOfRows, Option.some.injEq] at h
    have hh := foldl_header (r :: rs) (CallData.mk r.op r.callCid r.callHid [] [] [] [] r.semVer r.contVer)
    rw [h] at hh
    exact ⟨r, by simp, hh.2.2, hh.1⟩

/-- The rows written for a cached call come from the cache. -/
theorem toRows_of_cache {m : InMem} {h : String} {d : CallData} (hd : m.getData h = .ok d) : ∀ x ∈ d.toRows,
    (∃ y ∈ m.df, x.refHid = y.refHid) ∧ ∃ y ∈ m.df, x.op = y.op := by
  have hr := getData_rows hd
  have hf := foldOK_of_rows hr
  obtain ⟨r, hr1, hr2, _⟩ := header_of_rows hr
  intro x hx
  have hop : x.op = d.opName := by
    simp only [CallData.toRows, List.mem_append, List.mem_map] at hx
    rcases hx with ⟨p, _, rfl⟩ | ⟨p, _, rfl⟩ <;> rfl
  refine ⟨?_, r, (mem_rowsOf.1 hr1).1, hop.trans hr2⟩
  simp only [CallData.toRows, List.mem_append, List.mem_map] at hx
  rcases hx with ⟨p, hp, rfl⟩ | ⟨p, hp, rfl⟩
  · obtain ⟨y, hy, _, _, h3, _⟩ := hf.ins p.1 p.2 ((Dict.get?_eq_some_iff hf.nodupIn).2 hp)
    exact ⟨y, (mem_rowsOf.1 hy).1, h3.symm⟩
  · obtain ⟨y, hy, _, _, h3, _⟩ := hf.outs p.1 p.2 ((Dict.get?_eq_some_iff hf.nodupOut).2 hp)
    exact ⟨y, (mem_rowsOf.1 hy).1, h3.symm⟩

theorem flush_rows {cache : InMem} : ∀ {hs : List String} {rows rows' : List Row}, CachedCalls.flush cache hs rows = (.ok (), rows') →
    ∀ x ∈ rows', x ∈ rows ∨ ((∃ y ∈ cache.df, x.refHid = y.refHid) ∧ ∃ y ∈ cache.df, x.op = y.op)
  | [], rows, rows', hf, x, hx => by
    simp only [CachedCalls.flush, Prod.mk.injEq] at hf
    rw [hf.2]; exact .inl hx
  | k :: hs, rows, rows', hf, x, hx => by
    simp only [CachedCalls.flush] at hf
    cases hg : cache.getData k with
    | error e => rw [hg] at hf; simp at hf
    | ok d =>
      rw [hg] at hf
      simp only at hf
      cases hs' : sqlSave rows d with
      | mk y rows1 =>
        rw [hs'] at hf
        cases y with
        | error e => simp at hf
        | ok _ =>
          rcases flush_rows hf x hx with h | h
          · rw [insertRows_ok hs', List.mem_append] at h
            exact h.imp id (toRows_of_cache hg x)
          · exact .inr h

/-! ### statements -/

/-- What holds during a session. -/
structure Sess (W : World) (s : St) (env : List Ref) : Prop where
  inv : Inv W s
  whole : Whole [] s
  db : Whole [] (reopen s).2
  atoms : Clean s.atoms
  shapes : Clean s.shapes
  ops : Clean s.ops
  ovfS : s.shapes.pers.overflow = none
  ovfO : s.ops.pers.overflow = none
  env : ∀ r ∈ env, s.LiveTop r

/-- What holds of the database. -/
structure DbOK (W : World) (s : St) : Prop where
  inv : Inv W s
  db : Whole [] (reopen s).2
  ovfS : s.shapes.pers.overflow = none
  ovfO : s.ops.pers.overflow = none

theorem Sess.dbOK {W : World} {s : St} {env : List Ref} (h : Sess W s env) : DbOK W s := ⟨h.inv, h.db, h.ovfS, h.ovfO⟩

/-- A process starts. -/
theorem DbOK.start {W : World} {s : St} (h : DbOK W s) : Sess W (reopen s).2 [] where
  inv := by
    have := keeps_reopen (W := W) s h.inv
    exact this.1
  whole := h.db
  db := h.db
  atoms := Clean.open_ _
  shapes := Clean.open_ _
  ops := Clean.open_ _
  ovfS := h.ovfS
  ovfO := h.ovfO
  env := fun r hr => by simp at hr

/-- Same database tables. -/
theorem Whole.db {s s' : St} (h : Whole [] (reopen s).2) (ha : ∀ c, (∃ v, s.atoms.pers.get c = .ok v) → ∃ v, s'.atoms.pers.get c = .ok v)
    (hs : ∀ k, s'.shapes.pers.get k = s.shapes.pers.get k) (ho : ∀ k, (∃ v, s.ops.pers.get k = .ok v) → ∃ v, s'.ops.pers.get k = .ok v)
    (hr : ∀ r ∈ s'.calls.pers, r ∈ s.calls.pers) : Whole [] (reopen s').2 := by
  refine h.of_reads ?_ ?_ ?_ ?_
  · intro c hc
    simp only [Has, reopen, open_get] at hc ⊢
    exact ha c hc
  · intro k
    simp only [reopen, open_get]
    exact hs k
  · intro c hc
    simp only [Has, reopen, open_get] at hc ⊢
    exact ho c hc
  · rintro r (hr' | hr')
    · simp [reopen, CachedCalls.open_, InMem.empty] at hr'
    · exact .inr (hr r hr')

/-- The tables of the database as a whole, and the caches; how a statement may change them. -/
theorem Sess.of_pres {W : World} {s s' : St} {env env' : List Ref} (h : Sess W s env) (hi : Inv W s') (hw : Whole [] s')
    (hb : Clean s'.atoms ∧ Clean s'.shapes ∧ Clean s'.ops) (hpa : s'.atoms.pers = s.atoms.pers) (hps : s'.shapes.pers = s.shapes.pers)
    (hpo : s'.ops.pers = s.ops.pers) (hpc : ∀ r ∈ s'.calls.pers, r ∈ s.calls.pers) (he : ∀ r ∈ env', s'.LiveTop r) : Sess W s' env' where
  inv := hi
  whole := hw
  db := h.db.db (fun c hc => by rw [hpa]; exact hc) (fun k => by rw [hps]) (fun k hk => by rw [hpo]; exact hk) hpc
  atoms := hb.1
  shapes := hb.2.1
  ops := hb.2.2
  ovfS := by rw [hps]; exact h.ovfS
  ovfO := by rw [hpo]; exact h.ovfO
  env := he

/-- Cached entries stay justified and the key/value tables of the database stay as they are. -/
structure SessR (s s' : St) : Prop where
  clean : Clean s.atoms ∧ Clean s.shapes ∧ Clean s.ops → Clean s'.atoms ∧ Clean s'.shapes ∧ Clean s'.ops
  atoms : s'.atoms.pers = s.atoms.pers
  shapes : s'.shapes.pers = s.shapes.pers
  ops : s'.ops.pers = s.ops.pers
  calls : s'.calls.pers = s.calls.pers

theorem SessR.writes : Writes SessR where
  ord := ⟨fun _ => ⟨fun h => h, rfl, rfl, rfl, rfl⟩, fun h1 h2 => ⟨fun h => h2.clean (h1.clean h), h2.atoms.trans h1.atoms,
    h2.shapes.trans h1.shapes, h2.ops.trans h1.ops, h2.calls.trans h1.calls⟩⟩
  shapesGet k s := ⟨fun h => ⟨h.1, h.2.1.get k, h.2.2⟩, rfl, by simp only [shapesGet, CachedDict.get_pers], rfl, rfl⟩
  atomsGet k s := ⟨fun h => ⟨h.1.get k, h.2.1, h.2.2⟩, by simp only [atomsGet, CachedDict.get_pers], rfl, rfl, rfl⟩
  opsGet k s := ⟨fun h => ⟨h.1, h.2.1, h.2.2.get k⟩, rfl, rfl, by simp only [opsGet, CachedDict.get_pers], rfl⟩
  shapesSet k r s := ⟨fun h => ⟨h.1, h.2.1.set k r, h.2.2⟩, rfl, rfl, rfl, rfl⟩
  atomsSet k v s := ⟨fun h => ⟨h.1.set k v, h.2.1, h.2.2⟩, rfl, rfl, rfl, rfl⟩
  opsSet n s := ⟨fun h => ⟨h.1, h.2.1, h.2.2.set n n⟩, rfl, rfl, rfl, rfl⟩
  log op args s := ⟨fun h => h, rfl, rfl, rfl, rfl⟩

theorem sessR_saveCall (c : CallObj) : Pres SessR (saveCall c) :=
  pres_saveCall SessR.writes c fun _ _ => ⟨fun h => h, rfl, rfl, rfl, rfl⟩

mutual
theorem toArg_live {s : St} {env : List Ref} (h : ∀ r ∈ env, s.Live r) : ∀ (e : PExpr) (a : Arg), e.toArg env = some a → ArgLive s a
  | .raw v, a, ha => by cases ha; simp [ArgLive]
  | .var i, a, ha => by
    simp only [PExpr.toArg, Option.map_eq_some_iff] at ha
    obtain ⟨r, hr, rfl⟩ := ha
    exact h r (List.mem_of_getElem? hr)
  | .list xs, a, ha => by
    simp only [PExpr.toArg, Option.map_eq_some_iff] at ha
    obtain ⟨as, has, rfl⟩ := ha
    simp only [ArgLive]
    exact toArgs_live h xs as has
  | .dict ks xs, a, ha => by
    simp only [PExpr.toArg, Option.map_eq_some_iff] at ha
    obtain ⟨as, has, rfl⟩ := ha
    simp only [ArgLive]
    exact toArgs_live h xs as has
theorem toArgs_live {s : St} {env : List Ref} (h : ∀ r ∈ env, s.Live r) : ∀ (xs : List PExpr) (as : List Arg),
    PExpr.toArgs env xs = some as → ArgsLive s as
  | [], as, ha => by cases ha; simp [ArgsLive]
  | x :: xs, as, ha => by
    simp only [PExpr.toArgs] at ha
    split at ha
    · cases ha
      simp only [ArgsLive]
      exact ⟨toArg_live h x _ ‹_›, toArgs_live h xs _ ‹_›⟩
    · cases ha
end

theorem bindArgs_live {s : St} {env : List Ref} (h : ∀ r ∈ env, s.Live r) : ∀ (args : List PArg) (bs : List BArg),
    bindArgs env args = some bs → ∀ a ∈ bs, ArgLive s a.arg
  | [], bs, hb, a, ha => by cases hb; simp at ha
  | p :: ps, bs, hb, a, ha => by
    simp only [bindArgs] at hb
    split at hb
    · cases hb
      rcases List.mem_cons.1 ha with rfl | ha
      · exact toArg_live h p.expr _ ‹_›
      · exact bindArgs_live h ps _ ‹_› a ha
    · cases hb

section
variable {W : World}

theorem sess_call (hW : W.Good) {s : St} {env : List Ref} {penv : List Val} (h : Sess W s env) (he : EnvOK W env penv) {d : OpDef} {args : List PArg}
    (hok : CmdOK W (.call d args)) :
    Sess W ((Cmd.call d args).run W.cfg env s).2.2 ((Cmd.call d args).run W.cfg env s).2.1 := by
  simp only [Cmd.run]
  rcases call_facts hok he with ⟨h1, _⟩ | ⟨bargs, ins, vals, h1, _, h3, h4, _, h6⟩
  · rw [h1]; exact h
  · rw [h1]
    simp only
    obtain ⟨w1, w2, w3, _⟩ := whole_call hW hok.1 h3 h4 h6 h.inv h.whole (bindArgs_live (fun r hr => (h.env r hr).1) args bargs h1)
    have hk := keeps_call hW hok.1 h3 h4 h6 s h.inv
    have hp := pres_call SessR.writes.toUnwraps W.cfg sessR_saveCall d bargs s
    have hold : ∀ r ∈ env, (call W.cfg d bargs s).2.LiveTop r := fun r hr => ⟨w2.live (h.env r hr).1, (h.env r hr).2⟩
    cases hc : call W.cfg d bargs s with
    | mk x s1 =>
      rw [hc] at w1 w2 w3 hk hp hold
      have hcl := hp.clean ⟨h.atoms, h.shapes, h.ops⟩
      cases x with
      | ok rs =>
        refine h.of_pres hk.1 w1 hcl hp.atoms hp.shapes hp.ops (fun r hr => by rw [← hp.calls]; exact hr) (fun r hr => ?_)
        rcases List.mem_append.1 hr with hr | hr
        · exact hold r hr
        · exact w3 rs rfl r hr
      | error e => exact h.of_pres hk.1 w1 hcl hp.atoms hp.shapes hp.ops (fun r hr => by rw [← hp.calls]; exact hr) hold

theorem sess_unwrap (hW : W.Good) {s : St} {env : List Ref} {penv : List Val} (h : Sess W s env) (he : EnvOK W env penv) (x : Nat) :
    Sess W ((Cmd.unwrap x).run W.cfg env s).2.2 ((Cmd.unwrap x).run W.cfg env s).2.1 := by
  simp only [Cmd.run]
  rcases he.get? x with ⟨h1, _⟩ | ⟨r, v, t, h1, _, h3, _⟩
  · rw [h1]; exact h
  · rw [h1]
    simp only
    have hk := keeps_unwrapRef hW r t h3 s h.inv
    have hp := pres_unwrapRef SessR.writes.toUnwraps W.cfg r s
    have hx := pres_unwrapRef (Ext.unwraps s) W.cfg r s (.refl s)
    cases hc : unwrapRef W.cfg r s with
    | mk x s1 =>
      rw [hc] at hk hp hx
      have hcl := hp.clean ⟨h.atoms, h.shapes, h.ops⟩
      have := h.of_pres (s' := s1) (env' := env) (by cases x <;> exact hk.1) (hx.whole h.whole) hcl hp.atoms hp.shapes hp.ops
        (fun r hr => by rw [← hp.calls]; exact hr) (fun r hr => ⟨hx.live (h.env r hr).1, (h.env r hr).2⟩)
      cases x <;> exact this

theorem commit_parts {cfg : Cfg} {s s' : St} (hc : commit cfg s = (.ok (), s')) :
    s.atoms.commit cfg.sizeA = (.ok (), s'.atoms) ∧ s.shapes.commit cfg.sizeS = (.ok (), s'.shapes) ∧
    s.ops.commit cfg.sizeO = (.ok (), s'.ops) ∧ s'.calls.cache = s.calls.cache ∧
    CachedCalls.flush s.calls.cache s.calls.dirty s.calls.pers = (.ok (), s'.calls.pers) := by
  unfold commit commitBody at hc
  cases h1 : s.atoms.commit cfg.sizeA with
  | mk x1 a =>
    rw [h1] at hc
    cases x1 with
    | error e => simp at hc
    | ok _ =>
      cases h2 : s.shapes.commit cfg.sizeS with
      | mk x2 b =>
        simp only [h2] at hc
        cases x2 with
        | error e => simp at hc
        | ok _ =>
          cases h3 : s.ops.commit cfg.sizeO with
          | mk x3 o =>
            simp only [h3] at hc
            cases x3 with
            | error e => simp at hc
            | ok _ =>
              cases h4 : s.calls.commit with
              | mk x4 c =>
                simp only [h4] at hc
                cases x4 with
                | error e => simp at hc
                | ok _ =>
                  simp only [Prod.mk.injEq, true_and] at hc
                  rw [← hc]
                  unfold CachedCalls.commit at h4
                  cases hf : CachedCalls.flush s.calls.cache s.calls.dirty s.calls.pers with
                  | mk y rows =>
                    rw [hf] at h4
                    cases y with
                    | error e => simp at h4
                    | ok _ =>
                      simp only [Prod.mk.injEq, true_and] at h4
                      rw [← h4]
                      exact ⟨rfl, rfl, rfl, rfl, rfl⟩

theorem sess_commit_ok (hW : W.Good) {s s' : St} {env : List Ref} (h : Sess W s env) (hc : commit W.cfg s = (.ok (), s')) : Sess W s' env := by
  have hi : Inv W s' := by
    have := keeps_commit hW s h.inv
    rw [hc] at this
    exact this.1
  obtain ⟨c1, c2, c3, c4, c5⟩ := commit_parts hc
  have ra := commit_reads h.atoms (h.inv.unique W hW) c1
  have rs := commit_reads (P := fun _ _ => True) h.shapes (.inl h.ovfS) c2
  have ro := commit_reads (P := fun _ _ => True) h.ops (.inl h.ovfO) c3
  have ka := h.atoms.commit (h.inv.unique W hW) c1
  have ks := Clean.commit (P := fun _ _ => True) h.shapes (.inl h.ovfS) c2
  have ko := Clean.commit (P := fun _ _ => True) h.ops (.inl h.ovfO) c3
  have hA : ∀ c, Has s.atoms c → Has s'.atoms c := fun c ⟨v, hv⟩ => ⟨v, by rw [(ra c).1]; exact hv⟩
  have hO : ∀ c, Has s.ops c → Has s'.ops c := fun c ⟨v, hv⟩ => ⟨v, by rw [(ro c).1]; exact hv⟩
  have hS : ∀ c, Has s.shapes c → Has s'.shapes c := fun c ⟨v, hv⟩ => ⟨v, by rw [(rs c).1]; exact hv⟩
  have hw : Whole [] s' := by
    have h0 : Whole [] { s' with calls := s.calls } := h.whole.of_reads hA (fun k => (rs k).1) hO (fun r hr => hr)
    refine ⟨h0.atoms, h0.colls, fun r hr => ?_⟩
    rcases hr with hr | hr
    · rw [c4] at hr
      exact h0.rows r (.inl hr)
    · rcases flush_rows c5 r hr with hr | ⟨⟨y, hy, hy'⟩, z, hz, hz'⟩
      · exact h0.rows r (.inr hr)
      · exact ⟨by rw [hy']; exact (h0.rows y (.inl hy)).1, by rw [hz']; exact (h0.rows z (.inl hz)).2⟩
  refine ⟨hi, hw, ?_, ka.1, ks.1, ko.1, ks.2 h.ovfS, ko.2 h.ovfO, fun r hr => ?_⟩
  · refine hw.of_reads ?_ ?_ ?_ ?_
    · intro c ⟨v, hv⟩
      exact ⟨v, by simp only [reopen, open_get]; rw [(ra c).2]; exact hv⟩
    · intro k
      simp only [reopen, open_get]
      exact (rs k).2
    · intro c ⟨v, hv⟩
      exact ⟨v, by simp only [reopen, open_get]; rw [(ro c).2]; exact hv⟩
    · rintro r (hr | hr)
      · simp [reopen, CachedCalls.open_, InMem.empty] at hr
      · exact .inr hr
  · obtain ⟨h1, h2⟩ := h.env r hr
    exact ⟨Live.mono hA hS r h1, h2⟩

/-- The tables after a commit that failed. -/
theorem commit_failed {cfg : Cfg} {s s' : St} {e : Err} (hc : commit cfg s = (.error e, s')) :
    s'.calls.pers = s.calls.pers ∧
    (s'.atoms.pers = { s.atoms.pers with overflow := s'.atoms.pers.overflow } ∧ ∀ k, OvHas s.atoms.pers k → OvHas s'.atoms.pers k) ∧
    (s.shapes.pers.overflow = none → s'.shapes.pers.get = s.shapes.pers.get ∧ s'.shapes.pers.overflow = none) ∧
    (s.ops.pers.overflow = none → s'.ops.pers.get = s.ops.pers.get ∧ s'.ops.pers.overflow = none) := by
  have thr : ∀ {V : Type} (size : V → Nat) (d : CachedDict V), (d.commit size).2.pers.threshold = d.pers.threshold := by
    intro V size d
    rw [commit_pers]
    have : ∀ (ks : List String) (p : SqlDict V), (CachedDict.flush size d.cache ks p).2.threshold = p.threshold := by
      intro ks
      induction ks with
      | nil => intro p; rfl
      | cons k ks ih =>
        intro p
        unfold CachedDict.flush
        split
        · rfl
        · split
          · rfl
          · rename_i hp
            rw [ih]
            unfold SqlDict.set at hp
            split at hp
            · split at hp
              · cases hp; rfl
              · cases hp
            · cases hp; rfl
    exact this _ _
  have keep : ∀ {V : Type} (size : V → Nat) (d d' : CachedDict V), d' = d ∨ d' = (d.commit size).2 → d.pers.overflow = none →
      ({ d'.pers with rows := d.pers.rows } : SqlDict V).get = d.pers.get ∧ d'.pers.overflow = none := by
    intro V size d d' hd ho
    have h2 : d'.pers.overflow = none := by
      rcases hd with rfl | rfl
      · exact ho
      · rw [commit_pers]; exact flush_ov_none _ _ ho
    refine ⟨?_, h2⟩
    funext k
    unfold SqlDict.get
    simp only [h2, ho]
  have main : ∃ s1 : St, s' = rollback s s1 ∧ (s1.atoms = (s.atoms.commit cfg.sizeA).2) ∧
      (s1.shapes = s.shapes ∨ s1.shapes = (s.shapes.commit cfg.sizeS).2) ∧
      (s1.ops = s.ops ∨ s1.ops = (s.ops.commit cfg.sizeO).2) := by
    unfold commit commitBody at hc
    cases h1 : s.atoms.commit cfg.sizeA with
    | mk x1 a =>
      simp only [h1] at hc
      cases x1 with
      | error e => simp only [Prod.mk.injEq] at hc; exact ⟨_, hc.2.symm, rfl, .inl rfl, .inl rfl⟩
      | ok _ =>
        cases h2 : s.shapes.commit cfg.sizeS with
        | mk x2 b =>
          simp only [h2] at hc
          cases x2 with
          | error e => simp only [Prod.mk.injEq] at hc; exact ⟨_, hc.2.symm, rfl, .inr rfl, .inl rfl⟩
          | ok _ =>
            cases h3 : s.ops.commit cfg.sizeO with
            | mk x3 o =>
              simp only [h3] at hc
              cases x3 with
              | error e => simp only [Prod.mk.injEq] at hc; exact ⟨_, hc.2.symm, rfl, .inr rfl, .inr rfl⟩
              | ok _ =>
                cases h4 : s.calls.commit with
                | mk x4 c =>
                  simp only [h4] at hc
                  cases x4 with
                  | error e => simp only [Prod.mk.injEq] at hc; exact ⟨_, hc.2.symm, rfl, .inr rfl, .inr rfl⟩
                  | ok _ => simp at hc
  obtain ⟨s1, rfl, m1, m2, m3⟩ := main
  refine ⟨rfl, ⟨?_, fun k hk => ?_⟩, fun h => keep _ _ _ m2 h, fun h => keep _ _ _ m3 h⟩
  · have := thr cfg.sizeA s.atoms
    rw [← m1] at this
    simp only [rollback]
    rw [← this]
  · have h1 : OvHas s1.atoms.pers k := by
      rw [m1, commit_pers]; exact flush_ov _ _ _ hk
    exact h1

/-- Overflow files written without their rows do no harm. -/
theorem ov_has {p p' : SqlDict Val} (hp : p'.rows = p.rows) (ho : ∀ k, OvHas p k → OvHas p' k) (k : String) :
    (∃ v, p.get k = .ok v) → ∃ v, p'.get k = .ok v := by
  rw [sql_get_iff, sql_get_iff, hp]
  exact Or.imp id (ho k)

theorem sess_commit_fail (hW : W.Good) {s s' : St} {env : List Ref} {e : Err} (h : Sess W s env) (hc : commit W.cfg s = (.error e, s')) :
    DbOK W s' := by
  have hi : Inv W s' := by
    have := keeps_commit hW s h.inv
    rw [hc] at this
    exact this.1
  obtain ⟨h1, ⟨h2, h3⟩, h4, h5⟩ := commit_failed hc
  refine ⟨hi, h.db.db (ov_has (by rw [h2]) h3) (fun k => by rw [(h4 h.ovfS).1]) (fun k hk => by rw [(h5 h.ovfO).1]; exact hk)
    (fun r hr => by rw [← h1]; exact hr), (h4 h.ovfS).2, (h5 h.ovfO).2⟩

theorem clear_parts {s : St} {b : Bool} :
    ((clearCache b s).2.atoms = s.atoms ∨ (clearCache b s).2.atoms = (s.atoms.clear b).2) ∧
    ((clearCache b s).2.shapes = s.shapes ∨ (clearCache b s).2.shapes = (s.shapes.clear b).2) ∧
    ((clearCache b s).2.ops = s.ops ∨ (clearCache b s).2.ops = (s.ops.clear b).2) ∧
    ((clearCache b s).2.calls = s.calls ∨ (clearCache b s).2.calls = (s.calls.clear b).2) := by
  unfold clearCache
  cases h1 : s.atoms.clear b with
  | mk x1 a =>
    cases x1 with
    | error e => exact ⟨.inr rfl, .inl rfl, .inl rfl, .inl rfl⟩
    | ok _ =>
      cases h2 : s.shapes.clear b with
      | mk x2 a2 =>
        simp only [h2]
        cases x2 with
        | error e => exact ⟨.inr rfl, .inr rfl, .inl rfl, .inl rfl⟩
        | ok _ =>
          cases h3 : s.ops.clear b with
          | mk x3 a3 =>
            simp only
            cases x3 with
            | error e => exact ⟨.inr rfl, .inr rfl, .inr rfl, .inl rfl⟩
            | ok _ =>
              cases h4 : s.calls.clear b with
              | mk x4 a4 =>
                simp only
                cases x4 <;> exact ⟨.inr rfl, .inr rfl, .inr rfl, .inr rfl⟩

theorem clean_step {V : Type} {d d' : CachedDict V} (h : Clean d) (hd : d' = d ∨ d' = (d.clear false).2) :
    (∀ k, (d'.get k).1 = (d.get k).1) ∧ d'.pers = d.pers ∧ Clean d' := by
  rcases hd with rfl | rfl
  · exact ⟨fun _ => rfl, rfl, h⟩
  · exact h.clear

theorem sess_clear {s : St} {env : List Ref} (h : Sess W s env) (hi : Inv W (clearCache false s).2) :
    Sess W (clearCache false s).2 env := by
  obtain ⟨p1, p2, p3, p4⟩ := clear_parts (s := s) (b := false)
  obtain ⟨a1, a2, a3⟩ := clean_step h.atoms p1
  obtain ⟨b1, b2, b3⟩ := clean_step h.shapes p2
  obtain ⟨o1, o2, o3⟩ := clean_step h.ops p3
  have hA : ∀ c, Has s.atoms c → Has (clearCache false s).2.atoms c := fun c ⟨v, hv⟩ => ⟨v, by rw [a1]; exact hv⟩
  have hS : ∀ c, Has s.shapes c → Has (clearCache false s).2.shapes c := fun c ⟨v, hv⟩ => ⟨v, by rw [b1]; exact hv⟩
  have hO : ∀ c, Has s.ops c → Has (clearCache false s).2.ops c := fun c ⟨v, hv⟩ => ⟨v, by rw [o1]; exact hv⟩
  have hr : (∀ r ∈ (clearCache false s).2.calls.cache.df, r ∈ s.calls.cache.df) ∧ (clearCache false s).2.calls.pers = s.calls.pers := by
    rcases p4 with p4 | p4
    · rw [p4]; exact ⟨fun _ h => h, rfl⟩
    · rw [p4]
      unfold CachedCalls.clear
      split
      · exact ⟨fun _ h => h, rfl⟩
      · exact ⟨fun r hr => by simp [InMem.empty] at hr, rfl⟩
  refine h.of_pres hi (h.whole.of_reads hA b1 hO ?_) ⟨a3, b3, o3⟩ a2 b2 o2 (fun r hr' => by rw [← hr.2]; exact hr') ?_
  · rintro r (hr' | hr')
    · exact .inl (hr.1 r hr')
    · exact .inr (by rw [← hr.2]; exact hr')
  · intro r hr
    obtain ⟨h1, h2⟩ := h.env r hr
    exact ⟨Live.mono hA hS r h1, h2⟩

theorem dropCached_sub : ∀ (hs : List String) (s : St), (dropCached hs s).2.atoms = s.atoms ∧ (dropCached hs s).2.shapes = s.shapes ∧
    (dropCached hs s).2.ops = s.ops ∧ (dropCached hs s).2.calls.pers = s.calls.pers ∧
    ∀ r ∈ (dropCached hs s).2.calls.cache.df, r ∈ s.calls.cache.df
  | [], _ => ⟨rfl, rfl, rfl, rfl, fun _ h => h⟩
  | k :: hs, s => by
    unfold dropCached
    split
    · cases hd : s.callCache.drop k with
      | error e => exact ⟨rfl, rfl, rfl, rfl, fun _ h => h⟩
      | ok m =>
        obtain ⟨h1, h2, h3, h4, h5⟩ := dropCached_sub hs (s.setCallCache m)
        have hm := drop_ok hd
        have hset : (s.setCallCache m).atoms = s.atoms ∧ (s.setCallCache m).shapes = s.shapes ∧ (s.setCallCache m).ops = s.ops ∧
            (s.setCallCache m).calls.pers = s.calls.pers ∧ ∀ r ∈ (s.setCallCache m).calls.cache.df, r ∈ s.calls.cache.df := by
          unfold St.setCallCache
          cases hst : s.stale with
          | none =>
            refine ⟨rfl, rfl, rfl, rfl, fun r hr => ?_⟩
            simp only at hr
            have hcc : s.callCache = s.calls.cache := by simp [St.callCache, hst]
            rw [hm, hcc] at hr
            exact (List.mem_filter.1 hr).1
          | some _ => exact ⟨rfl, rfl, rfl, rfl, fun _ h => h⟩
        exact ⟨h1.trans hset.1, h2.trans hset.2.1, h3.trans hset.2.2.1, h4.trans hset.2.2.2.1, fun r hr => hset.2.2.2.2 r (h5 r hr)⟩
    · exact dropCached_sub hs s

theorem dropCalls_sub (hs : List String) (b : Bool) (s : St) : (dropCalls hs b s).2.atoms = s.atoms ∧ (dropCalls hs b s).2.shapes = s.shapes ∧
    (dropCalls hs b s).2.ops = s.ops ∧ (∀ r ∈ (dropCalls hs b s).2.calls.pers, r ∈ s.calls.pers) ∧
    ∀ r ∈ (dropCalls hs b s).2.calls.cache.df, r ∈ s.calls.cache.df := by
  unfold dropCalls
  dsimp only
  have key := fun l => dropCached_sub l s
  split
  · rename_i hd
    obtain ⟨h1, h2, h3, h4, h5⟩ := key _
    rw [hd] at h1 h2 h3 h4 h5
    exact ⟨h1, h2, h3, fun r hr => by rw [← h4]; exact hr, h5⟩
  · rename_i hd
    obtain ⟨h1, h2, h3, h4, h5⟩ := key _
    rw [hd] at h1 h2 h3 h4 h5
    refine ⟨h1, h2, h3, fun r hr => ?_, h5⟩
    have := (List.mem_filter.1 hr).1
    exact h4 ▸ this

theorem sess_drop {s : St} {env : List Ref} (h : Sess W s env) {hs : List String} {b : Bool} (hi : Inv W (dropCalls hs b s).2) :
    Sess W (dropCalls hs b s).2 env := by
  obtain ⟨h1, h2, h3, h4, h5⟩ := dropCalls_sub hs b s
  refine h.of_pres hi (h.whole.of_reads (fun c hc => by rw [h1]; exact hc) (fun k => by rw [h2]) (fun k hk => by rw [h3]; exact hk)
    (fun r hr => hr.imp (h5 r) (h4 r))) ⟨by rw [h1]; exact h.atoms, by rw [h2]; exact h.shapes, by rw [h3]; exact h.ops⟩ (by rw [h1])
    (by rw [h2]) (by rw [h3]) h4 (fun r hr => ?_)
  have := h.env r hr
  unfold St.LiveTop St.Live at this ⊢
  rw [h1, h2]; exact this

/-- A statement of a session. -/
theorem sess_cmd (hW : W.Good) {c : Cmd} (hok : CmdOK W c) (hin : c.InSession) {s : St} {env : List Ref} {penv : List Val} (h : Sess W s env)
    (he : EnvOK W env penv) :
    ((c = .commit → (c.run W.cfg env s).1 = .done) → Sess W (c.run W.cfg env s).2.2 (c.run W.cfg env s).2.1) ∧
      DbOK W (c.run W.cfg env s).2.2 := by
  have hadm : ∀ (m : M Unit), (Cmd.run.admin env s m).2.2 = (m s).2 ∧ (Cmd.run.admin env s m).2.1 = env := by
    intro m; unfold Cmd.run.admin; cases m s with | mk x s' => cases x <;> exact ⟨rfl, rfl⟩
  have hstep := (step_ok hW hok he h.inv (o := (c.run W.cfg env s).1) (env' := (c.run W.cfg env s).2.1)
      (s' := (c.run W.cfg env s).2.2) rfl).1
  have both : Sess W (c.run W.cfg env s).2.2 (c.run W.cfg env s).2.1 →
      ((c = .commit → (c.run W.cfg env s).1 = .done) → Sess W (c.run W.cfg env s).2.2 (c.run W.cfg env s).2.1) ∧
      DbOK W (c.run W.cfg env s).2.2 := fun hh => ⟨fun _ => hh, hh.dbOK⟩
  cases c with
  | call d args => exact both (sess_call hW h he hok)
  | unwrap x => exact both (sess_unwrap hW h he x)
  | commit =>
    simp only [Cmd.run, (hadm _).1, (hadm _).2]
    cases hc : commit W.cfg s with
    | mk x s' =>
      cases x with
      | ok _ =>
        have := sess_commit_ok hW h hc
        exact ⟨fun _ => this, this.dbOK⟩
      | error e =>
        refine ⟨fun hd => ?_, sess_commit_fail hW h hc⟩
        have := hd trivial
        simp [Cmd.run.admin, hc] at this
  | clearCache b =>
    cases hin
    apply both
    simp only [Cmd.run, (hadm _).1, (hadm _).2] at hstep ⊢
    exact sess_clear h hstep
  | dropCalls hs b =>
    apply both
    simp only [Cmd.run, (hadm _).1, (hadm _).2] at hstep ⊢
    exact sess_drop h hstep
  | allowNew b =>
    apply both
    exact ⟨hstep, ⟨h.whole.atoms, h.whole.colls, h.whole.rows⟩, ⟨h.db.atoms, h.db.colls, h.db.rows⟩, h.atoms, h.shapes, h.ops, h.ovfS,
      h.ovfO, h.env⟩
  | cleanupRefs => exact absurd hin id
  | preload => exact absurd hin id
  | reopen => exact absurd hin id

theorem commitsGo_cons {c : Cmd} {cs : List Cmd} {o : Obs} {os : List Obs} (h : commitsGo (c :: cs) (o :: os)) :
    (cs ≠ [] → c = .commit → o = .done) ∧ commitsGo cs os := by
  cases cs with
  | nil => exact ⟨fun h => absurd rfl h, by cases os <;> exact trivial⟩
  | cons c' cs =>
    cases c with
    | commit => exact ⟨fun _ _ => h.1, h.2⟩
    | _ => exact ⟨fun _ h => (nomatch h), h⟩

/-- A session, up to where the process is killed. -/
theorem sess_prog (hW : W.Good) : ∀ (cs : List Cmd), (∀ c ∈ cs, CmdOK W c ∧ c.InSession) → ∀ {env : List Ref} {penv : List Val},
    EnvOK W env penv → ∀ {s : St}, Sess W s env → commitsGo cs (runProg W.cfg env s cs).1 → DbOK W (runProg W.cfg env s cs).2.2
  | [], _, _, _, _, _, h, _ => h.dbOK
  | c :: cs, hok, env, penv, he, s, h, hg => by
    simp only [runProg] at hg ⊢
    obtain ⟨h1, h2⟩ := commitsGo_cons hg
    obtain ⟨h3, h4⟩ := sess_cmd hW (hok c (by simp)).1 (hok c (by simp)).2 h he
    by_cases hcs : cs = []
    · subst hcs; exact h4
    · obtain ⟨_, h5⟩ := step_ok hW (hok c (by simp)).1 he h.inv (o := (c.run W.cfg env s).1) (env' := (c.run W.cfg env s).2.1)
        (s' := (c.run W.cfg env s).2.2) rfl
      have he' : ∃ penv', EnvOK W (c.run W.cfg env s).2.1 penv' := by
        rcases h5 with ⟨_, h5⟩ | ⟨_, _, _, h5⟩
        · exact ⟨_, h5⟩
        · exact ⟨penv, by rw [h5]; exact he⟩
      obtain ⟨penv', he'⟩ := he'
      exact sess_prog hW cs (fun c hc => hok c (List.mem_cons_of_mem _ hc)) he' (h3 (h1 hcs)) h2

/-- The end of a process. -/
theorem DbOK.end_ {s : St} (h : DbOK W s) : ∀ (e : End), DbOK W (endSession W.cfg e s)
  | .between => ⟨(keeps_reopen s h.inv).1, h.db, h.ovfS, h.ovfO⟩
  | .inCommit ks => by
    have ha : StoreAll (fun c v => c = W.H v) { s.atoms with pers := { s.atoms.pers with
        overflow := (CachedDict.flush W.cfg.sizeA s.atoms.cache ks s.atoms.pers).2.overflow } } := by
      exact ⟨h.inv.atoms.1, h.inv.atoms.2.1, (flush_all h.inv.atoms.1 ks s.atoms.pers h.inv.atoms.2).2⟩
    refine ⟨(keeps_reopen { s with atoms := _ } ⟨ha, h.inv.shapes, h.inv.cache, h.inv.pers, h.inv.stale⟩).1, ?_, h.ovfS, h.ovfO⟩
    exact h.db.db (ov_has (p := s.atoms.pers) rfl (fun k hk => by
      have := flush_ov (size := W.cfg.sizeA) (cache := s.atoms.cache) ks s.atoms.pers k hk
      exact this)) (fun k => rfl) (fun k hk => hk) (fun r hr => hr)

theorem sessions_ok (hW : W.Good) : ∀ (ps : List (List Cmd × End)) {s : St}, Sess W s [] → SessionsOK W s ps →
    Sess W (runSessions W.cfg s ps) []
  | [], _, h, _ => h
  | (p, e) :: ps, s, h, hok => by
    simp only [runSessions]
    have h1 := (sess_prog hW p hok.1 (env := []) (penv := []) All2.nil h hok.2.1).end_ e
    have h2 := h1.start
    refine sessions_ok hW ps ?_ hok.2.2
    cases e <;> exact h2
end
end Verif
