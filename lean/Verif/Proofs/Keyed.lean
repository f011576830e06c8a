import Verif.Proofs.Delete
import Verif.Proofs.Writes
import Verif.Proofs.History
/-!
No table has two rows with the same call and name.
-/
namespace Verif

variable {W : World}

/-- `(call_history_id, name)` is a key of the table. -/
def KeyedRows (rows : List Row) : Prop := (rows.map Row.key).Nodup

/-- All tables of the storage are keyed. -/
structure Keyed (s : St) : Prop where
  cache : KeyedRows s.calls.cache.df
  pers : KeyedRows s.calls.pers
  stale : ∀ m, s.stale = some m → KeyedRows m.df

theorem mem_keys_setRow {rows : List Row} {r : Row} {k : String × String} : k ∈ (setRow rows r).map Row.key ↔ k ∈ rows.map Row.key ∨ k = r.key := by
  induction rows with
  | nil => simp [setRow]
  | cons a rows ih =>
    unfold setRow
    split
    · rename_i h
      have : a.key = r.key := by simp [Row.key, h.1, h.2]
      simp only [List.map_cons, List.mem_cons, this]
      constructor
      · rintro (h | h)
        · exact .inr h
        · exact .inl (.inr h)
      · rintro ((h | h) | h)
        · exact .inl h
        · exact .inr h
        · exact .inl h
    · simp only [List.map_cons, List.mem_cons, ih, or_assoc]

theorem KeyedRows.setRow {rows : List Row} (h : KeyedRows rows) (r : Row) : KeyedRows (setRow rows r) := by
  unfold KeyedRows at *
  induction rows with
  | nil => simp [Verif.setRow]
  | cons a rows ih =>
    simp only [List.map_cons, List.nodup_cons] at h
    unfold Verif.setRow
    split
    · rename_i he
      have : a.key = r.key := by simp [Row.key, he.1, he.2]
      simp only [List.map_cons, List.nodup_cons]
      exact ⟨this ▸ h.1, h.2⟩
    · rename_i hne
      simp only [List.map_cons, List.nodup_cons]
      refine ⟨fun hm => ?_, ih h.2⟩
      rcases mem_keys_setRow.1 hm with hm | hm
      · exact h.1 hm
      · simp only [Row.key, Prod.mk.injEq] at hm
        exact hne hm

theorem KeyedRows.foldl {rs : List Row} : ∀ {rows : List Row}, KeyedRows rows → KeyedRows (rs.foldl Verif.setRow rows) := by
  induction rs with
  | nil => intro rows h; exact h
  | cons r rs ih => intro rows h; exact ih (h.setRow r)

theorem KeyedRows.filter {rows : List Row} (h : KeyedRows rows) (p : Row → Bool) : KeyedRows (rows.filter p) :=
  List.Nodup.sublist ((List.filter_sublist (l := rows) (p := p)).map _) h

theorem KeyedRows.unique {rows : List Row} (h : KeyedRows rows) {a b : Row} (ha : a ∈ rows) (hb : b ∈ rows) (h1 : a.callHid = b.callHid)
    (h2 : a.name = b.name) : a = b := by
  unfold KeyedRows at h
  induction rows with
  | nil => cases ha
  | cons x rows ih =>
    simp only [List.map_cons, List.nodup_cons] at h
    have hk : a.key = b.key := by simp [Row.key, h1, h2]
    rcases List.mem_cons.1 ha with ea | ha' <;> rcases List.mem_cons.1 hb with eb | hb'
    · rw [ea, eb]
    · exact absurd (ea ▸ hk ▸ List.mem_map_of_mem hb') h.1
    · exact absurd (eb ▸ hk ▸ List.mem_map_of_mem ha') h.1
    · exact ih h.2 ha' hb'

theorem KeyedRows.save {m : InMem} (h : KeyedRows m.df) (c : CallRec) : KeyedRows (m.save c).df := by
  unfold InMem.save
  split
  · exact h
  · exact h.foldl.foldl

theorem KeyedRows.drop {m m' : InMem} {k : String} (h : KeyedRows m.df) (hd : m.drop k = .ok m') : KeyedRows m'.df := by
  rw [drop_ok hd]
  exact h.filter _

theorem KeyedRows.insertRows : ∀ (rs : List Row) {rows : List Row}, KeyedRows rows → KeyedRows (insertRows rows rs).2
  | [], _, h => h
  | r :: rs, rows, h => by
    unfold Verif.insertRows
    unfold insertRow
    split
    · rename_i rows' he
      split at he
      · cases he
      · rename_i hn
        cases he
        refine KeyedRows.insertRows rs ?_
        unfold KeyedRows at *
        rw [List.map_append, List.nodup_append]
        refine ⟨h, by simp, ?_⟩
        intro k hk k' hk' he
        simp only [List.map_cons, List.map_nil, List.mem_singleton] at hk'
        obtain ⟨r', hr', rfl⟩ := List.mem_map.1 hk
        rw [hk'] at he
        simp only [Row.key, Prod.mk.injEq] at he
        exact hn (List.any_eq_true.2 ⟨r', hr', by simp [he.1, he.2]⟩)
    · exact h

theorem KeyedRows.flush (m : InMem) : ∀ (hs : List String) {rows : List Row}, KeyedRows rows → KeyedRows (CachedCalls.flush m hs rows).2
  | [], _, h => h
  | k :: hs, rows, h => by
    unfold CachedCalls.flush
    cases m.getData k with
    | error e => exact h
    | ok d =>
      have h1 : KeyedRows (sqlSave rows d).2 := KeyedRows.insertRows _ h
      dsimp only
      cases hq : sqlSave rows d with
      | mk x rows' =>
        rw [hq] at h1
        cases x with
        | error e => exact h1
        | ok _ => exact KeyedRows.flush m hs h1

theorem commitBody_calls (cfg : Cfg) (s : St) : (commitBody cfg s).2.calls = s.calls ∨ (commitBody cfg s).2.calls = (s.calls.commit).2 := by
  unfold commitBody
  dsimp only
  split
  · exact .inl rfl
  · split
    · exact .inl rfl
    · split
      · exact .inl rfl
      · right
        cases hc : s.calls.commit with
        | mk x a => cases x <;> rfl

theorem keyed_callsCommit {s : St} (h : Keyed s) : (s.calls.commit).2.cache = s.calls.cache ∧ KeyedRows (s.calls.commit).2.pers := by
  unfold CachedCalls.commit
  have h1 := KeyedRows.flush s.calls.cache s.calls.dirty h.pers
  cases hf : CachedCalls.flush s.calls.cache s.calls.dirty s.calls.pers with
  | mk x rows =>
    rw [hf] at h1
    cases x <;> exact ⟨rfl, h1⟩

theorem keyed_commit (cfg : Cfg) {s : St} (h : Keyed s) : Keyed (commit cfg s).2 := by
  obtain ⟨_, _, hst⟩ := commitBody_same cfg s
  have hc := commitBody_calls cfg s
  have hk := keyed_callsCommit h
  have h1 : KeyedRows (commitBody cfg s).2.calls.cache.df ∧ KeyedRows (commitBody cfg s).2.calls.pers := by
    rcases hc with hc | hc
    · rw [hc]; exact ⟨h.cache, h.pers⟩
    · rw [hc, hk.1]; exact ⟨h.cache, hk.2⟩
  unfold commit
  cases hb : commitBody cfg s with
  | mk x s' =>
    rw [hb] at h1 hst
    cases x with
    | ok _ => exact ⟨h1.1, h1.2, fun m hm => h.stale m (hst ▸ hm)⟩
    | error e => exact ⟨h1.1, h.pers, fun m hm => h.stale m (hst ▸ hm)⟩

theorem Keyed.callCache {s : St} (h : Keyed s) : KeyedRows s.callCache.df := by
  unfold St.callCache
  cases hs : s.stale with
  | none => exact h.cache
  | some m => exact h.stale m hs

theorem Keyed.setCallCache {s : St} (h : Keyed s) {m : InMem} (hm : KeyedRows m.df) : Keyed (s.setCallCache m) := by
  unfold St.setCallCache
  cases hs : s.stale with
  | none => exact ⟨hm, h.pers, nofun⟩
  | some _ => exact ⟨h.cache, h.pers, fun m' hm' => by cases hm'; exact hm⟩

theorem keyed_dropCached : ∀ (hs : List String) {s : St}, Keyed s → Keyed (dropCached hs s).2
  | [], _, h => h
  | k :: hs, s, h => by
    unfold dropCached
    by_cases he : s.callCache.exists_ k = true
    · rw [if_pos he]
      cases hd : s.callCache.drop k with
      | error e => exact h
      | ok m => exact keyed_dropCached hs (h.setCallCache (h.callCache.drop hd))
    · rw [if_neg he]; exact keyed_dropCached hs h

theorem keyed_dropCalls (hids : List String) (b : Bool) {s : St} (h : Keyed s) : Keyed (dropCalls hids b s).2 := by
  unfold dropCalls
  dsimp only
  generalize (if b = true then match getDependents s.calls.pers [] hids with
      | some (_, C) => hids ++ C
      | none => hids
    else hids) = l
  have h1 := keyed_dropCached l h
  cases hd : dropCached l s with
  | mk x s' =>
    rw [hd] at h1
    cases x with
    | error e => exact h1
    | ok _ => exact ⟨h1.cache, h1.pers.filter _, h1.stale⟩

theorem keyed_nil : KeyedRows [] := List.nodup_nil

theorem keyed_clearCache (b : Bool) {s : St} (h : Keyed s) : Keyed (clearCache b s).2 := by
  unfold clearCache
  dsimp only
  split
  · exact ⟨h.cache, h.pers, h.stale⟩
  · split
    · exact ⟨h.cache, h.pers, h.stale⟩
    · split
      · exact ⟨h.cache, h.pers, h.stale⟩
      · unfold CachedCalls.clear
        split
        · rename_i hc
          split at hc
          · cases hc; exact ⟨h.cache, h.pers, h.stale⟩
          · cases hc
        · rename_i hc
          split at hc
          · cases hc
          · cases hc
            refine ⟨keyed_nil, h.pers, fun m hm => ?_⟩
            have hm : s.stale.getD s.calls.cache = m := Option.some.inj hm
            rw [← hm]; exact h.callCache

theorem keyed_preload {s : St} (h : Keyed s) : Keyed (preload s).2 := by
  have := h.setCallCache (m := InMem.ofRows s.calls.pers) h.pers
  exact ⟨this.cache, this.pers, this.stale⟩

theorem keyed_reopen {s : St} (h : Keyed s) : Keyed (reopen s).2 := ⟨keyed_nil, h.pers, nofun⟩

def KeyedR (s s' : St) : Prop := Keyed s → Keyed s'

theorem Keyed.of_calls {s s' : St} (h1 : s'.calls = s.calls) (h2 : s'.stale = s.stale) : KeyedR s s' := fun h =>
  ⟨by rw [h1]; exact h.cache, by rw [h1]; exact h.pers, by rw [h2]; exact h.stale⟩

theorem keyedR_writes : Writes KeyedR where
  ord := ⟨fun _ h => h, fun h1 h2 h => h2 (h1 h)⟩
  shapesGet _ _ := .of_calls rfl rfl
  atomsGet _ _ := .of_calls rfl rfl
  opsGet _ _ := .of_calls rfl rfl
  atomsSet _ _ _ := .of_calls rfl rfl
  log _ _ _ := .of_calls rfl rfl
  shapesSet _ _ _ := .of_calls rfl rfl
  opsSet _ _ := .of_calls rfl rfl

theorem keyed_saveCall (c : CallObj) : Pres KeyedR (saveCall c) :=
  pres_saveCall keyedR_writes c fun _ _ h => ⟨h.cache.save _, h.pers, h.stale⟩

theorem keyed_cleanupRefs : Pres KeyedR cleanupRefs := by
  have hR := keyedR_writes.ord
  unfold cleanupRefs
  refine Pres.bind hR (Pres.read hR _) (fun _ => Pres.bind hR (Pres.forM' hR _ (fun _ _ _ => .of_calls rfl rfl)) (fun _ => ?_))
  exact Pres.bind hR (Pres.read hR _) (fun _ => Pres.forM' hR _ (fun _ _ _ => .of_calls rfl rfl))

theorem keyed_cmd (cfg : Cfg) (env : List Ref) (s : St) (c : Cmd) : KeyedR s (c.run cfg env s).2.2 := by
  cases c with
  | call d args =>
    simp only [Cmd.run]
    cases bindArgs env args with
    | none => exact fun h => h
    | some bargs =>
      have := pres_call keyedR_writes.toUnwraps cfg keyed_saveCall d bargs s
      dsimp only
      cases hm : call cfg d bargs s with
      | mk x s' => rw [hm] at this; cases x <;> exact this
  | unwrap x =>
    simp only [Cmd.run]
    cases env[x]? with
    | none => exact fun h => h
    | some r =>
      have := pres_unwrapRef keyedR_writes.toUnwraps cfg r s
      dsimp only
      cases hm : unwrapRef cfg r s with
      | mk x s' => rw [hm] at this; cases x <;> exact this
  | commit => exact Pres.admin (R := KeyedR) (fun _ => keyed_commit cfg) env s
  | clearCache b => exact Pres.admin (R := KeyedR) (fun _ => keyed_clearCache b) env s
  | dropCalls hids b => exact Pres.admin (R := KeyedR) (fun _ => keyed_dropCalls hids b) env s
  | cleanupRefs => exact Pres.admin keyed_cleanupRefs env s
  | preload => exact Pres.admin (R := KeyedR) (fun _ => keyed_preload) env s
  | reopen => exact Pres.admin (R := KeyedR) (fun _ => keyed_reopen) env s
  | allowNew b => exact .of_calls rfl rfl

theorem keyed_prog (cfg : Cfg) : ∀ (cs : List Cmd) (env : List Ref) (s : St), KeyedR s (runProg cfg env s cs).2.2
  | [], _, _ => fun h => h
  | c :: cs, env, s => by
    simp only [runProg]
    exact fun h => keyed_prog cfg cs _ _ (keyed_cmd cfg env s c h)

theorem keyed_end (cfg : Cfg) (e : End) {s : St} (h : Keyed s) : Keyed (endSession cfg e s) := by
  cases e with
  | between => exact keyed_reopen h
  | inCommit ks => exact ⟨keyed_nil, h.pers, nofun⟩

theorem keyed_sessions (cfg : Cfg) : ∀ (ps : List (List Cmd × End)) {s : St}, Keyed s → Keyed (runSessions cfg s ps)
  | [], _, h => h
  | (p, e) :: ps, s, h => keyed_sessions cfg ps (keyed_end cfg e (keyed_prog cfg p [] s h))

/-- Two true tables agree on a call that both have. -/
theorem tables_agree (hW : W.Good) {rows rows' : List Row} (h : TableOK W rows) (h' : TableOK W rows') (hk : KeyedRows rows)
    {r r0 : Row} (hr : r ∈ rows) (hr0 : r0 ∈ rows') (he : r0.callHid = r.callHid) :
    r0.op = r.op ∧ r0.callCid = r.callCid ∧
    ∃ r' ∈ rows', r'.callHid = r.callHid ∧ r'.name = r.name ∧ r'.dir = r.dir ∧ r'.refHid = r.refHid ∧ r'.refCid = r.refCid := by
  obtain ⟨cins, outs, hs, ⟨t, ht1, ht2, _⟩, hout, hall, _⟩ := h r hr
  obtain ⟨cins0, outs0, hs0, _, _, hall0, _⟩ := h' r0 hr0
  rw [he] at hs0
  obtain ⟨e1, e2, e3, e4⟩ := callSem_functional hW hs0 hs
  subst e3; subst e4
  refine ⟨e1, e2, ?_⟩
  have hcid : ∀ r' ∈ rows', r'.refHid = r.refHid → r'.refCid = r.refCid := by
    intro r' hr' hh
    obtain ⟨_, _, _, ⟨t', ht1', ht2', _⟩, _⟩ := h' r' hr'
    rw [hh] at ht1'
    rw [ht2, ht2', Prov.det hW ht1' ht1]
  cases hd : r.dir with
  | out =>
    obtain ⟨t', hg, hrh⟩ := hout hd
    obtain ⟨r', hr', g1, g2, g3⟩ := hall0 r.name (List.mem_map_of_mem (f := Prod.fst) (Dict.mem_of_get? hg))
    obtain ⟨_, _, _, _, hout', _⟩ := h' r' hr'
    obtain ⟨_, _, hrh'⟩ := hout' g3
    rw [he] at g1
    have hx : r'.refHid = r.refHid := by rw [hrh', hrh, g1, g2]
    exact ⟨r', hr', g1, g2, g3, hx, hcid r' hr' hx⟩
  | in_ =>
    obtain ⟨ver, ids, hid, hnd, hin, _, _⟩ := TableOK.recordTrue hW h hr
    obtain ⟨ver0, ids0, hid0, _, _, _, hall1⟩ := TableOK.recordTrue hW h' hr0
    have hm : (r.name, r.refHid) ∈ ids0 := by
      rw [← mem_canon, ← (callId_inj hW (hid.symm.trans (he.symm.trans hid0))).2.2, mem_canon]
      exact hin hd
    obtain ⟨r', hr', g1, g2, g3⟩ := hall1 _ hm
    rw [he] at g1
    rcases g3 with g3 | ⟨g3, g4⟩
    · exfalso
      obtain ⟨_, outs', hs', _, hout', _⟩ := h' r' hr'
      obtain ⟨t', hg, _⟩ := hout' g3
      rw [g1] at hs'
      have := (callSem_functional hW hs' hs).2.2.2
      subst this
      obtain ⟨r1, hr1, f1, f2, f3⟩ := hall r'.name (List.mem_map_of_mem (f := Prod.fst) (Dict.mem_of_get? hg))
      have := hk.unique hr hr1 f1.symm (f2.trans g2).symm
      rw [this] at hd
      rw [hd] at f3
      cases f3
    · exact ⟨r', hr', g1, g2, g3, g4, hcid r' hr' g4⟩

theorem keyed_fresh (o : Option (Joblib Val)) (thr : Nat) : Keyed (.fresh o thr) := ⟨keyed_nil, keyed_nil, nofun⟩

theorem keyed_last (cfg : Cfg) (o : Option (Joblib Val)) (thr : Nat) (ps : List (List Cmd × End)) (p : List Cmd) :
    Keyed (runLast cfg (.fresh o thr) ps p).2.2 := keyed_prog cfg p [] _ (keyed_sessions cfg ps (keyed_fresh o thr))

end Verif
