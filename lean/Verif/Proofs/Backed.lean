import Verif.Proofs.Writes
import Verif.Proofs.Drop
import Verif.Proofs.View
import Verif.Proofs.Content
import Verif.Proofs.DictStorage
/-!
Whatever the caches hold is uncommitted or in the database, as long as no commit has failed.
-/
namespace Verif

/-! ### key/value tables -/

section
variable {V : Type} {P : String → V → Prop}

/-- Every cached value is uncommitted or in the database. -/
def Clean (d : CachedDict V) : Prop := ∀ k v, d.cache.get? k = some v → k ∈ d.dirty ∨ d.pers.get k = .ok v

theorem Clean.open_ (p : SqlDict V) : Clean (.open_ p) := fun k v h => by simp [CachedDict.open_] at h

theorem Clean.get {d : CachedDict V} (h : Clean d) (k : String) : Clean (d.get k).2 := by
  unfold CachedDict.get
  split
  · exact h
  · split
    · rename_i v hv
      intro k' v' h'
      rw [Dict.get?_set] at h'
      split at h'
      · rename_i hk; subst hk; cases h'; exact .inr hv
      · exact h k' v' h'
    · exact h

theorem Clean.set {d : CachedDict V} (h : Clean d) (k : String) (v : V) : Clean (d.set k v) := by
  intro k' v' h'
  simp only [CachedDict.set] at h' ⊢
  rw [Dict.get?_set] at h'
  rw [CachedDict.mem_addKey]
  split at h'
  · rename_i hk; exact .inl (.inl hk.symm)
  · exact (h k' v' h').imp .inr id

theorem sql_drop_get {p p' : SqlDict V} {k k' : String} (h : p.drop k = .ok p') (hk : k' ≠ k) : p'.get k' = p.get k' := by
  unfold SqlDict.drop at h
  dsimp only at h
  have he : ∀ (d : Dict String V), (d.erase k).get? k' = d.get? k' := by
    intro d; rw [Dict.get?_erase]; rw [if_neg]; exact fun h => hk (by first | exact h | exact h.symm)
  split at h
  · rename_i ho
    cases h
    simp only [SqlDict.get, he, ho]
  · rename_i j hj
    split at h
    · rename_i hex
      simp only [Joblib.drop, hex, if_true] at h
      cases h
      simp only [SqlDict.get, he, hj, Joblib.get]
    · cases h
      simp only [SqlDict.get, he, hj]

theorem Clean.drop {d : CachedDict V} (h : Clean d) (k : String) : Clean (d.drop k).2 := by
  have hk : ∀ k' v, (d.cache.erase k).get? k' = some v → k' ≠ k ∧ d.cache.get? k' = some v := by
    intro k' v hv
    rw [Dict.get?_erase] at hv
    split at hv
    · cases hv
    · rename_i hne; exact ⟨fun h => hne (by first | exact h | exact h.symm), hv⟩
  unfold CachedDict.drop
  dsimp only
  split
  · rename_i p hp
    intro k' v hv
    obtain ⟨hne, hv⟩ := hk k' v hv
    rcases h k' v hv with h | h
    · exact .inl (by simp [h, hne])
    · exact .inr (by dsimp only; rw [sql_drop_get hp hne]; exact h)
  · intro k' v hv
    obtain ⟨hne, hv⟩ := hk k' v hv
    rcases h k' v hv with h | h
    · exact .inl (by simp [h, hne])
    · exact .inr h

theorem joblib_set_get (j : Joblib V) (k : String) (v : V) (k' : String) :
    Dict.get? (j.set k v) k' = if k' = k then some ((Dict.get? j k).getD v) else Dict.get? j k' := by
  unfold Joblib.set
  by_cases hex : j.exists_ k = true
  · rw [if_pos hex]
    split
    · rename_i h
      subst h
      unfold Joblib.exists_ Dict.has at hex
      cases hg : Dict.get? j k' with
      | none => rw [hg] at hex; cases hex
      | some w => rfl
    · rfl
  · rw [if_neg hex]
    have hn : Dict.get? j k = none := by
      unfold Joblib.exists_ Dict.has at hex
      simpa using hex
    rw [Dict.get?_set, hn]
    by_cases h : k' = k
    · subst h; simp
    · rw [if_neg (Ne.symm h), if_neg h]

theorem sql_set_get {p p' : SqlDict V} {size : V → Nat} {k : String} {v : V} (hs : p.set size k v = .ok p')
    (hu : p.overflow = none ∨ (SqlAll P p ∧ P k v ∧ ∀ k v w, P k v → P k w → v = w)) :
    p'.get k = .ok v ∧ (∀ k', k' ≠ k → p'.get k' = p.get k') ∧ (p.overflow = none → p'.overflow = none) := by
  unfold SqlDict.set at hs
  split at hs
  · split at hs
    · rename_i j hj
      rw [hj] at hu
      obtain ⟨h1, h2, h3⟩ := hu.resolve_left nofun
      cases hs
      refine ⟨?_, ?_, ?_⟩
      · simp only [SqlDict.get, Joblib.get]
        cases hr : p.rows.get? k with
        | some w => simp only [h3 _ _ _ (h1.1.get hr) h2]
        | none =>
          dsimp only
          rw [joblib_set_get, if_pos rfl]
          cases hjk : Dict.get? j k with
          | some w => simp only [Option.getD_some, h3 _ _ _ ((h1.2 j hj).get hjk) h2]
          | none => rfl
      · intro k' hk'
        simp only [SqlDict.get, Joblib.get, hj]
        rw [joblib_set_get, if_neg hk']
      · rw [hj]; nofun
    · cases hs
  · cases hs
    refine ⟨?_, ?_, fun h => h⟩
    · simp [SqlDict.get]
    · intro k' hk'
      simp only [SqlDict.get, Dict.get?_set_ne _ _ (Ne.symm hk')]

theorem flush_get {size : V → Nat} {cache : Dict String V} : ∀ (ks : List String) (p p' : SqlDict V),
    CachedDict.flush size cache ks p = (.ok (), p') →
    (p.overflow = none ∨ (SqlAll P p ∧ DictAll P cache ∧ ∀ k v w, P k v → P k w → v = w)) →
    (∀ k, (k ∈ ks → ∃ v, cache.get? k = some v ∧ p'.get k = .ok v) ∧ (k ∉ ks → p'.get k = p.get k)) ∧
    (p.overflow = none → p'.overflow = none)
  | [], p, p', h, _ => by
    simp only [CachedDict.flush, Prod.mk.injEq] at h
    rw [h.2]
    exact ⟨fun k => ⟨fun h => by simp at h, fun _ => rfl⟩, fun h => h⟩
  | k :: ks, p, p', h, hu => by
    simp only [CachedDict.flush] at h
    cases hc : cache.get? k with
    | none => rw [hc] at h; cases h
    | some v =>
      rw [hc] at h
      dsimp only at h
      cases hs : p.set size k v with
      | error e => rw [hs] at h; cases h
      | ok p1 =>
        rw [hs] at h
        obtain ⟨g1, g2, g3⟩ := sql_set_get hs (P := P) (hu.imp id (fun h => ⟨h.1, h.2.1.get hc, h.2.2⟩))
        obtain ⟨f1, f2⟩ := flush_get ks p1 p' h (hu.imp g3 (fun h => ⟨h.1.set (h.2.1.get hc) hs, h.2⟩))
        refine ⟨fun k' => ⟨fun hk' => ?_, fun hk' => ?_⟩, fun h => f2 (g3 h)⟩
        · by_cases hm : k' ∈ ks
          · exact (f1 k').1 hm
          · have : k' = k := by simpa [hm] using hk'
            subst this
            exact ⟨v, hc, by rw [(f1 k').2 hm, g1]⟩
        · simp only [List.mem_cons, not_or] at hk'
          rw [(f1 k').2 hk'.2, g2 k' hk'.1]

/-- The tables have no overflow directory, or a key determines its value. -/
def Unique (P : String → V → Prop) (d : CachedDict V) : Prop :=
  d.pers.overflow = none ∨ (StoreAll P d ∧ ∀ k v w, P k v → P k w → v = w)

theorem Clean.commit {d d' : CachedDict V} {size : V → Nat} (h : Clean d) (hu : Unique P d) (hc : d.commit size = (.ok (), d')) :
    Clean d' ∧ (d.pers.overflow = none → d'.pers.overflow = none) := by
  unfold CachedDict.commit at hc
  split at hc
  · rename_i p hf
    cases hc
    obtain ⟨f1, f2⟩ := flush_get (P := P) _ _ _ hf (hu.imp id (fun h => ⟨h.1.2, h.1.1, h.2⟩))
    refine ⟨fun k v hv => ?_, f2⟩
    dsimp only at hv ⊢
    right
    by_cases hk : k ∈ d.dirty
    · obtain ⟨v', h1, h2⟩ := (f1 k).1 hk
      rw [hv] at h1
      cases h1
      exact h2
    · rw [(f1 k).2 hk]
      exact (h k v hv).resolve_left hk
  · cases hc

theorem mem_update {e : Dict String V} : ∀ {d : Dict String V} {p : String × V},
    p ∈ e.foldl (fun acc p => acc.set p.1 p.2) d → p ∈ d ∨ p ∈ e := by
  induction e with
  | nil => intro d p h; exact .inl h
  | cons q e ih =>
    intro d p h
    rcases ih h with h | h
    · rcases mem_set h with h | h
      · exact .inr (by rw [h]; simp)
      · exact .inl h
    · exact .inr (by simp [h])

theorem Clean.preload {d : CachedDict V} (hu : Unique P d) : Clean { d with cache := d.pers.loadAll } := by
  intro k v hv
  right
  dsimp only at hv ⊢
  unfold SqlDict.loadAll at hv
  split at hv
  · simp only [SqlDict.get, hv]
  · rename_i j hj
    rcases hu with hu | ⟨h1, h2⟩
    · rw [hj] at hu; cases hu
    · have hP : P k v := by
        rcases mem_update (Dict.mem_of_get? hv) with h | h
        · exact h1.2.1 _ h
        · exact h1.2.2 j hj _ h
      have : ∃ w, d.pers.get k = .ok w := by
        unfold SqlDict.get
        cases hr : d.pers.rows.get? k with
        | some w => exact ⟨w, rfl⟩
        | none =>
          rw [hj]
          rcases mem_update (Dict.mem_of_get? hv) with h | h
          · have := Dict.get?_eq_none.1 hr
            exact absurd (List.mem_map_of_mem (f := (·.1)) h) this
          · have : k ∈ Dict.keys j := List.mem_map_of_mem (f := (·.1)) h
            obtain ⟨w, hw⟩ := Dict.mem_keys.1 this
            exact ⟨w, by simp [Joblib.get, hw]⟩
      obtain ⟨w, hw⟩ := this
      rw [hw, h2 k v w hP (h1.2.get hw)]

/-- Clearing a table that has nothing uncommitted, or refusing to, changes no read. -/
theorem Clean.clear {d : CachedDict V} (h : Clean d) :
    (∀ k, ((d.clear false).2.get k).1 = (d.get k).1) ∧ (d.clear false).2.pers = d.pers ∧ Clean (d.clear false).2 := by
  unfold CachedDict.clear
  split
  · exact ⟨fun _ => rfl, rfl, h⟩
  · rename_i hd
    have hd : d.dirty = [] := by
      simp only [Bool.not_false, Bool.and_true, decide_eq_true_eq] at hd
      exact List.eq_nil_of_length_eq_zero (by omega)
    refine ⟨fun k => ?_, rfl, fun k v hv => by simp at hv⟩
    unfold CachedDict.get
    simp only [Dict.get?_nil]
    cases hc : d.cache.get? k with
    | none => simp only; split <;> rename_i h' <;> rfl
    | some v =>
      have := (h k v hc).resolve_left (by simp [hd])
      simp only [this]

end

/-! ### calls -/

theorem sqlGetData_iff {rows : List Row} {h : String} {d : CallData} :
    sqlGetData rows h = .ok d ↔ dataOfRows (rowsOf rows h) = some d := by
  refine ⟨sqlGetData_rows, fun hd => ?_⟩
  simp [sqlGetData, mgetData, hd]

theorem getData_iff {m : InMem} {h : String} {d : CallData} :
    m.getData h = .ok d ↔ m.exists_ h = true ∧ dataOfRows (rowsOf m.df h) = some d := by
  constructor
  · intro hd
    refine ⟨?_, getData_rows hd⟩
    unfold InMem.getData at hd
    split at hd
    · assumption
    · cases hd
  · rintro ⟨h1, h2⟩
    simp [InMem.getData, h1, mgetData, h2]

/-- What folding rows yields: the ids of inputs and of outputs have the same names in the same order. -/
def Tidy (d : CallData) : Prop := Dict.keys d.inputCids = Dict.keys d.inputHids ∧ Dict.keys d.outputCids = Dict.keys d.outputHids ∧
  (Dict.keys d.inputHids).Nodup ∧ (Dict.keys d.outputHids).Nodup

theorem Tidy.addRow {d : CallData} (h : Tidy d) (r : Row) : Tidy (d.addRow r) := by
  obtain ⟨h1, h2, h3, h4⟩ := h
  unfold CallData.addRow
  cases r.dir
  · exact ⟨by simp only [Dict.keys_set, h1], h2, Dict.nodup_set h3 _ _, h4⟩
  · exact ⟨h1, by simp only [Dict.keys_set, h2], h3, Dict.nodup_set h4 _ _⟩

theorem Tidy.foldl : ∀ (rs : List Row) {d : CallData}, Tidy d → Tidy (rs.foldl CallData.addRow d)
  | [], _, h => h
  | r :: rs, _, h => Tidy.foldl rs (h.addRow r)

theorem tidy_of_rows {rs : List Row} {d : CallData} (h : dataOfRows rs = some d) : Tidy d := by
  cases rs with
  | nil => cases h
  | cons r rs =>
    simp only [dataOfRows, Option.some.injEq] at h
    rw [← h]
    exact Tidy.foldl (r :: rs) ⟨rfl, rfl, by simp [Dict.keys], by simp [Dict.keys]⟩

/-- The call with this data. -/
def CallData.toCall (d : CallData) : CallRec :=
  { op := d.opName, cid := d.cid, hid := d.hid,
    inputs := d.inputHids.map fun p => (p.1, ⟨(d.inputCids.get? p.1).getD "", p.2⟩),
    outputs := d.outputHids.map fun p => (p.1, ⟨(d.outputCids.get? p.1).getD "", p.2⟩),
    semVer := d.semVer, contVer := d.contVer }

theorem toCall_rows (d : CallData) : d.toCall.rows = d.toRows := by
  simp only [CallRec.rows, CallData.toRows, CallData.toCall, List.map_map]
  rfl

theorem map_getD {a b : Dict String String} (hk : Dict.keys b = Dict.keys a) (hn : (Dict.keys a).Nodup) :
    a.map (fun p => (p.1, (b.get? p.1).getD "")) = b := by
  have : ∀ (l : Dict String String), (∀ p ∈ l, b.get? p.1 = some p.2) → ∀ (a : Dict String String), Dict.keys l = Dict.keys a →
      a.map (fun p => (p.1, (b.get? p.1).getD "")) = l := by
    intro l
    induction l with
    | nil => intro _ a ha; cases a with
      | nil => rfl
      | cons => simp [Dict.keys] at ha
    | cons q l ih =>
      intro hl a ha
      cases a with
      | nil => simp [Dict.keys] at ha
      | cons p a =>
        simp only [Dict.keys, List.map_cons, List.cons.injEq] at ha
        simp only [List.map_cons]
        rw [ih (fun p hp => hl p (List.mem_cons_of_mem _ hp)) a ha.2, ← ha.1, hl q (by simp)]
        rfl
  refine this b (fun p hp => ?_) a hk
  exact (Dict.get?_eq_some_iff (by rw [hk]; exact hn)).2 hp

theorem data_toRows {d : CallData} (h : Tidy d) (hne : d.toRows ≠ []) : dataOfRows d.toRows = some d := by
  obtain ⟨h1, h2, h3, h4⟩ := h
  rw [← toCall_rows] at hne ⊢
  cases hr : d.toCall.rows with
  | nil => exact absurd hr hne
  | cons r rs =>
    have hmem : r ∈ d.toCall.rows := by rw [hr]; simp
    have hhead : r.op = d.opName ∧ r.callCid = d.cid ∧ r.callHid = d.hid ∧ r.semVer = d.semVer ∧ r.contVer = d.contVer := by
      simp only [CallRec.rows, List.mem_append, List.mem_map] at hmem
      rcases hmem with ⟨p, _, rfl⟩ | ⟨p, _, rfl⟩ <;> simp [CallRec.inRow, CallRec.outRow, CallData.toCall]
    obtain ⟨g1, g2, g3, g4, g5⟩ := hhead
    simp only [dataOfRows]
    rw [← hr, CallRec.rows, List.foldl_append, foldl_addRow_in, foldl_addRow_out]
    · simp only [CallData.toCall, List.map_map, List.nil_append, g1, g2, g3, g4, g5]
      have e1 : d.inputHids.map ((fun p : String × IO => (p.1, p.2.hid)) ∘ fun p => (p.1, ⟨(d.inputCids.get? p.1).getD "", p.2⟩)) =
          d.inputHids := by
        conv => rhs; rw [← List.map_id d.inputHids]
        rfl
      have e2 : d.outputHids.map ((fun p : String × IO => (p.1, p.2.hid)) ∘ fun p => (p.1, ⟨(d.outputCids.get? p.1).getD "", p.2⟩)) =
          d.outputHids := by
        conv => rhs; rw [← List.map_id d.outputHids]
        rfl
      have e3 : d.inputHids.map ((fun p : String × IO => (p.1, p.2.cid)) ∘ fun p => (p.1, ⟨(d.inputCids.get? p.1).getD "", p.2⟩)) =
          d.inputCids := map_getD h1 h3
      have e4 : d.outputHids.map ((fun p : String × IO => (p.1, p.2.cid)) ∘ fun p => (p.1, ⟨(d.outputCids.get? p.1).getD "", p.2⟩)) =
          d.outputCids := map_getD h2 h4
      rw [e1, e2, e3, e4]
    · simp only [CallData.toCall]
      simpa [Dict.keys, Function.comp_def] using h4
    · rfl
    · simp only [CallData.toCall]
      simpa [Dict.keys, Function.comp_def] using h3
    · rfl

/-- Every cached call is uncommitted or in the database, with the same data; uncommitted calls are not in the database. -/
structure CallsClean (c : CachedCalls) : Prop where
  same : ∀ h, c.cache.exists_ h = true → h ∈ c.dirty ∨
    ∃ d, dataOfRows (rowsOf c.cache.df h) = some d ∧ dataOfRows (rowsOf c.pers h) = some d
  new : ∀ h ∈ c.dirty, rowsOf c.pers h = []
  nodup : c.dirty.Nodup
  known : ∀ r ∈ c.cache.df, r.callHid ∈ c.cache.callHids

theorem CallsClean.open_ (rows : List Row) : CallsClean (.open_ rows) where
  same := fun h hh => by simp [CachedCalls.open_, InMem.empty, InMem.exists_] at hh
  new := fun h hh => by simp [CachedCalls.open_] at hh
  nodup := by simp [CachedCalls.open_]
  known := fun r hr => by simp [CachedCalls.open_, InMem.empty] at hr

theorem rowsOf_setRow_ne {rows : List Row} {r : Row} {h : String} (hne : r.callHid ≠ h) : rowsOf (setRow rows r) h = rowsOf rows h := by
  induction rows with
  | nil => simp [setRow, rowsOf, hne]
  | cons q rows ih =>
    simp only [setRow]
    split
    · rename_i hq
      have : q.callHid ≠ h := by rw [hq.1]; exact hne
      simp [rowsOf, hne, this]
    · simp only [rowsOf, List.filter_cons] at ih ⊢
      rw [ih]

theorem rowsOf_foldl_setRow_ne {rs : List Row} {h : String} : ∀ {rows : List Row}, (∀ r ∈ rs, r.callHid ≠ h) →
    rowsOf (rs.foldl setRow rows) h = rowsOf rows h := by
  induction rs with
  | nil => intro rows _; rfl
  | cons r rs ih =>
    intro rows hr
    rw [List.foldl_cons, ih (fun x hx => hr x (List.mem_cons_of_mem _ hx)), rowsOf_setRow_ne (hr r (by simp))]

theorem rowsOf_save_ne {m : InMem} {c : CallRec} {h : String} (hne : h ≠ c.hid) : rowsOf (m.save c).df h = rowsOf m.df h := by
  unfold InMem.save
  split
  · rfl
  · dsimp only
    rw [rowsOf_foldl_setRow_ne, rowsOf_foldl_setRow_ne]
    all_goals
      intro r hr
      obtain ⟨p, _, rfl⟩ := List.mem_map.1 hr
      exact Ne.symm hne

theorem sqlExists_false {rows : List Row} {h : String} : sqlExists rows h = false ↔ rowsOf rows h = [] := by
  rw [rowsOf_eq_nil, ← Bool.not_eq_true, sqlExists_iff]
  constructor
  · intro hh r hr he; exact hh ⟨r, hr, he⟩
  · rintro hh ⟨r, hr, he⟩; exact hh r hr he

theorem CallsClean.save {s : CachedCalls} {c : CallRec} (h : CallsClean s) (hnew : s.exists_ c.hid = false) : CallsClean (s.save c) := by
  have hn : s.cache.exists_ c.hid = false ∧ sqlExists s.pers c.hid = false := by
    unfold CachedCalls.exists_ at hnew
    split at hnew
    · cases hnew
    · rename_i h; exact ⟨by simpa using h, hnew⟩
  refine ⟨fun k hk => ?_, fun k hk => ?_, ?_, ?_⟩
  · simp only [CachedCalls.save] at hk ⊢
    rw [InMem.exists_save] at hk
    by_cases hkc : k = c.hid
    · left; rw [hkc]; split <;> simp_all
    · rcases h.same k (hk.resolve_right hkc) with h1 | ⟨d, h1, h2⟩
      · left; split <;> simp [h1]
      · exact .inr ⟨d, by rw [rowsOf_save_ne hkc]; exact h1, h2⟩
  · simp only [CachedCalls.save] at hk ⊢
    have : k ∈ s.dirty ∨ k = c.hid := by
      split at hk
      · exact .inl hk
      · simpa using hk
    rcases this with h1 | rfl
    · exact h.new k h1
    · exact sqlExists_false.1 hn.2
  · simp only [CachedCalls.save]
    split
    · exact h.nodup
    · rename_i hd
      refine List.nodup_append.2 ⟨h.nodup, by simp, ?_⟩
      intro a ha b hb he
      rw [List.mem_singleton.1 hb] at he
      exact hd (he ▸ ha)
  · exact (InMem.save_new h.known).1

theorem toRows_hid (d : CallData) : ∀ r ∈ d.toRows, r.callHid = d.hid := by
  intro r hr
  simp only [CallData.toRows, List.mem_append, List.mem_map] at hr
  rcases hr with ⟨p, _, rfl⟩ | ⟨p, _, rfl⟩ <;> rfl

theorem calls_flush_rows {cache : InMem} : ∀ {hs : List String} {rows rows' : List Row},
    CachedCalls.flush cache hs rows = (.ok (), rows') → hs.Nodup → (∀ h ∈ hs, rowsOf rows h = []) → ∀ h,
    (h ∈ hs → ∃ d, cache.getData h = .ok d ∧ rowsOf rows' h = d.toRows) ∧ (h ∉ hs → rowsOf rows' h = rowsOf rows h)
  | [], rows, rows', hf, _, _, h => by
    simp only [CachedCalls.flush, Prod.mk.injEq] at hf
    rw [hf.2]
    exact ⟨fun h => by simp at h, fun _ => rfl⟩
  | k :: hs, rows, rows', hf, hn, hnew, h => by
    simp only [CachedCalls.flush] at hf
    cases hg : cache.getData k with
    | error e => rw [hg] at hf; simp at hf
    | ok d =>
      rw [hg] at hf
      simp only at hf
      cases hs' : sqlSave rows d with
      | mk y rows1 =>
        rw [hs'] at hf
        cases y with
        | error e => simp at hf
        | ok _ =>
          have h1 := insertRows_ok hs'
          have hd := (dataOfRows_ne (getData_rows hg)).1
          have hself : ∀ r ∈ d.toRows, r.callHid = k := fun r hr => (toRows_hid d r hr).trans hd
          have hother : ∀ x, x ≠ k → rowsOf d.toRows x = [] := by
            intro x hx
            rw [rowsOf_eq_nil]
            intro r hr he
            exact hx (he ▸ hself r hr)
          simp only [List.nodup_cons] at hn
          obtain ⟨f1, f2⟩ := calls_flush_rows hf hn.2 (by
            intro x hx
            rw [h1, rowsOf_append, hnew x (List.mem_cons_of_mem _ hx), hother x (fun he => hn.1 (he ▸ hx))]
            rfl) h
          refine ⟨fun hh => ?_, fun hh => ?_⟩
          · by_cases hm : h ∈ hs
            · exact f1 hm
            · have : h = k := by simpa [hm] using hh
              subst this
              refine ⟨d, hg, ?_⟩
              rw [f2 hm, h1, rowsOf_append, hnew h (by simp), rowsOf_self hself]
              rfl
          · simp only [List.mem_cons, not_or] at hh
            rw [f2 hh.2, h1, rowsOf_append, hother h hh.1, List.append_nil]

theorem CallsClean.commit {s s' : CachedCalls} (h : CallsClean s) (hc : s'.cache = s.cache) (hd : s'.dirty = [])
    (hf : CachedCalls.flush s.cache s.dirty s.pers = (.ok (), s'.pers)) : CallsClean s' := by
  refine ⟨fun k hk => ?_, fun k hk => by simp [hd] at hk, by simp [hd], by rw [hc]; exact h.known⟩
  right
  rw [hc] at hk ⊢
  obtain ⟨f1, f2⟩ := calls_flush_rows hf h.nodup h.new k
  by_cases hm : k ∈ s.dirty
  · obtain ⟨d, h1, h2⟩ := f1 hm
    have hr := getData_rows h1
    refine ⟨d, hr, ?_⟩
    rw [h2]
    refine data_toRows (tidy_of_rows hr) ?_
    obtain ⟨r, hr, _⟩ := getData_row h1
    exact List.ne_nil_of_mem hr
  · obtain ⟨d, h1, h2⟩ := (h.same k hk).resolve_left hm
    exact ⟨d, h1, by rw [f2 hm]; exact h2⟩

theorem rowsOf_filter {rows : List Row} {p : String → Prop} [DecidablePred p] {h : String} (hp : p h) :
    rowsOf (rows.filter fun r => p r.callHid) h = rowsOf rows h := by
  unfold rowsOf
  rw [List.filter_filter]
  congr 1
  funext r
  by_cases hr : r.callHid = h
  · simp [hr, hp]
  · simp [hr]

/-- Clearing the cache of calls that are all committed, or refusing to, changes no read. -/
theorem CallsClean.clear {s : CachedCalls} (h : CallsClean s) :
    (∀ k, (s.clear false).2.exists_ k = s.exists_ k ∧ (s.clear false).2.getData k = s.getData k) ∧
    (s.clear false).2.pers = s.pers ∧ CallsClean (s.clear false).2 := by
  unfold CachedCalls.clear
  split
  · exact ⟨fun _ => ⟨rfl, rfl⟩, rfl, h⟩
  · rename_i hd
    have hd : s.dirty = [] := by
      simp only [Bool.not_false, Bool.and_true, decide_eq_true_eq] at hd
      exact List.eq_nil_of_length_eq_zero (by omega)
    refine ⟨fun k => ?_, rfl, CallsClean.open_ s.pers⟩
    unfold CachedCalls.exists_ CachedCalls.getData
    have he : InMem.empty.exists_ k = false := by simp [InMem.empty, InMem.exists_]
    dsimp only
    rw [he]
    simp only [Bool.false_eq_true, if_false]
    cases hc : s.cache.exists_ k with
    | false => simp
    | true =>
      obtain ⟨d, h1, h2⟩ := (h.same k hc).resolve_left (by simp [hd])
      simp only [if_true]
      constructor
      · cases hs : sqlExists s.pers k with
        | true => rfl
        | false => rw [sqlExists_false.1 hs] at h2; cases h2
      · rw [sqlGetData_iff.2 h2, getData_iff.2 ⟨hc, h1⟩]


theorem CallsClean.dropped {c c' : CachedCalls} {gone : List String} (h : CallsClean c) (hd : c'.dirty = c.dirty)
    (hsub : ∀ h, c'.cache.exists_ h = true → c.cache.exists_ h = true)
    (hkeep : ∀ h, h ∉ gone → rowsOf c'.cache.df h = rowsOf c.cache.df h)
    (hknown : ∀ r ∈ c'.cache.df, r.callHid ∈ c'.cache.callHids)
    (hp : (c'.pers = c.pers.filter (fun r => r.callHid ∉ gone) ∧ ∀ h ∈ gone, c'.cache.exists_ h = false) ) : CallsClean c' := by
  obtain ⟨hp, hg⟩ := hp
  refine ⟨fun k hk => ?_, fun k hk => ?_, by rw [hd]; exact h.nodup, hknown⟩
  · by_cases hm : k ∈ gone
    · rw [hg k hm] at hk; cases hk
    · rcases h.same k (hsub k hk) with h1 | ⟨d, h1, h2⟩
      · left; rw [hd]; exact h1
      · refine .inr ⟨d, by rw [hkeep k hm]; exact h1, ?_⟩
        rw [hp, rowsOf_filter (p := fun x => x ∉ gone) hm]
        exact h2
  · rw [hd] at hk
    rw [hp, rowsOf_eq_nil]
    intro r hr
    exact rowsOf_eq_nil.1 (h.new k hk) r (List.mem_filter.1 hr).1

theorem dropCached_known : ∀ (hs : List String) (s : St), s.stale = none → (∀ r ∈ s.calls.cache.df, r.callHid ∈ s.calls.cache.callHids) →
    (∀ r ∈ (dropCached hs s).2.calls.cache.df, r.callHid ∈ (dropCached hs s).2.calls.cache.callHids) ∧
    (∀ h, (dropCached hs s).2.calls.cache.exists_ h = true → rowsOf (dropCached hs s).2.calls.cache.df h = rowsOf s.calls.cache.df h)
  | [], s, _, h => ⟨h, fun _ _ => rfl⟩
  | k :: hs, s, hst, h => by
    unfold dropCached
    have hcc : s.callCache = s.calls.cache := by simp [St.callCache, hst]
    rw [hcc]
    split
    · cases hd : s.calls.cache.drop k with
      | error e => exact ⟨h, fun _ _ => rfl⟩
      | ok m =>
        have hset : s.setCallCache m = { s with calls := { s.calls with cache := m } } := by
          unfold St.setCallCache; rw [hst]
        simp only [hset]
        have hm := drop_ok hd
        have hi := dropCached_known hs { s with calls := { s.calls with cache := m } } hst (by
          rw [hm]
          intro r hr
          simp only [List.mem_filter, decide_eq_true_eq] at hr ⊢
          exact ⟨h r hr.1, hr.2⟩)
        refine ⟨hi.1, fun z hz => ?_⟩
        rw [hi.2 z hz]
        have h8 := (dropCached_spec hs { s with calls := { s.calls with cache := m } } _ _ hst rfl).2.2.2.2.2.2.2.1 z hz
        rw [hm] at h8 ⊢
        simp only [InMem.exists_, List.mem_filter, decide_eq_true_eq] at h8
        exact rowsOf_filter (p := fun x => x ≠ k) h8.2
    · exact dropCached_known hs s hst h

theorem dropCalls_known {hids : List String} {b : Bool} {s : St} (hst : s.stale = none)
    (h : ∀ r ∈ s.calls.cache.df, r.callHid ∈ s.calls.cache.callHids) :
    (∀ r ∈ (dropCalls hids b s).2.calls.cache.df, r.callHid ∈ (dropCalls hids b s).2.calls.cache.callHids) ∧
    (∀ h, (dropCalls hids b s).2.calls.cache.exists_ h = true →
      rowsOf (dropCalls hids b s).2.calls.cache.df h = rowsOf s.calls.cache.df h) := by
  have hk := dropCached_known (dropSet s hids b) s hst h
  have he : (dropCalls hids b s).2.calls.cache = (dropCached (dropSet s hids b) s).2.calls.cache := by
    unfold dropCalls
    change (match dropCached (dropSet s hids b) s with
      | (.error e, s') => (.error e, s')
      | (.ok _, s') => (.ok (), { s' with calls := { s'.calls with pers := s'.calls.pers.filter (fun r => r.callHid ∉ dropSet s hids b) } }) :
        Res St Unit).2.calls.cache = _
    cases dropCached (dropSet s hids b) s with
    | mk y s1 => cases y <;> rfl
  rw [he]
  exact hk

/-- Everything held in the caches is uncommitted or in the database. -/
structure Backed (s : St) : Prop where
  atoms : Clean s.atoms
  shapes : Clean s.shapes
  ops : Clean s.ops
  calls : CallsClean s.calls
  ovfS : s.shapes.pers.overflow = none
  ovfO : s.ops.pers.overflow = none

theorem Backed.fresh (o : Option (Joblib Val)) (thr : Nat) : Backed (.fresh o thr) :=
  ⟨Clean.open_ _, Clean.open_ _, Clean.open_ _, CallsClean.open_ _, rfl, rfl⟩

/-- `Backed` is kept. -/
def BackedR (s s' : St) : Prop := Backed s → Backed s'

theorem BackedR.writes : Writes BackedR where
  ord := ⟨fun _ h => h, fun h1 h2 h => h2 (h1 h)⟩
  shapesGet k s h := ⟨h.atoms, h.shapes.get k, h.ops, h.calls, by simp only [shapesGet, CachedDict.get_pers]; exact h.ovfS, h.ovfO⟩
  atomsGet k s h := ⟨h.atoms.get k, h.shapes, h.ops, h.calls, h.ovfS, h.ovfO⟩
  opsGet k s h := ⟨h.atoms, h.shapes, h.ops.get k, h.calls, h.ovfS, by simp only [opsGet, CachedDict.get_pers]; exact h.ovfO⟩
  shapesSet k r s h := ⟨h.atoms, h.shapes.set k r, h.ops, h.calls, h.ovfS, h.ovfO⟩
  atomsSet k v s h := ⟨h.atoms.set k v, h.shapes, h.ops, h.calls, h.ovfS, h.ovfO⟩
  opsSet n s h := ⟨h.atoms, h.shapes, h.ops.set n n, h.calls, h.ovfS, h.ovfO⟩
  log op args s h := ⟨h.atoms, h.shapes, h.ops, h.calls, h.ovfS, h.ovfO⟩

theorem backed_saveCall (c : CallObj) : Pres BackedR (saveCall c) :=
  pres_saveCall BackedR.writes c fun _ hn h => ⟨h.atoms, h.shapes, h.ops, h.calls.save hn, h.ovfS, h.ovfO⟩

theorem sql_drop_overflow {V : Type} {p p' : SqlDict V} {k : String} (h : p.drop k = .ok p') (ho : p.overflow = none) :
    p'.overflow = none := by
  unfold SqlDict.drop at h
  simp only [ho] at h
  cases h; rfl

theorem drop_overflow {V : Type} {d : CachedDict V} {k : String} (ho : d.pers.overflow = none) : (d.drop k).2.pers.overflow = none := by
  unfold CachedDict.drop
  dsimp only
  split
  · rename_i p hp
    exact sql_drop_overflow hp ho
  · exact ho

theorem backed_cleanupRefs : Pres BackedR cleanupRefs := by
  unfold cleanupRefs
  refine Pres.bind BackedR.writes.ord (Pres.read BackedR.writes.ord _) (fun os => ?_)
  refine Pres.bind BackedR.writes.ord (Pres.forM' BackedR.writes.ord _ (fun k _ s h =>
    ⟨h.atoms, h.shapes.drop k, h.ops, h.calls, drop_overflow h.ovfS, h.ovfO⟩)) (fun _ => ?_)
  refine Pres.bind BackedR.writes.ord (Pres.read BackedR.writes.ord _) (fun cs => ?_)
  exact Pres.forM' BackedR.writes.ord _ (fun k _ s h =>
    ⟨h.atoms.drop k, h.shapes, h.ops, h.calls, h.ovfS, h.ovfO⟩)

theorem backed_preload {P : String → Val → Prop} {s : St} (h : Backed s) (hu : Unique P s.atoms) : Backed (preload s).2 := by
  have hc : CallsClean (s.setCallCache (InMem.ofRows s.calls.pers)).calls := by
    unfold St.setCallCache
    cases s.stale with
    | some m => exact h.calls
    | none =>
      refine ⟨fun k hk => ?_, h.calls.new, h.calls.nodup, fun r hr => List.mem_map_of_mem hr⟩
      right
      simp only [InMem.ofRows, InMem.exists_, decide_eq_true_eq, List.mem_map] at hk ⊢
      obtain ⟨r, hr, he⟩ := hk
      cases hrows : rowsOf s.calls.pers k with
      | nil => exact absurd he (rowsOf_eq_nil.1 hrows r hr)
      | cons q qs => exact ⟨_, rfl, rfl⟩
  have e : ∀ m, (s.setCallCache m).atoms = s.atoms ∧ (s.setCallCache m).shapes = s.shapes ∧ (s.setCallCache m).ops = s.ops := by
    intro m; unfold St.setCallCache; split <;> exact ⟨rfl, rfl, rfl⟩
  obtain ⟨e1, e2, e3⟩ := e (InMem.ofRows s.calls.pers)
  unfold preload
  refine ⟨?_, ?_, ?_, hc, ?_, ?_⟩
  · dsimp only; rw [e1]; exact Clean.preload hu
  · dsimp only; rw [e2]; exact Clean.preload (P := fun _ _ => True) (.inl h.ovfS)
  · dsimp only; rw [e3]; exact Clean.preload (P := fun _ _ => True) (.inl h.ovfO)
  · dsimp only; rw [e2]; exact h.ovfS
  · dsimp only; rw [e3]; exact h.ovfO

theorem backed_commit {cfg : Cfg} {P : String → Val → Prop} {s s' : St} (h : Backed s) (hu : Unique P s.atoms)
    (hc : commit cfg s = (.ok (), s')) : Backed s' ∧ s'.stale = s.stale := by
  unfold commit commitBody at hc
  cases h1 : s.atoms.commit cfg.sizeA with
  | mk x1 a =>
    rw [h1] at hc
    cases x1 with
    | error e => simp at hc
    | ok _ =>
      cases h2 : s.shapes.commit cfg.sizeS with
      | mk x2 b =>
        simp only [h2] at hc
        cases x2 with
        | error e => simp at hc
        | ok _ =>
          cases h3 : s.ops.commit cfg.sizeO with
          | mk x3 o =>
            simp only [h3] at hc
            cases x3 with
            | error e => simp at hc
            | ok _ =>
              cases h4 : s.calls.commit with
              | mk x4 c =>
                simp only [h4] at hc
                cases x4 with
                | error e => simp at hc
                | ok _ =>
                  simp only [Prod.mk.injEq, true_and] at hc
                  rw [← hc]
                  have hs := Clean.commit (P := fun _ _ => True) h.shapes (.inl h.ovfS) h2
                  have ho := Clean.commit (P := fun _ _ => True) h.ops (.inl h.ovfO) h3
                  refine ⟨⟨(Clean.commit h.atoms hu h1).1, hs.1, ho.1, ?_, hs.2 h.ovfS, ho.2 h.ovfO⟩, rfl⟩
                  unfold CachedCalls.commit at h4
                  cases hf : CachedCalls.flush s.calls.cache s.calls.dirty s.calls.pers with
                  | mk y rows =>
                    rw [hf] at h4
                    cases y with
                    | error e => simp at h4
                    | ok _ =>
                      simp only [Prod.mk.injEq, true_and] at h4
                      rw [← h4]
                      exact h.calls.commit rfl rfl hf

theorem backed_clear {s : St} (h : Backed s) : Backed (clearCache false s).2 ∧ SameReads s (clearCache false s).2 := by
  obtain ⟨a1, a2, a3⟩ := h.atoms.clear
  obtain ⟨b1, b2, b3⟩ := h.shapes.clear
  obtain ⟨o1, o2, o3⟩ := h.ops.clear
  obtain ⟨c1, c2, c3⟩ := h.calls.clear
  unfold clearCache
  cases e1 : s.atoms.clear false with
  | mk x1 a =>
    rw [e1] at a1 a2 a3
    cases x1 with
    | error e => exact ⟨⟨a3, h.shapes, h.ops, h.calls, h.ovfS, h.ovfO⟩,
        ⟨fun _ => rfl, fun _ => rfl, a1, fun _ => rfl, fun _ => rfl, rfl, a2, rfl, rfl⟩⟩
    | ok _ =>
      cases e2 : s.shapes.clear false with
      | mk x2 b =>
        rw [e2] at b1 b2 b3
        simp only [e2]
        have b4 : b.pers.overflow = none := by rw [show b.pers = s.shapes.pers from b2]; exact h.ovfS
        cases x2 with
        | error e => exact ⟨⟨a3, b3, h.ops, h.calls, b4, h.ovfO⟩,
            ⟨fun _ => rfl, fun _ => rfl, a1, b1, fun _ => rfl, rfl, a2, b2, rfl⟩⟩
        | ok _ =>
          cases e3 : s.ops.clear false with
          | mk x3 o =>
            rw [e3] at o1 o2 o3
            simp only
            have o4 : o.pers.overflow = none := by rw [show o.pers = s.ops.pers from o2]; exact h.ovfO
            cases x3 with
            | error e => exact ⟨⟨a3, b3, o3, h.calls, b4, o4⟩,
                ⟨fun _ => rfl, fun _ => rfl, a1, b1, o1, rfl, a2, b2, o2⟩⟩
            | ok _ =>
              cases e4 : s.calls.clear false with
              | mk x4 c =>
                rw [e4] at c1 c2 c3
                simp only
                cases x4 <;> exact ⟨⟨a3, b3, o3, c3, b4, o4⟩,
                  ⟨fun k => (c1 k).1, fun k => (c1 k).2, a1, b1, o1, c2, a2, b2, o2⟩⟩

theorem Clean.cleared {V : Type} {d : CachedDict V} (h : Clean d) (b : Bool) : Clean (d.clear b).2 := by
  unfold CachedDict.clear
  split
  · exact h
  · exact Clean.open_ _

theorem CallsClean.cleared {d : CachedCalls} (h : CallsClean d) (b : Bool) : CallsClean (d.clear b).2 := by
  unfold CachedCalls.clear
  split
  · exact h
  · exact CallsClean.open_ _


theorem backed_clearCache {s : St} (h : Backed s) (b : Bool) : Backed (clearCache b s).2 := by
  have pers : ∀ {V : Type} (d : CachedDict V), (d.clear b).2.pers = d.pers := by
    intro V d; unfold CachedDict.clear; split <;> rfl
  have a3 := h.atoms.cleared b
  have b3 := h.shapes.cleared b
  have o3 := h.ops.cleared b
  have c3 := h.calls.cleared b
  have b4 : (s.shapes.clear b).2.pers.overflow = none := by rw [pers]; exact h.ovfS
  have o4 : (s.ops.clear b).2.pers.overflow = none := by rw [pers]; exact h.ovfO
  unfold clearCache
  cases e1 : s.atoms.clear b with
  | mk x1 a =>
    rw [e1] at a3
    cases x1 with
    | error e => exact ⟨a3, h.shapes, h.ops, h.calls, h.ovfS, h.ovfO⟩
    | ok _ =>
      cases e2 : s.shapes.clear b with
      | mk x2 b =>
        rw [e2] at b3 b4
        simp only [e2]
        cases x2 with
        | error e => exact ⟨a3, b3, h.ops, h.calls, b4, h.ovfO⟩
        | ok _ =>
          cases e3 : s.ops.clear _ with
          | mk x3 o =>
            rw [e3] at o3 o4
            simp only
            cases x3 with
            | error e => exact ⟨a3, b3, o3, h.calls, b4, o4⟩
            | ok _ =>
              cases e4 : s.calls.clear _ with
              | mk x4 c =>
                rw [e4] at c3
                simp only
                cases x4 <;> exact ⟨a3, b3, o3, c3, b4, o4⟩

theorem backed_dropCalls {hids : List String} {b : Bool} {s : St} (h : Backed s) (hst : s.stale = none) :
    Backed (dropCalls hids b s).2 ∧ (dropCalls hids b s).2.stale = none := by
  obtain ⟨h1, h2, h3, h4, h5, _, h6, h7, h8⟩ := dropCalls_spec (x := (dropCalls hids b s).1) (s' := (dropCalls hids b s).2) hst rfl
  refine ⟨⟨by rw [h3]; exact h.atoms, by rw [h4]; exact h.shapes, by rw [h5]; exact h.ops, ?_, by rw [h4]; exact h.ovfS,
    by rw [h5]; exact h.ovfO⟩, h1⟩
  have hk := dropCalls_known (hids := hids) (b := b) hst h.calls.known
  rcases h8 with ⟨_, h9, h10⟩ | ⟨_, h9⟩
  · exact h.calls.dropped h2 h6 (fun k hk => (h7 k hk).2) hk.1 ⟨h9, h10⟩
  · refine ⟨fun k he => ?_, by rw [h2, h9]; exact h.calls.new, by rw [h2]; exact h.calls.nodup, hk.1⟩
    rw [h2, h9, hk.2 k he]
    exact h.calls.same k (h6 k he)


section
variable (W : World)

theorem Inv.unique (hW : W.Good) {s : St} (h : Inv W s) : Unique (fun c v => c = W.H v) s.atoms :=
  .inr ⟨h.atoms, fun _ _ _ h1 h2 => hW.inj _ _ (h1.symm.trans h2)⟩

/-- One statement. -/
theorem backed_cmd (hW : W.Good) {env : List Ref} {s : St} {c : Cmd} (hi : Inv W s) (h : Backed s)
    (hcm : c = .commit → (c.run W.cfg env s).1 = .done) (hd : (∃ hs b, c = .dropCalls hs b) → s.stale = none) :
    Backed (c.run W.cfg env s).2.2 ∧ ((∀ b, c ≠ .clearCache b) → s.stale = none → (c.run W.cfg env s).2.2.stale = none) ∧
      (c = .reopen → (c.run W.cfg env s).2.2.stale = none) := by
  have hadm : ∀ (m : M Unit), (Cmd.run.admin env s m).2.2 = (m s).2 := by
    intro m; unfold Cmd.run.admin; cases m s with | mk x s' => cases x <;> rfl
  cases c with
  | call d args =>
    simp only [Cmd.run]
    cases bindArgs env args with
    | none => exact ⟨h, fun _ h => h, nofun⟩
    | some bargs =>
      have h1 := pres_call BackedR.writes.toUnwraps W.cfg backed_saveCall d bargs s h
      have h2 := stale_call W.cfg d bargs s
      simp only
      cases hm : call W.cfg d bargs s with
      | mk x s' =>
        rw [hm] at h1 h2
        cases x <;> exact ⟨h1, fun _ hst => Eq.trans h2 hst, nofun⟩
  | unwrap x =>
    simp only [Cmd.run]
    cases env[x]? with
    | none => exact ⟨h, fun _ h => h, nofun⟩
    | some r =>
      have h1 := pres_unwrapRef BackedR.writes.toUnwraps W.cfg r s h
      have h2 := (quiet_unwrapRef W.cfg r).sameStale s
      simp only
      cases hm : unwrapRef W.cfg r s with
      | mk x s' =>
        rw [hm] at h1 h2
        cases x <;> exact ⟨h1, fun _ hst => Eq.trans h2 hst, nofun⟩
  | commit =>
    have := hcm rfl
    simp only [Cmd.run] at this ⊢
    rw [hadm]
    cases hm : commit W.cfg s with
    | mk x s' =>
      cases x with
      | error e => simp [Cmd.run.admin, hm] at this
      | ok _ =>
        obtain ⟨h1, h2⟩ := backed_commit h (hi.unique W hW) hm
        exact ⟨h1, fun _ hst => h2.trans hst, nofun⟩
  | clearCache b =>
    simp only [Cmd.run]
    rw [hadm]
    exact ⟨backed_clearCache h b, fun hh => absurd rfl (hh b), nofun⟩
  | dropCalls hs b =>
    simp only [Cmd.run]
    rw [hadm]
    obtain ⟨h1, h2⟩ := backed_dropCalls (hids := hs) (b := b) h (hd ⟨hs, b, rfl⟩)
    exact ⟨h1, fun _ _ => h2, nofun⟩
  | cleanupRefs =>
    simp only [Cmd.run]
    rw [hadm]
    exact ⟨backed_cleanupRefs s h, fun _ hst => Eq.trans (stale_cleanupRefs s) hst, nofun⟩
  | preload =>
    simp only [Cmd.run]
    rw [hadm]
    refine ⟨backed_preload h (hi.unique W hW), fun _ hst => ?_, nofun⟩
    unfold preload St.setCallCache
    rw [hst]
  | reopen =>
    simp only [Cmd.run]
    rw [hadm]
    exact ⟨⟨Clean.open_ _, Clean.open_ _, Clean.open_ _, CallsClean.open_ _, h.ovfS, h.ovfO⟩, fun _ _ => rfl, fun _ => rfl⟩
  | allowNew b => exact ⟨⟨h.atoms, h.shapes, h.ops, h.calls, h.ovfS, h.ovfO⟩, fun _ h => h, nofun⟩

/-- A whole program. -/
theorem backed_prog (hW : W.Good) : ∀ (cs : List Cmd), (∀ c ∈ cs, CmdOK W c) → ∀ {env : List Ref} {penv : List Val},
    EnvOK W env penv → ∀ {s : St} {b : Bool}, Inv W s → Backed s → (b = true → s.stale = none) → dropsLinked b cs →
    commitsDone cs (runProg W.cfg env s cs).1 → Backed (runProg W.cfg env s cs).2.2
  | [], _, _, _, _, s, _, _, h, _, _, _ => h
  | c :: cs, hok, env, penv, he, s, b, hi, h, hst, hdl, hcd => by
    simp only [runProg] at hcd ⊢
    have hcm : c = .commit → (c.run W.cfg env s).1 = .done := by
      rintro rfl; exact hcd.1
    have hcd' : commitsDone cs (runProg W.cfg (c.run W.cfg env s).2.1 (c.run W.cfg env s).2.2 cs).1 := by
      cases c with
      | commit => exact hcd.2
      | _ => exact hcd
    have hd : (∃ hs b, c = .dropCalls hs b) → s.stale = none := by
      rintro ⟨hs, b', rfl⟩; exact hst hdl.1
    obtain ⟨h1, h2, h3⟩ := backed_cmd W hW hi h hcm hd
    obtain ⟨hi', h4⟩ := step_ok hW (hok c (by simp)) he hi (o := (c.run W.cfg env s).1) (env' := (c.run W.cfg env s).2.1)
      (s' := (c.run W.cfg env s).2.2) rfl
    have he' : ∃ penv', EnvOK W (c.run W.cfg env s).2.1 penv' := by
      rcases h4 with ⟨_, h4⟩ | ⟨_, _, _, h4⟩
      · exact ⟨_, h4⟩
      · exact ⟨penv, by rw [h4]; exact he⟩
    obtain ⟨penv', he'⟩ := he'
    have : ∃ b', (b' = true → (c.run W.cfg env s).2.2.stale = none) ∧ dropsLinked b' cs := by
      cases c with
      | clearCache x => exact ⟨false, nofun, hdl⟩
      | reopen => exact ⟨true, fun _ => h3 rfl, hdl⟩
      | dropCalls x y => exact ⟨b, fun hb => h2 nofun (hst hb), hdl.2⟩
      | _ => exact ⟨b, fun hb => h2 nofun (hst hb), hdl⟩
    obtain ⟨b', hb', hdl'⟩ := this
    exact backed_prog hW cs (fun c hc => hok c (List.mem_cons_of_mem _ hc)) he' hi' h1 hb' hdl' hcd'

end

/-! ### equal reads give equal loads -/

theorem SameReads.shapesGet {s s' : St} (h : SameReads s s') (k : String) :
    (shapesGet k s').1 = (shapesGet k s).1 ∧ SameReads (shapesGet k s).2 (shapesGet k s').2 := by
  refine ⟨h.shapes k, h.callsExist, h.callsData, h.atoms, fun j => ?_, h.ops, h.dbCalls, h.dbAtoms, ?_, h.dbOps⟩
  · simp only [Verif.shapesGet, CachedDict.get_get]; exact h.shapes j
  · simp only [Verif.shapesGet, CachedDict.get_pers]; exact h.dbShapes

theorem SameReads.atomsGet {s s' : St} (h : SameReads s s') (k : String) :
    (atomsGet k s').1 = (atomsGet k s).1 ∧ SameReads (atomsGet k s).2 (atomsGet k s').2 := by
  refine ⟨h.atoms k, h.callsExist, h.callsData, fun j => ?_, h.shapes, h.ops, h.dbCalls, ?_, h.dbShapes, h.dbOps⟩
  · simp only [Verif.atomsGet, CachedDict.get_get]; exact h.atoms j
  · simp only [Verif.atomsGet, CachedDict.get_pers]; exact h.dbAtoms

/-- `m` gives the same result in storages with the same answers. -/
def Obl {α : Type} (m : M α) : Prop := ∀ s s', SameReads s s' → (m s').1 = (m s).1 ∧ SameReads (m s).2 (m s').2

theorem Obl.bind {α β : Type} {m : M α} {f : α → M β} (h1 : Obl m) (h2 : ∀ a, Obl (f a)) : Obl (M.bind m f) := by
  intro s s' h
  obtain ⟨e, h3⟩ := h1 s s' h
  unfold M.bind
  cases hm : m s with
  | mk x t =>
    cases hm' : m s' with
    | mk x' t' =>
      rw [hm, hm'] at e h3
      simp only at e h3
      rw [e]
      cases x with
      | error e => exact ⟨rfl, h3⟩
      | ok a => exact h2 a t t' h3

theorem Obl.pure {α : Type} (a : α) : Obl (M.pure a) := fun _ _ h => ⟨rfl, h⟩
theorem Obl.raise {α : Type} (e : Err) : Obl (M.raise e : M α) := fun _ _ h => ⟨rfl, h⟩

theorem Obl.mapM' {α β : Type} {f : α → M β} : ∀ (l : List α), (∀ a ∈ l, Obl (f a)) → Obl (M.mapM' f l)
  | [], _ => Obl.pure _
  | a :: l, h => Obl.bind (h a (by simp)) fun _ => Obl.bind (Obl.mapM' l fun x hx => h x (List.mem_cons_of_mem _ hx)) fun _ => Obl.pure _

theorem obl_loadRef : ∀ (n : Nat) (h : String) (b : Bool), Obl (loadRef n h b)
  | 0, _, _ => Obl.raise _
  | n + 1, h, b => by
    refine Obl.bind (fun s s' hs => hs.shapesGet h) (fun r => ?_)
    cases r with
    | atom c h' o =>
      dsimp only
      split
      · exact Obl.pure _
      · exact Obl.bind (fun s s' hs => hs.atomsGet c) (fun _ => Obl.pure _)
    | coll k c h' m keys elts =>
      dsimp only
      split
      · refine Obl.bind (Obl.mapM' _ (fun e _ => obl_loadRef n _ _)) (fun es => ?_)
        cases k <;> exact Obl.pure _
      · exact Obl.raise _

theorem CachedDict.set_get {V : Type} (d : CachedDict V) (k : String) (v : V) (j : String) :
    ((d.set k v).get j).1 = if k = j then .ok v else (d.get j).1 := by
  unfold CachedDict.get CachedDict.set
  simp only [Dict.get?_set]
  by_cases hk : k = j
  · simp [hk]
  · simp only [hk, if_false]
    cases Dict.get? d.cache j with
    | some w => rfl
    | none => cases d.pers.get j <;> rfl

theorem SameReads.atomsSet {s s' : St} (h : SameReads s s') (c : String) (v : Val) :
    SameReads (atomsSet c v s).2 (atomsSet c v s').2 := by
  refine ⟨h.callsExist, h.callsData, fun j => ?_, h.shapes, h.ops, h.dbCalls, h.dbAtoms, h.dbShapes, h.dbOps⟩
  simp only [Verif.atomsSet, CachedDict.set_get, h.atoms j]

mutual
theorem obl_unwrapRef (cfg : Cfg) : ∀ (r : Ref), Obl (unwrapRef cfg r)
  | .atom _ _ (some v) => by rw [unwrapRef]; exact Obl.pure _
  | .atom c h none => by
    rw [unwrapRef]
    refine Obl.bind (obl_loadRef _ _ _) (fun r => ?_)
    cases r with
    | atom c' h' o =>
      cases o with
      | some v => exact Obl.bind (fun s s' hs => ⟨rfl, hs.atomsSet c v⟩) (fun _ => Obl.pure _)
      | none => exact Obl.raise _
    | coll k c h' m keys elts => exact Obl.raise _
  | .coll k _ _ m keys elts => by
    rw [unwrapRef]
    split
    · refine Obl.bind (obl_unwrapRefs cfg elts) (fun vs => ?_)
      cases k <;> exact Obl.pure _
    · exact Obl.raise _
theorem obl_unwrapRefs (cfg : Cfg) : ∀ (rs : List Ref), Obl (unwrapRefs cfg rs)
  | [] => by rw [unwrapRefs]; exact Obl.pure _
  | r :: rs => by
    rw [unwrapRefs]
    exact Obl.bind (obl_unwrapRef cfg r) fun _ => Obl.bind (obl_unwrapRefs cfg rs) fun _ => Obl.pure _
end

end Verif
