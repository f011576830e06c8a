import Verif.Proofs.StorageInv
/-!
The call tables stay true: saving, flushing, dropping, reading back.
-/
namespace Verif

variable {W : World}

theorem TableOK.nil : TableOK W [] := fun r hr => by simp at hr

theorem TableOK.append {a b : List Row} (ha : TableOK W a) (hb : TableOK W b) : TableOK W (a ++ b) := by
  intro r hr
  rcases List.mem_append.1 hr with h | h
  · obtain ⟨cins, outs, h1, h2, h3, h4, ver, ids, h5, h6, h7⟩ := ha r h
    refine ⟨cins, outs, h1, h2, h3, fun n hn => ?_, ver, ids, h5, h6, fun n hn => ?_⟩
    · obtain ⟨r', hr', hh⟩ := h4 n hn
      exact ⟨r', List.mem_append_left _ hr', hh⟩
    · obtain ⟨r', hr', hh⟩ := h7 n hn
      exact ⟨r', List.mem_append_left _ hr', hh⟩
  · obtain ⟨cins, outs, h1, h2, h3, h4, ver, ids, h5, h6, h7⟩ := hb r h
    refine ⟨cins, outs, h1, h2, h3, fun n hn => ?_, ver, ids, h5, h6, fun n hn => ?_⟩
    · obtain ⟨r', hr', hh⟩ := h4 n hn
      exact ⟨r', List.mem_append_right _ hr', hh⟩
    · obtain ⟨r', hr', hh⟩ := h7 n hn
      exact ⟨r', List.mem_append_right _ hr', hh⟩

/-- Removing whole calls. -/
theorem TableOK.filter {a : List Row} (ha : TableOK W a) (f : String → Bool) :
    TableOK W (a.filter fun r => f r.callHid) := by
  intro r hr
  rw [List.mem_filter] at hr
  obtain ⟨cins, outs, h1, h2, h3, h4, ver, ids, h5, h6, h7⟩ := ha r hr.1
  refine ⟨cins, outs, h1, h2, h3, fun n hn => ?_, ver, ids, h5, h6, fun n hn => ?_⟩
  · obtain ⟨r', hr', hh⟩ := h4 n hn
    exact ⟨r', List.mem_filter.2 ⟨hr', by rw [hh.1]; exact hr.2⟩, hh⟩
  · obtain ⟨r', hr', hh⟩ := h7 n hn
    exact ⟨r', List.mem_filter.2 ⟨hr', by rw [hh.1]; exact hr.2⟩, hh⟩

theorem MemOK.empty : MemOK W .empty := ⟨TableOK.nil, fun r hr => by simp [InMem.empty] at hr⟩

theorem MemOK.ofRows {rows : List Row} (h : TableOK W rows) : MemOK W (.ofRows rows) :=
  ⟨h, fun _ hr => List.mem_map_of_mem hr⟩

theorem MemOK.drop {m m' : InMem} {h : String} (hm : MemOK W m) (hd : m.drop h = .ok m') : MemOK W m' := by
  unfold InMem.drop at hd
  split at hd
  · cases hd
  · cases hd
    refine ⟨hm.1.filter (fun c => decide (c ≠ h)), ?_⟩
    intro r hr
    simp only [List.mem_filter] at hr ⊢
    exact ⟨hm.2 r hr.1, hr.2⟩

theorem DataOK.toRows {d : CallData} {h : String} (hd : DataOK W d h) : TableOK W d.toRows := by
  obtain ⟨rfl, cins, outs, hs, hni, hno, hin, hout, hall, ver, ids, hid, hidin, hidall⟩ := hd
  have hrows : ∀ n ∈ Dict.keys outs, ∃ r' ∈ d.toRows, r'.callHid = d.hid ∧ r'.name = n ∧ r'.dir = .out := by
    intro n hn
    obtain ⟨x, hx⟩ := Dict.mem_keys.1 (hall n hn)
    refine ⟨_, List.mem_append_right _ (List.mem_map_of_mem (Dict.mem_of_get? hx)), rfl, rfl, rfl⟩
  intro r hr
  have hrh : r.callHid = d.hid ∧ r.op = d.opName := by
    rcases List.mem_append.1 hr with h | h <;> obtain ⟨p, hp, rfl⟩ := List.mem_map.1 h <;> exact ⟨rfl, rfl⟩
  refine ⟨cins, outs, ?_, ?_, ?_, ?_, ver, ids, ?_, ?_, ?_⟩
  · rcases List.mem_append.1 hr with h | h <;> obtain ⟨p, hp, rfl⟩ := List.mem_map.1 h <;> exact hs
  · rcases List.mem_append.1 hr with h | h <;> obtain ⟨p, hp, rfl⟩ := List.mem_map.1 h
    · obtain ⟨t, ht, hm, hc⟩ := hin p.1 p.2 ((Dict.get?_eq_some_iff hni).2 hp)
      exact ⟨t, ht, by simp [hc], fun _ => hm⟩
    · obtain ⟨t, _, _, ht, hc⟩ := hout p.1 p.2 ((Dict.get?_eq_some_iff hno).2 hp)
      exact ⟨t, ht, by simp [hc], fun hh => by cases hh⟩
  · rcases List.mem_append.1 hr with h | h <;> obtain ⟨p, hp, rfl⟩ := List.mem_map.1 h
    · intro hh; cases hh
    · intro _
      obtain ⟨t, ht, hx, _⟩ := hout p.1 p.2 ((Dict.get?_eq_some_iff hno).2 hp)
      exact ⟨t, ht, hx⟩
  · rw [hrh.1]
    exact hrows
  · rw [hrh.1, hrh.2]; exact hid
  · intro hdir
    rcases List.mem_append.1 hr with h | h <;> obtain ⟨p, hp, rfl⟩ := List.mem_map.1 h
    · exact hidin p hp
    · cases hdir
  · intro n hn
    rw [hrh.1]
    rcases hidall n hn with h | h
    · obtain ⟨x, hx⟩ := Dict.mem_keys.1 h
      exact ⟨_, List.mem_append_left _ (List.mem_map_of_mem (Dict.mem_of_get? hx)), rfl, rfl⟩
    · obtain ⟨x, hx⟩ := Dict.mem_keys.1 h
      exact ⟨_, List.mem_append_right _ (List.mem_map_of_mem (Dict.mem_of_get? hx)), rfl, rfl⟩

theorem insertRows_ok : ∀ {rs rows rows' : List Row}, insertRows rows rs = (.ok (), rows') → rows' = rows ++ rs
  | [], rows, rows', h => by
    simp only [insertRows, Prod.mk.injEq] at h
    simp [h.2]
  | r :: rs, rows, rows', h => by
    simp only [insertRows] at h
    split at h
    · rename_i rows1 h1
      have := insertRows_ok h
      simp only [insertRow] at h1
      split at h1
      · cases h1
      · cases h1
        simp [this]
    · simp at h

theorem mgetData_single {rows : List Row} {h : String} {d : CallData} {ds : List CallData}
    (hd : mgetData rows [h] = .ok (d :: ds)) : dataOfRows (rowsOf rows h) = some d := by
  simp only [mgetData] at hd
  split at hd
  · cases hd
  · rename_i d' h'
    cases hd
    exact h'

theorem getData_rows {m : InMem} {h : String} {d : CallData} (hd : m.getData h = .ok d) :
    dataOfRows (rowsOf m.df h) = some d := by
  unfold InMem.getData at hd
  split at hd
  · split at hd
    · cases hd
      exact mgetData_single ‹_›
    · cases hd
    · cases hd
  · cases hd

theorem sqlGetData_rows {rows : List Row} {h : String} {d : CallData} (hd : sqlGetData rows h = .ok d) :
    dataOfRows (rowsOf rows h) = some d := by
  unfold sqlGetData at hd
  split at hd
  · cases hd
    exact mgetData_single ‹_›
  · cases hd
  · cases hd

theorem getDataContent_ok (hW : W.Good) {m : InMem} (hm : MemOK W m) {c : String} {d : CallData}
    (hd : m.getDataContent c = .ok d) : ∃ h, DataOK W d h ∧ d.cid = c := by
  unfold InMem.getDataContent at hd
  split at hd
  · rename_i r hr
    have hok := dataOK_of_rows hW hm.1 (getData_rows hd)
    refine ⟨_, hok, ?_⟩
    obtain ⟨_, outs, hs, _⟩ := hm.1 r (List.mem_of_find?_eq_some hr)
    obtain ⟨_, _, outs', hs', _⟩ := hok
    have hrc := List.find?_some hr
    simp only [decide_eq_true_eq] at hrc
    rw [← hrc]
    exact (callSem_functional hW hs' hs).2.1
  · cases hd

theorem flush_table (hW : W.Good) {cache : InMem} (hc : MemOK W cache) : ∀ {hs : List String} {rows rows' : List Row},
    TableOK W rows → CachedCalls.flush cache hs rows = (.ok (), rows') → TableOK W rows'
  | [], rows, rows', h, hf => by
    simp only [CachedCalls.flush, Prod.mk.injEq] at hf
    rw [← hf.2]; exact h
  | x :: hs, rows, rows', h, hf => by
    simp only [CachedCalls.flush] at hf
    split at hf
    · simp at hf
    · rename_i d hd
      split at hf
      · simp at hf
      · rename_i rows1 h1
        have hok := dataOK_of_rows hW hc.1 (getData_rows hd)
        refine flush_table hW hc ?_ hf
        rw [insertRows_ok h1]
        exact h.append hok.toRows

/-! ### saving -/

theorem mem_setRow {rows : List Row} {r x : Row} (h : x ∈ setRow rows r) : x = r ∨ x ∈ rows := by
  induction rows with
  | nil => simpa [setRow] using h
  | cons a rows ih =>
    simp only [setRow] at h
    split at h
    · rcases List.mem_cons.1 h with h | h
      · exact .inl h
      · exact .inr (List.mem_cons_of_mem _ h)
    · rcases List.mem_cons.1 h with h | h
      · exact .inr (h ▸ List.mem_cons_self)
      · exact (ih h).imp id (List.mem_cons_of_mem _)

theorem self_mem_setRow (rows : List Row) (r : Row) : r ∈ setRow rows r := by
  induction rows with
  | nil => simp [setRow]
  | cons a rows ih =>
    simp only [setRow]
    split
    · simp
    · exact List.mem_cons_of_mem _ ih

theorem mem_setRow_of_ne {rows : List Row} {r x : Row} (hx : x ∈ rows) (hne : ¬ (x.callHid = r.callHid ∧ x.name = r.name)) :
    x ∈ setRow rows r := by
  induction rows with
  | nil => simp at hx
  | cons a rows ih =>
    simp only [setRow]
    split
    · rename_i heq
      rcases List.mem_cons.1 hx with h | h
      · exact absurd (h ▸ heq) hne
      · exact List.mem_cons_of_mem _ h
    · rcases List.mem_cons.1 hx with h | h
      · exact h ▸ List.mem_cons_self
      · exact List.mem_cons_of_mem _ (ih h)

theorem mem_foldl_setRow {rs : List Row} : ∀ {rows : List Row} {x : Row}, x ∈ rs.foldl setRow rows → x ∈ rs ∨ x ∈ rows := by
  induction rs with
  | nil => intro rows x h; exact .inr h
  | cons r rs ih =>
    intro rows x h
    rcases ih h with h | h
    · exact .inl (List.mem_cons_of_mem _ h)
    · rcases mem_setRow h with h | h
      · exact .inl (h ▸ List.mem_cons_self)
      · exact .inr h

theorem mem_foldl_setRow_of_ne {rs : List Row} : ∀ {rows : List Row} {x : Row}, x ∈ rows →
    (∀ r ∈ rs, ¬ (x.callHid = r.callHid ∧ x.name = r.name)) → x ∈ rs.foldl setRow rows := by
  induction rs with
  | nil => intro rows x h _; exact h
  | cons r rs ih =>
    intro rows x h hne
    exact ih (mem_setRow_of_ne h (hne r (by simp))) (fun r' hr' => hne r' (List.mem_cons_of_mem _ hr'))

theorem mem_foldl_setRow_self {rs : List Row} : ∀ {rows : List Row}, (rs.map Row.key).Nodup → ∀ r ∈ rs,
    r ∈ rs.foldl setRow rows := by
  induction rs with
  | nil => intro rows _ r hr; simp at hr
  | cons a rs ih =>
    intro rows hn r hr
    simp only [List.map_cons, List.nodup_cons] at hn
    rcases List.mem_cons.1 hr with h | h
    · subst h
      rw [List.foldl_cons]
      refine mem_foldl_setRow_of_ne (self_mem_setRow rows r) (fun r' hr' heq => hn.1 ?_)
      have : r.key = r'.key := Prod.ext heq.1 heq.2
      rw [this]
      exact List.mem_map_of_mem hr'
    · exact ih hn.2 r h

theorem setRow_key {k : String × String} : ∀ {rows : List Row} {x : Row}, (∃ r ∈ rows, r.key = k) → ∃ r ∈ setRow rows x, r.key = k
  | [], _, ⟨_, hr, _⟩ => by simp at hr
  | a :: rows, x, ⟨r, hr, hk⟩ => by
    simp only [setRow]
    split
    · rename_i hx
      rcases List.mem_cons.1 hr with rfl | hr
      · exact ⟨x, by simp, hk ▸ (Prod.ext hx.1.symm hx.2.symm : x.key = r.key)⟩
      · exact ⟨r, List.mem_cons_of_mem _ hr, hk⟩
    · rcases List.mem_cons.1 hr with rfl | hr
      · exact ⟨r, by simp, hk⟩
      · obtain ⟨r', h1, h2⟩ := setRow_key (x := x) ⟨r, hr, hk⟩
        exact ⟨r', List.mem_cons_of_mem _ h1, h2⟩

theorem foldl_setRow_key {k : String × String} : ∀ {xs rows : List Row}, (∃ r ∈ rows, r.key = k) ∨ (∃ x ∈ xs, x.key = k) →
    ∃ r ∈ xs.foldl setRow rows, r.key = k
  | [], _, .inl h => h
  | [], _, .inr ⟨_, h, _⟩ => by simp at h
  | x :: xs, rows, h => by
    refine foldl_setRow_key (xs := xs) (rows := setRow rows x) ?_
    rcases h with h | ⟨y, hy, hk⟩
    · exact .inl (setRow_key h)
    · rcases List.mem_cons.1 hy with rfl | hy
      · exact .inl ⟨y, self_mem_setRow rows y, hk⟩
      · exact .inr ⟨y, hy, hk⟩

theorem keys_map_snd {α β : Type} (d : Dict String α) (f : α → β) :
    Dict.keys (d.map fun p => (p.1, f p.2)) = Dict.keys d := by simp [Dict.keys]

theorem MemOK.save {m : InMem} (hm : MemOK W m) {c : CallObj} (hc : CallOK W c) : MemOK W (m.save c.toRec) := by
  unfold InMem.save
  split
  · exact hm
  · rename_i hnew
    obtain ⟨cins, outs, hs, hins, ⟨hnd, hall, hout⟩, ver, ids, hid, hidin, hidall⟩ := hc
    -- rows of the new call
    have houtrows : ∀ r ∈ c.toRec.outputs.map c.toRec.outRow, ∃ p ∈ c.outputs, r.callHid = c.hid ∧ r.callCid = c.cid ∧
        r.op = c.op ∧ r.dir = .out ∧ r.name = p.1 ∧ r.refHid = p.2.hid ∧ r.refCid = p.2.cid := by
      intro r hr
      simp only [CallObj.toRec, List.map_map, List.mem_map, Function.comp_apply] at hr
      obtain ⟨p, hp, rfl⟩ := hr
      exact ⟨p, hp, rfl, rfl, rfl, rfl, rfl, rfl, rfl⟩
    have hinrows : ∀ r ∈ c.toRec.inputs.map c.toRec.inRow, ∃ p ∈ c.inputs, r.callHid = c.hid ∧ r.callCid = c.cid ∧
        r.op = c.op ∧ r.dir = .in_ ∧ r.name = p.1 ∧ r.refHid = p.2.hid ∧ r.refCid = p.2.cid := by
      intro r hr
      simp only [CallObj.toRec, List.map_map, List.mem_map, Function.comp_apply] at hr
      obtain ⟨p, hp, rfl⟩ := hr
      exact ⟨p, hp, rfl, rfl, rfl, rfl, rfl, rfl, rfl⟩
    have hkey : ((c.toRec.outputs.map c.toRec.outRow).map Row.key).Nodup := by
      have : (c.toRec.outputs.map c.toRec.outRow).map Row.key = (Dict.keys c.outputs).map (fun n => (c.hid, n)) := by
        simp [CallObj.toRec, Dict.keys, Row.key, CallRec.outRow, Function.comp_def]
      rw [this]
      exact nodup_map_pair _ hnd
    have hallrows : ∀ n ∈ Dict.keys outs, ∃ r' ∈ (c.toRec.outputs.map c.toRec.outRow).foldl setRow
        ((c.toRec.inputs.map c.toRec.inRow).foldl setRow m.df), r'.callHid = c.hid ∧ r'.name = n ∧ r'.dir = .out := by
      intro n hn
      obtain ⟨r, hr⟩ := Dict.mem_keys.1 (hall n hn)
      have hmem := Dict.mem_of_get? hr
      refine ⟨c.toRec.outRow (n, ⟨r.cid, r.hid⟩), mem_foldl_setRow_self hkey _ ?_, rfl, rfl, rfl⟩
      simp only [CallObj.toRec, List.map_map, List.mem_map]
      exact ⟨(n, r), hmem, rfl⟩
    have hidrows : ∀ n ∈ Dict.keys ids, ∃ r' ∈ (c.toRec.outputs.map c.toRec.outRow).foldl setRow
        ((c.toRec.inputs.map c.toRec.inRow).foldl setRow m.df), r'.callHid = c.hid ∧ r'.name = n := by
      intro n hn
      suffices h : ∃ r' ∈ (c.toRec.outputs.map c.toRec.outRow).foldl setRow
          ((c.toRec.inputs.map c.toRec.inRow).foldl setRow m.df), r'.key = (c.hid, n) by
        obtain ⟨r', h1, h2⟩ := h
        exact ⟨r', h1, congrArg Prod.fst h2, congrArg Prod.snd h2⟩
      rcases hidall n hn with h | h
      · simp only [idsOf, keys_map_snd] at h
        obtain ⟨r, hr⟩ := Dict.mem_keys.1 h
        refine foldl_setRow_key (.inl (foldl_setRow_key (.inr ⟨c.toRec.inRow (n, ⟨r.cid, r.hid⟩), ?_, rfl⟩)))
        simp only [CallObj.toRec, List.map_map, List.mem_map]
        exact ⟨(n, r), Dict.mem_of_get? hr, rfl⟩
      · obtain ⟨r, hr⟩ := Dict.mem_keys.1 h
        refine foldl_setRow_key (.inr ⟨c.toRec.outRow (n, ⟨r.cid, r.hid⟩), ?_, rfl⟩)
        simp only [CallObj.toRec, List.map_map, List.mem_map]
        exact ⟨(n, r), Dict.mem_of_get? hr, rfl⟩
    have hfresh : ∀ r ∈ m.df, r.callHid ≠ c.hid := by
      intro r hr heq
      have := hm.2 r hr
      rw [heq] at this
      exact hnew this
    refine ⟨?_, ?_⟩
    · intro r hr
      rcases mem_foldl_setRow hr with h | h
      · obtain ⟨p, hp, h1, h2, h3, h4, h5, h6, h7⟩ := houtrows r h
        obtain ⟨t, ht, hh, hr⟩ := hout p hp
        refine ⟨cins, outs, by rw [h1, h2, h3]; exact hs,
          ⟨t, h6 ▸ hr.prov, by rw [h7, hr.cid], fun hd => by rw [h4] at hd; cases hd⟩, fun _ => ⟨t, by rw [h5]; exact ht, ?_⟩, ?_,
          ver, ids, by rw [h1, h3]; exact hid, fun hd => (by rw [h4] at hd; cases hd), by rw [h1]; exact hidrows⟩
        · rw [h6, hh, h1, h5]
        · rw [h1]; exact hallrows
      · rcases mem_foldl_setRow h with h | h
        · obtain ⟨p, hp, h1, h2, h3, h4, h5, h6, h7⟩ := hinrows r h
          obtain ⟨t, hmem, hr⟩ := hins p hp
          refine ⟨cins, outs, by rw [h1, h2, h3]; exact hs,
            ⟨t, h6 ▸ hr.prov, by rw [h7, hr.cid], fun _ => h5 ▸ hmem⟩, ?_, ?_,
            ver, ids, by rw [h1, h3]; exact hid, fun _ => by rw [h5, h6]; exact hidin _ (List.mem_map_of_mem hp), by rw [h1]; exact hidrows⟩
          · intro hd; rw [h4] at hd; cases hd
          · rw [h1]; exact hallrows
        · obtain ⟨cins', outs', h1, h2, h3, h4, ver', ids', h5, h6, h7⟩ := hm.1 r h
          have hkeep : ∀ r' ∈ m.df, r' ∈ (c.toRec.outputs.map c.toRec.outRow).foldl setRow
              ((c.toRec.inputs.map c.toRec.inRow).foldl setRow m.df) := by
            intro r' hr'
            refine mem_foldl_setRow_of_ne (mem_foldl_setRow_of_ne hr' ?_) ?_
            · intro x hx heq
              obtain ⟨_, _, hxh, _⟩ := hinrows x hx
              exact hfresh r' hr' (heq.1.trans hxh)
            · intro x hx heq
              obtain ⟨_, _, hxh, _⟩ := houtrows x hx
              exact hfresh r' hr' (heq.1.trans hxh)
          refine ⟨cins', outs', h1, h2, h3, fun n hn => ?_, ver', ids', h5, h6, fun n hn => ?_⟩
          · obtain ⟨r', hr', hh⟩ := h4 n hn
            exact ⟨r', hkeep r' hr', hh⟩
          · obtain ⟨r', hr', hh⟩ := h7 n hn
            exact ⟨r', hkeep r' hr', hh⟩
    · intro r hr
      simp only [List.mem_append, List.mem_singleton]
      rcases mem_foldl_setRow hr with h | h
      · obtain ⟨_, _, h1, _⟩ := houtrows r h
        exact .inr h1
      · rcases mem_foldl_setRow h with h | h
        · obtain ⟨_, _, h1, _⟩ := hinrows r h
          exact .inr h1
        · exact .inl (hm.2 r h)

end Verif
