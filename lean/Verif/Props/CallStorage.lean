import Verif.Proofs.CallClosure
import Verif.Proofs.CallBatch
import Verif.Proofs.CallRows
/-!
# Properties C17 and C18 (and the call-table parts of C28 and C54)
-/
namespace Verif
namespace Props

/-! ### C17: dependents and dependencies -/

/-- **C17.** `get_dependents` stops, and returns exactly the refs and calls that can be reached
downstream from the given ones in the recorded data flow. Any table (also with cycles, several creators,
dangling ids), any start sets. -/
theorem C17_dependents (rows : List Row) (refs calls : List String) :
    ∃ R C, getDependents rows refs calls = some (R, C) ∧
      (∀ h, h ∈ R ↔ Dependent rows refs calls (.ref h)) ∧
      (∀ h, h ∈ C ↔ Dependent rows refs calls (.call h)) := by
  obtain ⟨R, C, h1, h2⟩ := getDependents_spec rows refs calls
  exact ⟨R, C, h1, fun h => h2 (.ref h), fun h => h2 (.call h)⟩

/-- **C17.** `get_dependencies` stops, and returns exactly what is upstream. -/
theorem C17_dependencies (rows : List Row) (refs calls : List String) :
    ∃ R C, getDependencies rows refs calls = some (R, C) ∧
      (∀ h, h ∈ R ↔ Dependency rows refs calls (.ref h)) ∧
      (∀ h, h ∈ C ↔ Dependency rows refs calls (.call h)) := by
  obtain ⟨R, C, h1, h2⟩ := getDependencies_spec rows refs calls
  exact ⟨R, C, h1, fun h => h2 (.ref h), fun h => h2 (.call h)⟩

/-- **C17.** The two queries are converse to each other: call `d` is among the dependents of `c` iff `c`
is among the dependencies of `d`. -/
theorem C17_converse (rows : List Row) (c d : String) :
    (∃ R C, getDependents rows [] [c] = some (R, C) ∧ d ∈ C) ↔
    (∃ R C, getDependencies rows [] [d] = some (R, C) ∧ c ∈ C) := by
  obtain ⟨R, C, h1, _, h2⟩ := C17_dependents rows [] [c]
  obtain ⟨R', C', h1', _, h2'⟩ := C17_dependencies rows [] [d]
  have key : d ∈ C ↔ c ∈ C' := by
    rw [h2, h2']
    simp [Dependent, Dependency]
  constructor
  · rintro ⟨R0, C0, h, hd⟩
    rw [h1] at h; cases h
    exact ⟨R', C', h1', key.1 hd⟩
  · rintro ⟨R0, C0, h, hd⟩
    rw [h1'] at h; cases h
    exact ⟨R, C, h1, key.2 hd⟩

/-- **C17.** The same for two refs. -/
theorem C17_converse_refs (rows : List Row) (a b : String) :
    (∃ R C, getDependents rows [a] [] = some (R, C) ∧ b ∈ R) ↔
    (∃ R C, getDependencies rows [b] [] = some (R, C) ∧ a ∈ R) := by
  obtain ⟨R, C, h1, h2, _⟩ := C17_dependents rows [a] []
  obtain ⟨R', C', h1', h2', _⟩ := C17_dependencies rows [b] []
  have key : b ∈ R ↔ a ∈ R' := by
    rw [h2, h2']
    simp [Dependent, Dependency]
  constructor
  · rintro ⟨R0, C0, h, hd⟩
    rw [h1] at h; cases h
    exact ⟨R', C', h1', key.1 hd⟩
  · rintro ⟨R0, C0, h, hd⟩
    rw [h1'] at h; cases h
    exact ⟨R, C, h1, key.2 hd⟩

/-- A small history: `c1 : r0 ↦ r1`, `c2 : r1 ↦ r2`, `c3 : r0 ↦ r3`. -/
def exRows : List Row :=
  [ { callHid := "c1", name := "x", dir := .in_, callCid := "k1", refCid := "a", refHid := "r0", op := "f" },
    { callHid := "c1", name := "output_0", dir := .out, callCid := "k1", refCid := "b", refHid := "r1", op := "f" },
    { callHid := "c2", name := "x", dir := .in_, callCid := "k2", refCid := "b", refHid := "r1", op := "g" },
    { callHid := "c2", name := "output_0", dir := .out, callCid := "k2", refCid := "c", refHid := "r2", op := "g" },
    { callHid := "c3", name := "x", dir := .in_, callCid := "k3", refCid := "a", refHid := "r0", op := "h" },
    { callHid := "c3", name := "output_0", dir := .out, callCid := "k3", refCid := "d", refHid := "r3", op := "h" } ]

example : getDependents exRows [] ["c1"] = some (["r1", "r2"], ["c1", "c2"]) := by decide
example : getDependencies exRows ["r2"] [] = some (["r2", "r1", "r0"], ["c2", "c1"]) := by decide

/-! ### C18: batch lookup -/

/-- **C18.** A batch lookup succeeds with `ds` exactly if every single lookup succeeds, with the
corresponding element of `ds`; whatever is in the cache, in the database, in both or in neither, and
also with repeated ids. -/
theorem C18_batch_is_pointwise (callCache : InMem) (pers : List Row) (hids : List String) (ds : List CallData) :
    mgetCallData callCache pers hids = .ok ds ↔
      All2 (fun h d => mgetCallData callCache pers [h] = .ok [d]) hids ds := by
  rw [mgetCallData_ok]
  constructor
  · exact All2.imp fun h d hd => (mgetCallData_ok _ _ _ _).2 (.cons hd .nil)
  · exact All2.imp fun h d hd => (All2.cons_cons.1 ((mgetCallData_ok _ _ _ _).1 hd)).1

/-- **C18.** What a single lookup returns: the data of the rows of this call, taken from the cache if
the cache knows the call, from the database otherwise. -/
theorem C18_single (callCache : InMem) (pers : List Row) (h : String) (d : CallData) :
    mgetCallData callCache pers [h] = .ok [d] ↔
      dataOfRows ((if callCache.exists_ h then callCache.df else pers).filter (fun r => r.callHid = h)) = some d := by
  rw [mgetCallData_ok]
  simp only [All2.cons_cons, All2.nil_left, and_true, singleData]
  split <;> simp [rowsOf, *]

/-- `c2` is cached, `c1` and `c3` are only in the database; they come back in the requested order. -/
example :
    (match mgetCallData (InMem.ofRows (rowsOf exRows "c2")) exRows ["c3", "c2", "c1", "c2"] with
      | .ok ds => ds.map (·.hid)
      | .error _ => []) = ["c3", "c2", "c1", "c2"] := by decide

/-! ### C54: rows of a call -/

/-- **C54, positive part.** If the names of all inputs and outputs of a call are different, everything
recorded for it is read back: from the cache right after saving, into any cache that does not know the
call yet.

Missing for the full claim: calls in which an input has the same name as an output. For these the
claim is false, `C54_refuted`. -/
theorem C54_rows_complete_partial (m : InMem) (c : CallRec) (hn : c.NamesDistinct) (hne : c.rows ≠ [])
    (hnew : ∀ r ∈ m.df, r.callHid ≠ c.hid) (hid : c.hid ∉ m.callHids) :
    (m.save c).getData c.hid = .ok c.data := by
  obtain ⟨h1, h2⟩ := save_df_of_new hn hnew hid
  have hrows : rowsOf (m.save c).df c.hid = c.rows := by
    rw [h1, rowsOf_append, rowsOf_eq_nil.2 hnew, rowsOf_self (fun r hr => c.rows_callHid hr)]; rfl
  simp only [InMem.getData, InMem.exists_, h2, mgetData, hrows, dataOfRows_rows hn hne]
  simp

/-- A call `f(x=a) = b` in the call format. -/
def exCall (hid inName : String) : CallRec :=
  { op := "f", cid := "k" ++ hid, hid := hid, inputs := [(inName, ⟨"ca", "ha"⟩)], outputs := [("output_0", ⟨"cb", "hb"⟩)] }

example : (exCall "c9" "x").NamesDistinct ∧ (exCall "c9" "x").rows ≠ [] ∧
    (∀ r ∈ (InMem.ofRows exRows).df, r.callHid ≠ "c9") ∧ "c9" ∉ (InMem.ofRows exRows).callHids := by
  refine ⟨by decide, by decide, by decide, by decide⟩

/-- **C54 is false in general**: with `def f(**kw)` called as `f(output_0=a)` the input and the output share
the row key `(call, "output_0")`, and the row of the output replaces the row of the input. (The check in
`Op.__init__` only looks at parameter names, not at the names generated from `*args`/`**kwargs`.) -/
theorem C54_refuted : ∃ (c : CallRec) (d : CallData),
    c.inputs ≠ [] ∧ (InMem.empty.save c).getData c.hid = .ok d ∧ d.inputHids = [] := by
  refine ⟨exCall "c9" "output_0", { (exCall "c9" "output_0").data with inputHids := [], inputCids := [] }, ?_, rfl, rfl⟩
  decide

/-! ### C28: two processes commit calls -/

/-- Calls made by one process since it opened the database. -/
def saveAll (s : CachedCalls) (cs : List CallRec) : CachedCalls := cs.foldl CachedCalls.save s

/-- Process B commits after process A: it sees the table as A left it. -/
def commitAfter (a b : CachedCalls) : Res CachedCalls Unit := CachedCalls.commit { b with pers := a.commit.2.pers }

/-- **C28 is false**: whenever two processes compute the same call (of any op, with any inputs and
outputs) and both commit it, the second commit fails with an integrity error. -/
theorem C28_same_call_refuted (rows : List Row) (c : CallRec) (hn : c.NamesDistinct) (hne : c.rows ≠ [])
    (hnew : ∀ r ∈ rows, r.callHid ≠ c.hid) :
    let a := saveAll (CachedCalls.open_ rows) [c]
    let b := saveAll (CachedCalls.open_ rows) [c]
    a.commit.1 = .ok () ∧ (commitAfter a b).1 = .error .integrityError := by
  have hg : (InMem.empty.save c).getData c.hid = .ok c.data :=
    C54_rows_complete_partial InMem.empty c hn hne (by simp [InMem.empty]) (by simp [InMem.empty])
  have h1 : insertRows rows c.rows = (.ok (), rows ++ c.rows) := by
    apply insertRows_of_new
    · rw [c.rows_keys]; exact nodup_map_pair _ hn
    · intro r' hr' r hr heq
      exact hnew r' hr' ((congrArg Prod.fst heq).trans (c.rows_callHid hr))
  have h2 : (insertRows (rows ++ c.rows) c.rows).1 = .error .integrityError := by
    cases hr : c.rows with
    | nil => exact absurd hr hne
    | cons r rs => rw [insertRows_clash ⟨r, by simp, rfl⟩]
  have hflush : ∀ rws, CachedCalls.flush (InMem.empty.save c) [c.hid] rws =
      (match insertRows rws c.rows with
        | (.error e, rows') => (.error e, rows')
        | (.ok (), rows') => (.ok (), rows')) := by
    intro rws
    simp only [CachedCalls.flush, hg, sqlSave, toRows_data hn]
    rcases insertRows rws c.rows with ⟨_ | _, _⟩ <;> rfl
  simp only [saveAll, List.foldl_cons, List.foldl_nil, CachedCalls.open_, CachedCalls.save, List.not_mem_nil,
    if_false, List.nil_append, commitAfter, CachedCalls.commit, hflush, h1]
  refine ⟨trivial, ?_⟩
  cases h3 : insertRows (rows ++ c.rows) c.rows with
  | mk r st =>
    rw [h3] at h2
    simp only [] at h2
    subst h2
    rfl

example : (exCall "c9" "x").NamesDistinct ∧ (exCall "c9" "x").rows ≠ [] ∧ (∀ r ∈ exRows, r.callHid ≠ "c9") := by
  refine ⟨by decide, by decide, by decide⟩

theorem saveAll_spec (rows : List Row) : ∀ (cs : List CallRec) (s : CachedCalls),
    (∀ c ∈ cs, c.NamesDistinct) → (cs.map (·.hid)).Nodup →
    (∀ c ∈ cs, c.hid ∉ s.cache.callHids ∧ c.hid ∉ s.dirty ∧ ∀ r ∈ s.cache.df, r.callHid ≠ c.hid) → s.pers = rows →
    (saveAll s cs).cache.df = s.cache.df ++ cs.flatMap CallRec.rows ∧
    (saveAll s cs).cache.callHids = s.cache.callHids ++ cs.map (·.hid) ∧
    (saveAll s cs).dirty = s.dirty ++ cs.map (·.hid) ∧ (saveAll s cs).pers = rows := by
  intro cs
  induction cs with
  | nil => intro s _ _ _ h; simp [saveAll, h]
  | cons c cs ih =>
    intro s hn hd hs hp
    simp only [List.map_cons, List.nodup_cons] at hd
    obtain ⟨hc1, hc2, hc3⟩ := hs c (by simp)
    obtain ⟨h1, h2⟩ := save_df_of_new (hn c (by simp)) hc3 hc1
    have := ih (s.save c) (fun c' h => hn c' (List.mem_cons_of_mem _ h)) hd.2 (by
      intro c' hc'
      obtain ⟨g1, g2, g3⟩ := hs c' (List.mem_cons_of_mem _ hc')
      have hne : c'.hid ≠ c.hid := fun e => hd.1 (e ▸ List.mem_map_of_mem hc')
      refine ⟨?_, ?_, ?_⟩
      · simp [CachedCalls.save, h2, g1, hne]
      · simp [CachedCalls.save, hc2, g2, hne]
      · intro r hr
        simp only [CachedCalls.save, h1, List.mem_append] at hr
        rcases hr with hr | hr
        · exact g3 r hr
        · rw [c.rows_callHid hr]; exact hne.symm) (by simpa [CachedCalls.save] using hp)
    simp only [saveAll, List.foldl_cons] at this ⊢
    obtain ⟨i1, i2, i3, i4⟩ := this
    refine ⟨?_, ?_, ?_, i4⟩
    · rw [i1]; simp [CachedCalls.save, h1]
    · rw [i2]; simp [CachedCalls.save, h2]
    · rw [i3]; simp [CachedCalls.save, hc2]

theorem rowsOf_flatMap : ∀ {cs : List CallRec} {c : CallRec}, (cs.map (·.hid)).Nodup → c ∈ cs →
    rowsOf (cs.flatMap CallRec.rows) c.hid = c.rows := by
  intro cs
  induction cs with
  | nil => intro c _ h; simp at h
  | cons a cs ih =>
    intro c hn hc
    simp only [List.map_cons, List.nodup_cons] at hn
    rw [List.flatMap_cons, rowsOf_append]
    rcases List.mem_cons.1 hc with rfl | hc
    · rw [rowsOf_self (fun r hr => c.rows_callHid hr), rowsOf_eq_nil.2, List.append_nil]
      intro r hr
      obtain ⟨c', hc', hr'⟩ := List.mem_flatMap.1 hr
      rw [c'.rows_callHid hr']
      exact fun e => hn.1 (e ▸ List.mem_map_of_mem hc')
    · rw [rowsOf_eq_nil.2, ih hn.2 hc, List.nil_append]
      intro r hr
      rw [a.rows_callHid hr]
      exact fun e => hn.1 (e ▸ List.mem_map_of_mem hc)

theorem flush_spec (cache : InMem) : ∀ (cs : List CallRec) (rows : List Row),
    (∀ c ∈ cs, c.NamesDistinct ∧ cache.getData c.hid = .ok c.data) → (cs.map (·.hid)).Nodup →
    (∀ c ∈ cs, ∀ r ∈ rows, r.callHid ≠ c.hid) →
    CachedCalls.flush cache (cs.map (·.hid)) rows = (.ok (), rows ++ cs.flatMap CallRec.rows) := by
  intro cs
  induction cs with
  | nil => intro rows _ _ _; simp [CachedCalls.flush]
  | cons c cs ih =>
    intro rows hc hd hr
    simp only [List.map_cons, List.nodup_cons] at hd
    obtain ⟨hn, hg⟩ := hc c (by simp)
    have h1 : insertRows rows c.rows = (.ok (), rows ++ c.rows) := by
      apply insertRows_of_new
      · rw [c.rows_keys]; exact nodup_map_pair _ hn
      · intro r' hr' r hr2 heq
        exact hr c (by simp) r' hr' ((congrArg Prod.fst heq).trans (c.rows_callHid hr2))
    simp only [List.map_cons, CachedCalls.flush, hg, sqlSave, toRows_data hn, h1]
    rw [ih _ (fun c' h => hc c' (List.mem_cons_of_mem _ h)) hd.2]
    · simp
    · intro c' hc' r hr'
      rcases List.mem_append.1 hr' with h | h
      · exact hr c' (List.mem_cons_of_mem _ hc') r h
      · rw [c.rows_callHid h]
        exact fun e => hd.1 (e ▸ List.mem_map_of_mem hc')

/-- The calls made by a process reach the table when it commits, provided the table has none of them. -/
theorem commit_saveAll (rows0 rows : List Row) (cs : List CallRec)
    (hn : ∀ c ∈ cs, c.NamesDistinct ∧ c.rows ≠ []) (hd : (cs.map (·.hid)).Nodup)
    (hnew : ∀ c ∈ cs, ∀ r ∈ rows, r.callHid ≠ c.hid) :
    (CachedCalls.commit { saveAll (CachedCalls.open_ rows0) cs with pers := rows }).1 = .ok () ∧
    (CachedCalls.commit { saveAll (CachedCalls.open_ rows0) cs with pers := rows }).2.pers =
      rows ++ cs.flatMap CallRec.rows := by
  obtain ⟨h1, h2, h3, _⟩ := saveAll_spec rows0 cs (CachedCalls.open_ rows0) (fun c h => (hn c h).1) hd
    (by intro c _; simp [CachedCalls.open_, InMem.empty]) rfl
  simp only [CachedCalls.open_, InMem.empty, List.nil_append] at h1 h2 h3
  have hg : ∀ c ∈ cs, (saveAll (CachedCalls.open_ rows0) cs).cache.getData c.hid = .ok c.data := by
    intro c hc
    have hm : c.hid ∈ cs.map (·.hid) := List.mem_map_of_mem hc
    simp only [CachedCalls.open_, InMem.empty, InMem.getData, InMem.exists_, h2, mgetData, h1,
      rowsOf_flatMap hd hc, dataOfRows_rows (hn c hc).1 (hn c hc).2]
    simp [hm]
  simp only [CachedCalls.commit]
  have hf := flush_spec (saveAll (CachedCalls.open_ rows0) cs).cache cs rows
    (fun c hc => ⟨(hn c hc).1, hg c hc⟩) hd hnew
  simp only [CachedCalls.open_, InMem.empty] at hf ⊢
  rw [h3, hf]
  exact ⟨rfl, rfl⟩

/-- **C28, positive part.** Two processes that open the same database and record *different* calls
both commit successfully, and the table then holds the rows of both, once.

Missing for the full claim: a call recorded by both processes; then the second commit fails,
`C28_same_call_refuted`. -/
theorem C28_distinct_calls_partial (rows : List Row) (cs ds : List CallRec)
    (hn : ∀ c ∈ cs ++ ds, c.NamesDistinct ∧ c.rows ≠ []) (hd : ((cs ++ ds).map (·.hid)).Nodup)
    (hnew : ∀ c ∈ cs ++ ds, ∀ r ∈ rows, r.callHid ≠ c.hid) :
    let a := saveAll (CachedCalls.open_ rows) cs
    let b := saveAll (CachedCalls.open_ rows) ds
    a.commit.1 = .ok () ∧ (commitAfter a b).1 = .ok () ∧
      (commitAfter a b).2.pers = rows ++ cs.flatMap CallRec.rows ++ ds.flatMap CallRec.rows := by
  intro a b
  rw [List.map_append, List.nodup_append] at hd
  obtain ⟨hd1, hd2, hd3⟩ := hd
  have ha := commit_saveAll rows rows cs (fun c h => hn c (List.mem_append_left _ h)) hd1
    (fun c h => hnew c (List.mem_append_left _ h))
  have hpers : a.pers = rows := (saveAll_spec rows cs (CachedCalls.open_ rows)
    (fun c h => (hn c (List.mem_append_left _ h)).1) hd1
    (by intro c _; simp [CachedCalls.open_, InMem.empty]) rfl).2.2.2
  have haa : ({ saveAll (CachedCalls.open_ rows) cs with pers := rows } : CachedCalls) = a := by
    show ({ a with pers := rows } : CachedCalls) = a
    rw [← hpers]
  rw [haa] at ha
  refine ⟨ha.1, ?_⟩
  simp only [commitAfter, ha.2]
  apply commit_saveAll rows _ ds (fun c h => hn c (List.mem_append_right _ h)) hd2
  intro c hc r hr
  rcases List.mem_append.1 hr with h | h
  · exact hnew c (List.mem_append_right _ hc) r h
  · obtain ⟨c', hc', hr'⟩ := List.mem_flatMap.1 h
    rw [c'.rows_callHid hr']
    exact hd3 _ (List.mem_map_of_mem hc') _ (List.mem_map_of_mem hc)

example : (∀ c ∈ [exCall "c7" "x"] ++ [exCall "c8" "x", exCall "c9" "y"], c.NamesDistinct ∧ c.rows ≠ []) ∧
    (([exCall "c7" "x"] ++ [exCall "c8" "x", exCall "c9" "y"]).map (·.hid)).Nodup ∧
    (∀ c ∈ [exCall "c7" "x"] ++ [exCall "c8" "x", exCall "c9" "y"], ∀ r ∈ exRows, r.callHid ≠ c.hid) := by
  refine ⟨by decide, by decide, by decide⟩

end Props
end Verif
