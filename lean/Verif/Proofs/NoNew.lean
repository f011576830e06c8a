import Verif.Proofs.Recorded
/-!
What happens while new calls are forbidden.
-/
namespace Verif

/-- While new calls are forbidden, no body is executed. -/
def NoExec (s s' : St) : Prop := s.allowNew = false → s'.allowNew = false ∧ s'.log = s.log

theorem NoExec.ord : PreOrd NoExec :=
  ⟨fun _ h => ⟨h, rfl⟩, fun h1 h2 h => ⟨(h2 (h1 h).1).1, (h2 (h1 h).1).2.trans (h1 h).2⟩⟩

theorem NoExec.of_eq {s s' : St} (h1 : s'.allowNew = s.allowNew) (h2 : s'.log = s.log) : NoExec s s' :=
  fun h => ⟨h1.trans h, h2⟩

theorem Quiet.noExec {s s' : St} (h : Quiet s s') : NoExec s s' := .of_eq h.allowNew h.log

theorem Pres.noExec {α : Type} {m : M α} (h : Pres Quiet m) : Pres NoExec m := h.mono (fun _ _ h => h.noExec)

theorem noExec_guard {α : Type} (m : M α) (e : Err) :
    Pres NoExec (do if ← M.read (fun s => s.allowNew) then m else M.raise e) := by
  intro s h
  have : (do if ← M.read (fun s => s.allowNew) then m else M.raise e : M α) s = (.error e, s) := by
    show M.bind _ _ s = _
    simp [M.bind, M.read, h, M.raise]
  rw [this]
  exact ⟨h, rfl⟩

theorem noExec_callInternal (cfg : Cfg) (d : OpDef) (args : List BArg) : Pres NoExec (callInternal cfg d args) := by
  unfold callInternal
  refine Pres.bind NoExec.ord (quiet_wrapInputs cfg _).noExec (fun p => ?_)
  refine Pres.bind NoExec.ord (quiet_lookupCall cfg _ _ _ _).noExec (fun o => ?_)
  cases o with
  | some c => exact Pres.pure NoExec.ord _
  | none => exact noExec_guard _ _

theorem noExec_saveCall (c : CallObj) : Pres NoExec (saveCall c) := by
  unfold saveCall
  refine Pres.bind NoExec.ord (Pres.read NoExec.ord _) (fun _ => Pres.ite (fun _ => Pres.pure NoExec.ord _) (fun _ => ?_))
  refine Pres.bind NoExec.ord (Pres.bind NoExec.ord (Pres.read NoExec.ord _) (fun _ => Pres.ite (fun _ => Pres.pure NoExec.ord _)
    (fun _ => (quiet_opsSet _).noExec))) (fun _ => ?_)
  exact Pres.bind NoExec.ord (quiet_saveRefs _).noExec (fun _ s => .of_eq rfl rfl)

theorem noExec_call (cfg : Cfg) (d : OpDef) (args : List BArg) : Pres NoExec (call cfg d args) := by
  unfold call
  refine Pres.bind NoExec.ord (noExec_callInternal cfg d args) (fun p => ?_)
  refine Pres.bind NoExec.ord (noExec_saveCall _) (fun _ => ?_)
  refine Pres.bind NoExec.ord (Pres.forM' NoExec.ord _ (fun c _ => noExec_saveCall c)) (fun _ => ?_)
  exact Pres.lift NoExec.ord _

theorem commitBody_same (cfg : Cfg) (s : St) :
    (commitBody cfg s).2.allowNew = s.allowNew ∧ (commitBody cfg s).2.log = s.log ∧ (commitBody cfg s).2.stale = s.stale := by
  unfold commitBody
  dsimp only
  split
  · exact ⟨rfl, rfl, rfl⟩
  · split
    · exact ⟨rfl, rfl, rfl⟩
    · split
      · exact ⟨rfl, rfl, rfl⟩
      · split <;> exact ⟨rfl, rfl, rfl⟩

theorem noExec_commit (cfg : Cfg) : Pres NoExec (commit cfg) := by
  intro s
  obtain ⟨h1, h2, _⟩ := commitBody_same cfg s
  unfold commit
  cases hb : commitBody cfg s with
  | mk x s' =>
    rw [hb] at h1 h2
    cases x <;> exact .of_eq h1 h2

theorem noExec_clearCache (b : Bool) : Pres NoExec (clearCache b) := by
  intro s
  unfold clearCache
  dsimp only
  split
  · exact .of_eq rfl rfl
  · split
    · exact .of_eq rfl rfl
    · split
      · exact .of_eq rfl rfl
      · split <;> exact .of_eq rfl rfl

theorem noExec_dropCached : ∀ (hs : List String), Pres NoExec (dropCached hs)
  | [] => Pres.pure NoExec.ord _
  | h :: hs => by
    intro s
    unfold dropCached
    split
    · split
      · exact NoExec.ord.refl s
      · refine NoExec.ord.trans (NoExec.of_eq ?_ ?_) (noExec_dropCached hs _)
        · unfold St.setCallCache; split <;> rfl
        · unfold St.setCallCache; split <;> rfl
    · exact noExec_dropCached hs s

theorem noExec_dropCalls (hs : List String) (b : Bool) : Pres NoExec (dropCalls hs b) := by
  intro s
  unfold dropCalls
  generalize (if b = true then _ else hs) = l
  have := noExec_dropCached l s
  simp only
  cases hd : dropCached l s with
  | mk x s' =>
    rw [hd] at this
    cases x with
    | error e => exact this
    | ok _ => exact NoExec.ord.trans this (.of_eq rfl rfl)

theorem noExec_cleanupRefs : Pres NoExec cleanupRefs := by
  unfold cleanupRefs
  refine Pres.bind NoExec.ord (Pres.read NoExec.ord _) (fun _ => ?_)
  refine Pres.bind NoExec.ord (Pres.forM' NoExec.ord _ (fun h _ => fun s => .of_eq rfl rfl)) (fun _ => ?_)
  refine Pres.bind NoExec.ord (Pres.read NoExec.ord _) (fun _ => ?_)
  exact Pres.forM' NoExec.ord _ (fun h _ => fun s => .of_eq rfl rfl)

theorem noExec_preload : Pres NoExec preload := by
  intro s
  unfold preload St.setCallCache
  refine NoExec.of_eq ?_ ?_ <;> (simp only; split <;> rfl)

/-! ### which calls are recorded -/

/-- A recorded call, or one with the content id of a recorded call. -/
def Known (s : St) (c : CallObj) : Prop := s.calls.exists_ c.hid = true ∨ ∃ r ∈ s.calls.cache.df, r.callCid = c.cid

theorem dataOfRows_header {rs : List Row} {d : CallData} (h : dataOfRows rs = some d) :
    ∃ r ∈ rs, d.hid = r.callHid ∧ d.cid = r.callCid ∧ d.opName = r.op := by
  unfold dataOfRows at h
  split at h
  · cases h
  · rename_i r rs
    cases h
    obtain ⟨h1, h2, h3⟩ := foldl_header (r :: rs) (CallData.mk r.op r.callCid r.callHid [] [] [] [] r.semVer r.contVer)
    exact ⟨r, by simp, h1, h2, h3⟩

theorem getCallFromData_ids {cfg : Cfg} {d : CallData} {s s' : St} {c : CallObj}
    (h : getCallFromData cfg d s = (.ok c, s')) : c.hid = d.hid ∧ c.cid = d.cid ∧ c.op = d.opName := by
  unfold getCallFromData at h
  obtain ⟨_, _, _, h⟩ := bind_ok h
  obtain ⟨_, _, _, h⟩ := bind_ok h
  obtain ⟨_, _, _, h⟩ := bind_ok h
  cases h
  exact ⟨rfl, rfl, rfl⟩

theorem mgetData_one {rows : List Row} {h : String} {d : CallData} {ds : List CallData}
    (hd : mgetData rows [h] = .ok (d :: ds)) : dataOfRows (rowsOf rows h) = some d := by
  unfold mgetData at hd
  split at hd
  · cases hd
  · rename_i d' hd'
    simp only [mgetData, Except.ok.injEq, List.cons.injEq] at hd
    rw [hd', hd.1]

theorem cached_getData_rows {cs : CachedCalls} {h : String} {d : CallData} (hd : cs.getData h = .ok d) :
    dataOfRows (rowsOf cs.cache.df h) = some d ∨ dataOfRows (rowsOf cs.pers h) = some d := by
  unfold CachedCalls.getData at hd
  split at hd
  · exact .inl (getData_rows hd)
  · right
    unfold sqlGetData at hd
    split at hd
    · cases hd; rename_i hm; exact mgetData_one hm
    · cases hd
    · cases hd

/-- Whatever a lookup finds is known. -/
theorem lookupCall_known {cfg : Cfg} {op : String} {v : Int} {ns : Option (List String)} {inputs : List (String × Ref)}
    {s s' : St} {c : CallObj} (h : lookupCall cfg op v ns inputs s = (.ok (some c), s')) : Known s c := by
  unfold lookupCall at h
  obtain ⟨b, s1, h1, h⟩ := bind_ok h
  cases h1
  by_cases hex : s.calls.exists_ (callId cfg.H op v (idsOf Ref.hid inputs)) = true
  · rw [if_pos hex] at h
    obtain ⟨d, s1, h1, h⟩ := bind_ok h
    simp only [Prod.mk.injEq] at h1
    obtain ⟨h1, rfl⟩ := h1
    obtain ⟨c', s2, h2, h⟩ := bind_ok h
    cases h
    left
    rw [(getCallFromData_ids h2).1]
    have : d.hid = callId cfg.H op v (idsOf Ref.hid inputs) := by
      rcases cached_getData_rows h1 with h3 | h3 <;>
      · obtain ⟨r, hr, hh, _⟩ := dataOfRows_header h3
        rw [hh]; exact (mem_rowsOf.1 hr).2
    rw [this]; exact hex
  · rw [if_neg hex] at h
    obtain ⟨b, s1, h1, h⟩ := bind_ok h
    cases h1
    by_cases hc : s.calls.existsContent (callId cfg.H op v (idsOf Ref.cid inputs)) = true
    · rw [if_pos hc] at h
      obtain ⟨d, s1, h1, h⟩ := bind_ok h
      simp only [Prod.mk.injEq] at h1
      obtain ⟨h1, rfl⟩ := h1
      obtain ⟨c', s2, h2, h⟩ := bind_ok h
      obtain ⟨_, _, _, h⟩ := bind_ok h
      obtain ⟨_, _, _, h⟩ := bind_ok h
      cases h
      right
      simp only [(getCallFromData_ids h2).2.1]
      unfold CachedCalls.getDataContent at h1
      split at h1
      · unfold InMem.getDataContent at h1
        split at h1
        · obtain ⟨r, hr, _, hh, _⟩ := dataOfRows_header (getData_rows h1)
          exact ⟨r, (mem_rowsOf.1 hr).1, hh.symm⟩
        · cases h1
      · cases h1
    · rw [if_neg hc] at h
      cases h

theorem Known.congr {s s' : St} {c : CallObj} (h : s'.calls = s.calls) : Known s' c ↔ Known s c := by
  unfold Known; rw [h]

theorem structCall_known {cfg : Cfg} {op out : String} {inputs : List (String × Ref)} {x : Except Err Ref} {s s' : St} {c : CallObj}
    (ha : s.allowNew = false) (h : structCall cfg op out inputs x s = (.ok c, s')) : Known s c := by
  unfold structCall at h
  obtain ⟨o, s1, h1, h⟩ := bind_ok h
  have hq := quiet_lookupCall cfg op 0 (some [out]) inputs s
  rw [h1] at hq
  cases o with
  | some c' => cases h; exact lookupCall_known h1
  | none =>
    obtain ⟨b, s2, h2, h⟩ := bind_ok h
    cases h2
    rw [if_neg (by have h5 : s1.allowNew = s.allowNew := hq.allowNew; simp [h5, ha])] at h
    cases h

theorem mapM_known {α β : Type} {f : α → M β} {g : β → List CallObj} (hq : ∀ a, Pres Quiet (f a))
    (hf : ∀ a s s' b, s.allowNew = false → f a s = (.ok b, s') → ∀ c ∈ g b, Known s c) :
    ∀ (l : List α) (s s' : St) (bs : List β), s.allowNew = false → M.mapM' f l s = (.ok bs, s') → ∀ c ∈ bs.flatMap g, Known s c
  | [], s, s', bs, _, h => by cases h; simp
  | a :: l, s, s', bs, ha, h => by
    unfold M.mapM' at h
    obtain ⟨b, s1, h1, h⟩ := bind_ok h
    obtain ⟨bs', s2, h2, h⟩ := bind_ok h
    cases h
    have hq1 := hq a s
    rw [h1] at hq1
    intro c hc
    rw [List.flatMap_cons, List.mem_append] at hc
    rcases hc with hc | hc
    · exact hf a s s1 b ha h1 c hc
    · exact (Known.congr hq1.calls).1 (mapM_known hq hf l s1 _ bs' (hq1.allowNew.trans ha) h2 c hc)

theorem construct_known {cfg : Cfg} : ∀ (ty : Ty) (a : Arg) (s s' : St) (p : Ref × List CallObj), s.allowNew = false →
    construct cfg ty a s = (.ok p, s') → ∀ c ∈ p.2, Known s c := by
  intro ty
  induction ty with
  | atom => intro a s s' p _ h; cases a <;> rw [construct] at h <;> first | (cases h; done) | (cases h; simp)
  | unsupported => intro a s s' p _ h; cases a <;> rw [construct] at h <;> first | (cases h; done) | (cases h; simp)
  | coll k t ih =>
    intro a s s' p ha h
    by_cases hr : ∃ r, a = .ref r
    · obtain ⟨r, rfl⟩ := hr
      rw [construct] at h; cases h; simp
    · rw [construct] at h
      · obtain ⟨⟨keys, items⟩, s1, h1, h⟩ := bind_ok h
        simp only [M.lift, Prod.mk.injEq] at h1
        obtain ⟨h1, rfl⟩ := h1
        dsimp only at h
        obtain ⟨rs, s2, h2, h⟩ := bind_ok h
        have hm := mapM_known (g := fun b => b.2) (fun a => pres_construct Quiet.reads cfg t a)
          (fun a s s' b ha h => ih a s s' b ha h) items s s2 rs ha h2
        have hq : Quiet s s2 := by
          have := Pres.mapM' Quiet.ord items (fun a _ => pres_construct Quiet.reads cfg t a) s
          rw [h2] at this; exact this
        obtain ⟨c0, s3, h3, h⟩ := bind_ok h
        have hk := (Known.congr hq.calls).1 (structCall_known (hq.allowNew.trans ha) h3)
        have hp : p.2 = rs.flatMap (·.2) ++ [c0] := by
          cases ho : c0.outputs with
          | nil => rw [ho] at h; cases h
          | cons q qs => rw [ho] at h; cases h; rfl
        rw [hp]
        intro c hc
        rcases List.mem_append.1 hc with hc | hc
        · exact hm c hc
        · rw [List.mem_singleton.1 hc]; exact hk
      · intro r hh; exact hr ⟨r, hh⟩

theorem wrapInputs_known {cfg : Cfg} {args : List BArg} {s s' : St} {p : List (String × Ref) × List CallObj}
    (ha : s.allowNew = false) (h : wrapInputs cfg args s = (.ok p, s')) : ∀ c ∈ p.2, Known s c := by
  unfold wrapInputs at h
  obtain ⟨rs, s1, h1, h⟩ := bind_ok h
  cases h
  refine mapM_known (g := fun b => b.2.2) (fun a => ?_) ?_ _ s _ rs ha h1
  · exact Pres.bind Quiet.ord (pres_construct Quiet.reads cfg _ _) (fun _ => Pres.pure Quiet.ord _)
  · intro a s s' b ha h
    obtain ⟨q, s2, h2, h⟩ := bind_ok h
    cases h
    exact construct_known _ _ _ _ _ ha h2

/-- While new calls are forbidden, all calls to be saved are known. -/
theorem callInternal_known {cfg : Cfg} {d : OpDef} {args : List BArg} {s s' : St} {p : CallObj × List CallObj}
    (ha : s.allowNew = false) (h : callInternal cfg d args s = (.ok p, s')) : Known s p.1 ∧ ∀ c ∈ p.2, Known s c := by
  unfold callInternal at h
  obtain ⟨⟨inputs, calls⟩, s1, h1, h⟩ := bind_ok h
  have hw := wrapInputs_known ha h1
  have hq := quiet_wrapInputs cfg args s
  rw [h1] at hq
  dsimp only at h
  obtain ⟨o, s2, h2, h⟩ := bind_ok h
  have hq2 := quiet_lookupCall cfg d.name d.version d.outNames inputs s1
  rw [h2] at hq2
  cases o with
  | some c => cases h; exact ⟨(Known.congr hq.calls).1 (lookupCall_known h2), hw⟩
  | none =>
    obtain ⟨b, s3, h3, h⟩ := bind_ok h
    cases h3
    rw [if_neg (by have h5 : s1.allowNew = s.allowNew := hq.allowNew; have h6 : s2.allowNew = s1.allowNew := hq2.allowNew
                   simp [h6, h5, ha])] at h
    cases h

theorem setRow_mem' {rows : List Row} {r x : Row} (h : x ∈ setRow rows r) : x ∈ rows ∨ x = r := by
  induction rows with
  | nil => exact .inr (by simpa [setRow] using h)
  | cons r' rs ih =>
    unfold setRow at h
    split at h
    · rcases List.mem_cons.1 h with h | h
      · exact .inr h
      · exact .inl (List.mem_cons_of_mem _ h)
    · rcases List.mem_cons.1 h with h | h
      · exact .inl (by simp [h])
      · exact (ih h).imp (List.mem_cons_of_mem _) id

theorem foldl_setRow_mem' {rs : List Row} : ∀ {rows : List Row} {x : Row}, x ∈ rs.foldl setRow rows → x ∈ rows ∨ x ∈ rs := by
  induction rs with
  | nil => intro rows x h; exact .inl h
  | cons r rs ih =>
    intro rows x h
    rcases ih h with h | h
    · rcases setRow_mem' h with h | rfl
      · exact .inl h
      · exact .inr (by simp)
    · exact .inr (List.mem_cons_of_mem _ h)

theorem save_rows {m : InMem} {c : CallRec} {x : Row} (h : x ∈ (m.save c).df) :
    x ∈ m.df ∨ x.callHid = c.hid ∧ x.callCid = c.cid ∧ x.op = c.op := by
  unfold InMem.save at h
  split at h
  · exact .inl h
  · rcases foldl_setRow_mem' h with h | h
    · rcases foldl_setRow_mem' h with h | h
      · exact .inl h
      · obtain ⟨p, _, rfl⟩ := List.mem_map.1 h
        exact .inr ⟨rfl, rfl, rfl⟩
    · obtain ⟨p, _, rfl⟩ := List.mem_map.1 h
      exact .inr ⟨rfl, rfl, rfl⟩

/-- Saving a call records at most this call. -/
theorem saveCall_adds {c : CallObj} {s s' : St} {x : Except Err Unit} (h : saveCall c s = (x, s')) :
    s'.calls = s.calls ∨ s.calls.exists_ c.hid = false ∧ s'.calls = s.calls.save c.toRec := by
  have heq : saveCall c s = if s.calls.exists_ c.hid then (.ok (), s) else
      M.bind (do if ← M.read (fun s => s.ops.exists_ c.op) then M.pure () else opsSet c.op)
        (fun _ => M.bind (saveRefs (c.inputs.map (·.2) ++ c.outputs.map (·.2)))
          (fun _ s => (.ok (), { s with calls := s.calls.save c.toRec }))) s := by
    unfold saveCall
    show M.bind _ _ s = _
    unfold M.bind
    simp only [M.read]
    split <;> rfl
  rw [heq] at h
  split at h
  · cases h; exact .inl rfl
  · rename_i hne
    have hq1 : Pres Quiet (do if ← M.read (fun s => s.ops.exists_ c.op) then M.pure () else opsSet c.op) :=
      Pres.bind Quiet.ord (Pres.read Quiet.ord _) (fun _ => Pres.ite (fun _ => Pres.pure Quiet.ord _) (fun _ => quiet_opsSet _))
    have hq2 := quiet_saveRefs (c.inputs.map (·.2) ++ c.outputs.map (·.2))
    unfold M.bind at h
    have h1 := hq1 s
    split at h
    · rename_i s1 hs1
      rw [hs1] at h1
      have h2 := hq2 s1
      dsimp only at h
      split at h
      · rename_i s2 hs2
        rw [hs2] at h2
        cases h
        right
        refine ⟨by simpa using hne, ?_⟩
        have h3 : s2.calls = s1.calls := h2.calls
        have h4 : s1.calls = s.calls := h1.calls
        simp only [h3, h4]
      · rename_i s2 hs2
        rw [hs2] at h2
        cases h
        exact .inl (h2.calls.trans h1.calls)
    · rename_i s1 hs1
      rw [hs1] at h1
      cases h
      exact .inl h1.calls

theorem saveCall_keeps {c : CallObj} {s s' : St} {x : Except Err Unit} (h : saveCall c s = (x, s')) {k : String}
    (hk : s.calls.exists_ k = true) : s'.calls.exists_ k = true := by
  rcases saveCall_adds h with h1 | ⟨_, h1⟩
  · rw [h1]; exact hk
  · rw [h1, exists_iff]
    simp only [CachedCalls.save, InMem.exists_save]
    rcases exists_iff.1 hk with h | h
    · exact .inl (.inl h)
    · exact .inr h

/-- The rows added by saving calls belong to calls that were not recorded. -/
theorem saves_adds : ∀ (cs : List CallObj) (s s' : St) (x : Except Err Unit), M.forM' saveCall cs s = (x, s') →
    s'.calls.pers = s.calls.pers ∧ ∀ r ∈ s'.calls.cache.df, r ∈ s.calls.cache.df ∨
      ∃ c ∈ cs, r.callHid = c.hid ∧ r.callCid = c.cid ∧ s.calls.exists_ c.hid = false
  | [], s, s', x, h => by cases h; exact ⟨rfl, fun h hh => .inl hh⟩
  | c :: cs, s, s', x, h => by
    unfold M.forM' at h
    cases h1 : saveCall c s with
    | mk y s1 =>
      have hstep : s1.calls.pers = s.calls.pers ∧ ∀ r ∈ s1.calls.cache.df, r ∈ s.calls.cache.df ∨
          r.callHid = c.hid ∧ r.callCid = c.cid ∧ s.calls.exists_ c.hid = false := by
        rcases saveCall_adds h1 with h2 | ⟨h2, h3⟩
        · rw [h2]; exact ⟨rfl, fun _ h => .inl h⟩
        · rw [h3]
          refine ⟨rfl, fun r hr => ?_⟩
          rcases save_rows hr with h4 | ⟨h4, h5, _⟩
          · exact .inl h4
          · exact .inr ⟨h4, h5, h2⟩
      cases y with
      | error e =>
        rw [bind_err h1] at h
        cases h
        refine ⟨hstep.1, fun r hr => ?_⟩
        rcases hstep.2 r hr with h4 | h4
        · exact .inl h4
        · exact .inr ⟨c, by simp, h4⟩
      | ok _ =>
        rw [bind_eq h1] at h
        have ih := saves_adds cs s1 s' x h
        refine ⟨ih.1.trans hstep.1, fun r hr => ?_⟩
        rcases ih.2 r hr with h4 | ⟨c', hc', h4, h5, h6⟩
        · rcases hstep.2 r h4 with h7 | h7
          · exact .inl h7
          · exact .inr ⟨c, by simp, h7⟩
        · refine .inr ⟨c', List.mem_cons_of_mem _ hc', h4, h5, ?_⟩
          cases hsk : s.calls.exists_ c'.hid with
          | false => rfl
          | true => rw [saveCall_keeps h1 hsk] at h6; cases h6

end Verif
