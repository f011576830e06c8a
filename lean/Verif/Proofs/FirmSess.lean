import Verif.Proofs.FirmCall
/-!
What a call returns can be unwrapped, and stays so for the rest of the session.
-/
namespace Verif

/-! ### rows of a call -/

theorem setRow_has {h : String} : ∀ {rows : List Row} {x : Row}, (∃ r ∈ rows, r.callHid = h) → ∃ r ∈ setRow rows x, r.callHid = h
  | [], _, ⟨_, hr, _⟩ => by simp at hr
  | a :: rows, x, ⟨r, hr, hh⟩ => by
    simp only [setRow]
    split
    · rename_i hk
      rcases List.mem_cons.1 hr with rfl | hr
      · exact ⟨x, by simp, hk.1 ▸ hh⟩
      · exact ⟨r, List.mem_cons_of_mem _ hr, hh⟩
    · rcases List.mem_cons.1 hr with rfl | hr
      · exact ⟨r, by simp, hh⟩
      · obtain ⟨r', h1, h2⟩ := setRow_has (x := x) ⟨r, hr, hh⟩
        exact ⟨r', List.mem_cons_of_mem _ h1, h2⟩

theorem setRow_self : ∀ (rows : List Row) (x : Row), x ∈ setRow rows x
  | [], _ => by simp [setRow]
  | a :: rows, x => by
    simp only [setRow]
    split
    · simp
    · exact List.mem_cons_of_mem _ (setRow_self rows x)

theorem foldl_setRow_has {h : String} : ∀ {xs rows : List Row}, (∃ r ∈ rows, r.callHid = h) → ∃ r ∈ xs.foldl setRow rows, r.callHid = h
  | [], _, hr => hr
  | _ :: xs, _, hr => foldl_setRow_has (xs := xs) (setRow_has hr)

theorem foldl_setRow_new {h : String} : ∀ {xs rows : List Row}, (∃ x ∈ xs, x.callHid = h) → ∃ r ∈ xs.foldl setRow rows, r.callHid = h
  | [], _, ⟨_, hx, _⟩ => by simp at hx
  | x :: xs, rows, ⟨y, hy, hh⟩ => by
    rcases List.mem_cons.1 hy with rfl | hy
    · exact foldl_setRow_has (xs := xs) ⟨y, setRow_self rows y, hh⟩
    · exact foldl_setRow_new (xs := xs) ⟨y, hy, hh⟩

section
variable {W : World}

theorem MemFull.save {m : InMem} (h : MemFull W m) {c : CallObj} (hc : CallFull W c) : MemFull W (m.save c.toRec) := by
  unfold InMem.save
  split
  · exact h
  · intro k hk
    simp only [List.mem_append, List.mem_singleton] at hk
    rcases hk with hk | rfl
    · rcases h k hk with h1 | h1
      · exact .inl (foldl_setRow_has (foldl_setRow_has h1))
      · exact .inr h1
    · rcases hc with hc | hc
      · left
        by_cases hi : c.inputs = []
        · have ho : c.outputs ≠ [] := fun ho => hc (by simp [CallObj.refs, hi, ho])
          obtain ⟨p, l, hp⟩ := List.exists_cons_of_ne_nil ho
          refine foldl_setRow_new ⟨c.toRec.outRow (p.1, ⟨p.2.cid, p.2.hid⟩), ?_, rfl⟩
          simp [CallObj.toRec, hp]
        · obtain ⟨p, l, hp⟩ := List.exists_cons_of_ne_nil hi
          refine foldl_setRow_has (foldl_setRow_new ⟨c.toRec.inRow (p.1, ⟨p.2.cid, p.2.hid⟩), ?_, rfl⟩)
          simp [CallObj.toRec, hp]
      · exact .inr ⟨_, _, hc⟩

/-- Known calls keep having rows. -/
def FullR (W : World) (s s' : St) : Prop := MemFull W s.calls.cache → MemFull W s'.calls.cache

theorem FullR.writes : Writes (FullR W) where
  ord := ⟨fun _ h => h, fun h1 h2 h => h2 (h1 h)⟩
  shapesGet _ _ := id
  atomsGet _ _ := id
  opsGet _ _ := id
  shapesSet _ _ _ := id
  atomsSet _ _ _ := id
  opsSet _ _ := id
  log _ _ _ := id

theorem full_saveCall {c : CallObj} (hc : CallFull W c) : Pres (FullR W) (saveCall c) :=
  pres_saveCall FullR.writes c fun _ _ h => h.save hc

theorem MemFull.drop {m m' : InMem} (h : MemFull W m) {k : String} (hd : m.drop k = .ok m') : MemFull W m' := by
  rw [drop_ok hd]
  intro x hx
  simp only [List.mem_filter, decide_eq_true_eq] at hx
  rcases h x hx.1 with ⟨r, hr, hh⟩ | h1
  · exact .inl ⟨r, List.mem_filter.2 ⟨hr, by simpa [hh] using hx.2⟩, hh⟩
  · exact .inr h1

theorem full_dropCached : ∀ (hs : List String) (s : St), MemFull W s.calls.cache → MemFull W (dropCached hs s).2.calls.cache
  | [], _, h => h
  | k :: hs, s, h => by
    unfold dropCached
    split
    · cases hd : s.callCache.drop k with
      | error e => exact h
      | ok m =>
        refine full_dropCached hs _ ?_
        unfold St.setCallCache
        cases hst : s.stale with
        | none =>
          have hcc : s.callCache = s.calls.cache := by simp [St.callCache, hst]
          rw [hcc] at hd
          exact h.drop hd
        | some _ => exact h
    · exact full_dropCached hs s h

theorem full_dropCalls (hs : List String) (b : Bool) (s : St) (h : MemFull W s.calls.cache) : MemFull W (dropCalls hs b s).2.calls.cache := by
  unfold dropCalls
  dsimp only
  have key : ∀ l x s', dropCached l s = (x, s') → MemFull W s'.calls.cache := fun l x s' hd => by
    have h1 := full_dropCached (W := W) l s h
    rw [hd] at h1
    exact h1
  split
  · rename_i hd
    exact key _ _ _ hd
  · rename_i hd
    have h1 := key _ _ _ hd
    exact h1

/-- The outputs of a recorded call have records. -/
theorem outputs_have (hW : W.Good) {s : St} (hB : Base W s) {c : CallObj} (hc : CallOK W c) (hex : s.calls.exists_ c.hid = true) :
    ∀ p ∈ c.outputs, Has s.shapes p.2.hid := by
  intro p hp
  obtain ⟨cins, outs, hcs, _, hout, _⟩ := hc
  have hrow : (∃ rows : List Row, TableOK W rows ∧ (∀ r ∈ rows, Has s.shapes r.refHid) ∧ ∃ r ∈ rows, r.callHid = c.hid) ∨
      ∃ op cid, CallSem W op c.hid cid [] [] := by
    unfold CachedCalls.exists_ at hex
    split at hex
    · rename_i hm
      rcases hB.full c.hid (by simpa [InMem.exists_] using hm) with h1 | h1
      · exact .inl ⟨_, hB.inv.cache.1, fun r hr => (hB.whole.rows r (.inl hr)).1, h1⟩
      · exact .inr h1
    · refine .inl ⟨_, hB.inv.pers, fun r hr => (hB.whole.rows r (.inr hr)).1, ?_⟩
      simp only [sqlExists, List.any_eq_true, decide_eq_true_eq] at hex
      exact hex
  rcases hrow with ⟨rows, ht, hh, r, hr, hrh⟩ | ⟨op, cid, h0⟩
  · obtain ⟨cins', outs', hcs', _, _, hall, _⟩ := ht r hr
    rw [hrh] at hcs'
    obtain ⟨_, _, _, rfl⟩ := callSem_functional hW hcs' hcs
    obtain ⟨t, h1, h2, _⟩ := hout.2.2 p hp
    obtain ⟨r', hr', g1, g2, g3⟩ := hall p.1 (List.mem_map.2 ⟨_, Dict.mem_of_get? h1, rfl⟩)
    obtain ⟨_, _, _, _, g4, _⟩ := ht r' hr'
    obtain ⟨_, _, g5⟩ := g4 g3
    rw [h2, ← hrh, ← g1, ← g2, ← g5]
    exact hh r' hr'
  · obtain ⟨_, _, _, rfl⟩ := callSem_functional hW h0 hcs
    obtain ⟨t, h1, _⟩ := hout.2.2 p hp
    simp [Dict.get?] at h1

/-- Saving calls. -/
theorem base_saveCall (hW : W.Good) {c : CallObj} (hc : CallOK W c) (hfull : CallFull W c) {s : St} (hB : Base W s) (hl : CallLive s c) :
    ∃ s', saveCall c s = (.ok (), s') ∧ Base W s' ∧ Sub s s' ∧ ∀ p ∈ c.outputs, Has s'.shapes p.2.hid := by
  obtain ⟨s', h1, h2, h3, h4⟩ := whole_saveCall hW hc hB.inv hB.whole hl
  have h5 := full_saveCall hfull s
  rw [h1] at h5
  have hB' : Base W s' := ⟨h2, h3, h5 hB.full⟩
  exact ⟨s', h1, hB', h4, outputs_have hW hB' hc (saveCall_exists h1)⟩

theorem base_saveCalls (hW : W.Good) : ∀ {cs : List CallObj}, (∀ c ∈ cs, CallOK W c) → (∀ c ∈ cs, CallFull W c) → ∀ {s : St}, Base W s →
    (∀ c ∈ cs, CallLive s c) →
    ∃ s', M.forM' saveCall cs s = (.ok (), s') ∧ Base W s' ∧ Sub s s' ∧ ∀ c ∈ cs, ∀ p ∈ c.outputs, Has s'.shapes p.2.hid
  | [], _, _, s, hB, _ => ⟨s, rfl, hB, .refl s, by simp⟩
  | c :: cs, hc, hf, s, hB, hl => by
    obtain ⟨s1, h1, h2, h3, h4⟩ := base_saveCall hW (hc c (by simp)) (hf c (by simp)) hB (hl c (by simp))
    obtain ⟨s2, g1, g2, g3, g4⟩ := base_saveCalls hW (cs := cs) (fun x hx => hc x (List.mem_cons_of_mem _ hx))
      (fun x hx => hf x (List.mem_cons_of_mem _ hx)) h2 (fun x hx r hr => h3.live (hl x (List.mem_cons_of_mem _ hx) r hr))
    refine ⟨s2, ?_, g2, h3.trans g3, fun x hx p hp => ?_⟩
    · show M.bind _ _ s = _
      unfold M.bind
      rw [h1]
      exact g1
    · rcases List.mem_cons.1 hx with rfl | hx
      · exact g3.has (h4 p hp)
      · exact g4 x hx p hp

/-- What is known of a call. -/
structure CallDone (W : World) (s : St) (d : OpDef) (args : List BArg) (ins : List In) (x : Except Err (List Ref)) (s' : St) : Prop where
  base : Base W s'
  sub : Sub s s'
  firm : ∀ rs, x = .ok rs → ∀ r ∈ rs, EFirm W (Has s'.shapes) r ∧ Has s'.shapes r.hid
  outs : ∀ rs, x = .ok rs → ∃ outs, Sem W d.name d.version (canon (insVals (storedIns args ins))) outs ∧
    ∀ r ∈ rs, ∃ n t, (n, t) ∈ outs ∧ RefOK W r t
  err : ∀ e, x = .error e → ¬ CallsOK W s d args ins ∨ d.body (plainIns args ins) = .error e

theorem firm_call (hW : W.Good) {s : St} (hB : Base W s) {d : OpDef} (hd : OpOK W d) {args : List BArg} {ins : List In}
    (h : ArgsOK W args ins) (hn : (args.map (·.name)).Nodup)
    (hign : d.body (eraseIns (insVals ins)) = d.body (plainIns args ins)) (hf : ∀ a ∈ args, ArgFirm W (Has s.shapes) a.arg)
    (ha : ∀ a ∈ args, ArgLive s a.arg) : CallDone W s d args ins (call W.cfg d args s).1 (call W.cfg d args s).2 := by
  have h1 := firm_callInternal hW hB hd h hn hign hf s hB.refl
  have h2 := ext_callInternal hB.whole W.cfg d ha s (.refl s)
  have h3 := pres_callInternal (FullR.writes (W := W)).toUnwraps W.cfg d args s
  unfold call
  cases hm : callInternal W.cfg d args s with
  | mk x s1 =>
    rw [hm] at h1 h2 h3
    cases x with
    | error e =>
      have : (do let (main, calls) ← callInternal W.cfg d args; saveCall main; M.forM' saveCall calls; M.lift (orderedOutputs d.outNames main.outputs) : M (List Ref)) s =
          (.error e, s1) := by
        show M.bind _ _ s = _
        unfold M.bind
        rw [hm]
      rw [this]
      exact ⟨⟨h1.1.inv, h2.1.whole hB.whole, h3 hB.full⟩, h2.1.sub, nofun, nofun, fun _ h => by cases h; exact h1.2⟩
    | ok p =>
      obtain ⟨main, calls⟩ := p
      obtain ⟨hdur, ⟨hat, hcs⟩, hfm, hfl⟩ := h1
      obtain ⟨hext, hl, hlo, hlc⟩ := h2
      simp only at hat hcs hfm hfl hl hlo hlc
      have hB1 : Base W s1 := ⟨hdur.inv, hext.whole hB.whole, h3 hB.full⟩
      obtain ⟨s2, e2, hB2, hs2, ho2⟩ := base_saveCall hW hat.callOK (hfl main (by simp)) hB1 (fun r hr => hext.live (hl r hr))
      obtain ⟨s3, e3, hB3, hs3, ho3⟩ := base_saveCalls hW hcs (fun c hc => hfl c (List.mem_cons_of_mem _ hc)) hB2
        (fun c hc r hr => hs2.live (hext.live (hlc c hc r hr)))
      have : (do let (main, calls) ← callInternal W.cfg d args; saveCall main; M.forM' saveCall calls; M.lift (orderedOutputs d.outNames main.outputs) : M (List Ref)) s =
          (orderedOutputs d.outNames main.outputs, s3) := by
        show M.bind _ _ s = _
        unfold M.bind
        rw [hm]
        show M.bind _ _ s1 = _
        unfold M.bind
        rw [e2]
        show M.bind _ _ s2 = _
        unfold M.bind
        rw [e3]
        rfl
      rw [this]
      have hsub := (hext.sub.trans hs2).trans hs3
      obtain ⟨rs, hrs, _⟩ := resOK_of_callAt hW hd hat
      refine ⟨hB3, hsub, fun rs hrs r hr => ?_, fun rs hrs => ?_, fun e he => ?_⟩
      · obtain ⟨n, hn⟩ := orderedOutputs_mem hrs r hr
        have hhas : Has s3.shapes r.hid := hs3.has (ho2 (n, r) hn)
        refine ⟨fun t ht hfl => ?_, hhas⟩
        refine FirmTop.firm (FirmTop.mono (fun k hk => ?_) (hfm (n, r) hn t ht.prov hfl)) hhas
        rcases hk with hk | ⟨c, hc, q, hq, rfl⟩
        · exact hsub.has hk
        · rcases List.mem_cons.1 hc with rfl | hc
          · exact hs3.has (ho2 q hq)
          · exact ho3 c hc q hq
      · obtain ⟨_, _, outs, _, h4, _, ⟨_, _, h5⟩, _⟩ := hat
        refine ⟨outs, h4, fun r hr => ?_⟩
        obtain ⟨n, hn⟩ := orderedOutputs_mem hrs r hr
        obtain ⟨t, g1, _, g2⟩ := h5 _ hn
        exact ⟨n, t, Dict.mem_of_get? g1, g2⟩
      · simp only at he hrs
        rw [hrs] at he; cases he
end
end Verif
