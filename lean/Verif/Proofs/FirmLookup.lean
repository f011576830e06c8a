import Verif.Proofs.Firm
/-!
Looking up a recorded call does not fail.
-/
namespace Verif

/-! ### the data of a call -/

/-- The data have an input or an output. -/
def CallData.Full (d : CallData) : Prop := d.inputHids ≠ [] ∨ d.outputHids ≠ []

theorem Dict.set_ne_nil {K V : Type} [DecidableEq K] (d : Dict K V) (k : K) (v : V) : Dict.set d k v ≠ [] := by
  cases d with
  | nil => simp [Dict.set]
  | cons p d => obtain ⟨a, b⟩ := p; simp only [Dict.set]; split <;> simp

theorem CallData.full_addRow (d : CallData) (r : Row) : (d.addRow r).Full := by
  unfold CallData.addRow CallData.Full
  cases r.dir with
  | in_ => exact .inl (Dict.set_ne_nil _ _ _)
  | out => exact .inr (Dict.set_ne_nil _ _ _)

theorem full_of_rows {rs : List Row} {d : CallData} (h : dataOfRows rs = some d) : d.Full := by
  cases rs with
  | nil => cases h
  | cons r rs =>
    simp only [dataOfRows, Option.some.injEq, List.foldl_cons] at h
    have key : ∀ (rs : List Row) (d : CallData), d.Full → (rs.foldl CallData.addRow d).Full := by
      intro rs
      induction rs with
      | nil => intro d h; exact h
      | cons r rs ih => intro d _; exact ih _ (d.full_addRow r)
    rw [← h]
    exact key rs _ (CallData.full_addRow _ r)

theorem dataOfRows_some {rs : List Row} (h : rs ≠ []) : ∃ d, dataOfRows rs = some d := by
  cases rs with
  | nil => exact absurd rfl h
  | cons r rs => exact ⟨_, rfl⟩

/-- Everything the data name has a record. -/
structure DataLive (s0 : St) (d : CallData) : Prop where
  op : Has s0.ops d.opName
  ins : ∀ p ∈ d.inputHids, Has s0.shapes p.2
  outs : ∀ p ∈ d.outputHids, Has s0.shapes p.2

theorem dataLive_of_rows {s0 : St} {rows : List Row} {h : String} (hr : ∀ r ∈ rows, Has s0.shapes r.refHid ∧ Has s0.ops r.op)
    {d : CallData} (hd : dataOfRows (rowsOf rows h) = some d) : DataLive s0 d := by
  have hf := foldOK_of_rows hd
  obtain ⟨r, hr1, hr2, _⟩ := header_of_rows hd
  refine ⟨by rw [hr2]; exact (hr r (mem_rowsOf.1 hr1).1).2, fun p hp => ?_, fun p hp => ?_⟩
  · obtain ⟨y, hy, _, _, h3, _⟩ := hf.ins p.1 p.2 ((Dict.get?_eq_some_iff hf.nodupIn).2 hp)
    rw [← h3]; exact (hr y (mem_rowsOf.1 hy).1).1
  · obtain ⟨y, hy, _, _, h3, _⟩ := hf.outs p.1 p.2 ((Dict.get?_eq_some_iff hf.nodupOut).2 hp)
    rw [← h3]; exact (hr y (mem_rowsOf.1 hy).1).1

theorem getData_some {m : InMem} {h : String} (he : h ∈ m.callHids) (hr : ∃ r ∈ m.df, r.callHid = h) : ∃ d, m.getData h = .ok d := by
  obtain ⟨r, hr1, hr2⟩ := hr
  obtain ⟨d, hd⟩ := dataOfRows_some (rs := rowsOf m.df h) (fun hn => rowsOf_eq_nil.1 hn r hr1 hr2)
  refine ⟨d, ?_⟩
  have : mgetData m.df [h] = .ok [d] := by simp only [mgetData, hd]
  unfold InMem.getData
  rw [if_pos (by simpa [InMem.exists_] using he), this]

theorem sqlGetData_some {rows : List Row} {h : String} (hr : ∃ r ∈ rows, r.callHid = h) : ∃ d, sqlGetData rows h = .ok d := by
  obtain ⟨r, hr1, hr2⟩ := hr
  obtain ⟨d, hd⟩ := dataOfRows_some (rs := rowsOf rows h) (fun hn => rowsOf_eq_nil.1 hn r hr1 hr2)
  refine ⟨d, ?_⟩
  have : mgetData rows [h] = .ok [d] := by simp only [mgetData, hd]
  unfold sqlGetData
  rw [this]

section
variable {W : World} {s0 : St}

/-- No history id of a ref is the id of a call. -/
theorem Prov.ne_callId (hW : W.Good) {h : String} {t : TVal} (hp : Prov W h t) (op : String) (ver : Int) (ids : List (String × String)) :
    h ≠ callId W.H op ver ids := by
  cases hp with
  | raw _ =>
    intro he
    have := hW.inj _ _ he
    cases this
  | out _ _ _ _ =>
    intro he
    have := hW.inj _ _ he
    simp only [Val.tuple.injEq, List.cons.injEq] at this
    exact absurd this.1 nofun

/-- Values of a call that can be read back. -/
def CallFits (W : World) (op h cid : String) : Prop := ∀ cins outs, CallSem W op h cid cins outs →
  (∀ p ∈ cins, p.2.Fits W.cfg.fuel) ∧ ∀ p ∈ outs, p.2.Fits W.cfg.fuel

theorem firm_getCallFromData (hW : W.Good) (hB : Base W s0) {d : CallData} {h : String} (hd : DataOK W d h) (hl : DataLive s0 d) :
    Keeps (During W s0) (getCallFromData W.cfg d)
      (fun c => (c.op = d.opName ∧ c.cid = d.cid ∧ c.hid = d.hid ∧ CallOK W c) ∧
        (∀ p ∈ c.outputs, ∀ t, Prov W p.2.hid t → t.Flat → Firm (Has s0.shapes) p.2) ∧
        Dict.keys c.inputs = Dict.keys d.inputHids ∧ Dict.keys c.outputs = Dict.keys d.outputHids)
      (fun _ => ¬ CallFits W d.opName h d.cid) := by
  have hk := during_reads (s0 := s0) (keeps_getCallFromData hW hd) (fun hR => pres_getCallFromData hR.toReads _ _)
  refine (hk.and (q' := fun c => (∀ p ∈ c.outputs, ∀ t, Prov W p.2.hid t → t.Flat → Firm (Has s0.shapes) p.2) ∧
        Dict.keys c.inputs = Dict.keys d.inputHids ∧ Dict.keys c.outputs = Dict.keys d.outputHids)
    (e' := fun _ => ¬ CallFits W d.opName h d.cid) ?_).mono (fun _ h => h) (fun _ h => h.2)
  obtain ⟨hdh, cins, outs, hs, hni, hno, hin, hout, hall⟩ := hd
  unfold getCallFromData
  refine Keeps.bind ((during_opsGet _).mono (fun _ h => h) (fun _ hn _ => hn hl.op)) (fun _ _ => ?_)
  refine Keeps.bind (Keeps.mapM' (R := fun (p : String × String) (q : String × Ref) => q.1 = p.1) _ (fun p hp => ?_)) (fun ins hins => ?_)
  · refine Keeps.bind ((firm_loadRef hW hB _ p.2 true).mono (fun _ h => h) (fun _ hn hc => hn ⟨hl.ins p hp, fun t ht => ?_⟩)) (fun r hr => Keeps.pure rfl)
    obtain ⟨t', ht', hm, _⟩ := hin p.1 p.2 ((Dict.get?_eq_some_iff hni).2 hp)
    rw [ht.det hW ht']
    exact (hc _ _ hs).1 _ hm
  refine Keeps.bind (Keeps.mapM' (R := fun (p : String × String) (q : String × Ref) => q.1 = p.1 ∧ q.2.hid = p.2 ∧ ∀ t, Prov W p.2 t → t.Flat → Firm (Has s0.shapes) q.2) _ (fun p hp => ?_)) (fun os hos => ?_)
  · refine Keeps.bind ((firm_loadRef hW hB _ p.2 true).mono (fun _ h => h) (fun _ hn hc => hn ⟨hl.outs p hp, fun t ht => ?_⟩))
      (fun r hr => Keeps.pure ⟨rfl, hr.1.1.1, hr.2⟩)
    obtain ⟨t', hm, _, ht', _⟩ := hout p.1 p.2 ((Dict.get?_eq_some_iff hno).2 hp)
    rw [ht.det hW ht']
    exact (hc _ _ hs).2 _ (Dict.mem_of_get? hm)
  refine Keeps.pure ⟨?_, keys_of_all2 (fun _ _ h => h) hins, keys_of_all2 (fun _ _ h => h.1) hos⟩
  intro q hq t ht hf
  obtain ⟨p, hp, _, h1, h2⟩ := hos.mem_right hq
  exact h2 t (h1 ▸ ht) hf

theorem firm_getData (hW : W.Good) (hB : Base W s0) (h : String) :
    Keeps (During W s0) (fun s => (s.calls.getData h, s) : M CallData) (fun d => DataOK W d h ∧ DataLive s0 d ∧ d.Full)
      (fun _ => ¬ (s0.calls.exists_ h = true ∧ ∀ op cid, ¬ CallSem W op h cid [] [])) := by
  intro s hs
  have hcalls := hs.ext.calls
  have hok := keeps_getData hW h s hs.inv
  have hrow : s0.calls.cache.exists_ h = true → (∀ op cid, ¬ CallSem W op h cid [] []) → ∃ r ∈ s0.calls.cache.df, r.callHid = h := by
    intro he hn
    rcases hB.full h (by simpa [InMem.exists_] using he) with h1 | ⟨op, cid, h1⟩
    · exact h1
    · exact absurd h1 (hn op cid)
  dsimp only at hok ⊢
  rw [hcalls] at hok ⊢
  cases hg : s0.calls.getData h with
  | ok d =>
    rw [hg] at hok
    refine ⟨hs, hok.2, ?_⟩
    unfold CachedCalls.getData at hg
    split at hg
    · have := getData_rows hg
      exact ⟨dataLive_of_rows (fun r hr => hB.whole.rows r (.inl hr)) this, full_of_rows this⟩
    · have := sqlGetData_rows hg
      exact ⟨dataLive_of_rows (fun r hr => hB.whole.rows r (.inr hr)) this, full_of_rows this⟩
  | error e =>
    refine ⟨hs, ?_⟩
    rintro ⟨h1, h2⟩
    unfold CachedCalls.getData at hg
    by_cases hx : s0.calls.cache.exists_ h = true
    · rw [if_pos hx] at hg
      obtain ⟨d, hd⟩ := getData_some (m := s0.calls.cache) (by simpa [InMem.exists_] using hx) (hrow hx h2)
      rw [hd] at hg; cases hg
    · rw [if_neg hx] at hg
      unfold CachedCalls.exists_ at h1
      rw [if_neg hx] at h1
      simp only [sqlExists, List.any_eq_true, decide_eq_true_eq] at h1
      obtain ⟨d, hd⟩ := sqlGetData_some h1
      rw [hd] at hg; cases hg

theorem firm_getDataContent (hW : W.Good) (hB : Base W s0) (c : String) :
    Keeps (During W s0) (fun s => (s.calls.getDataContent c, s) : M CallData)
      (fun d => (∃ h, DataOK W d h ∧ d.cid = c) ∧ DataLive s0 d ∧ d.Full)
      (fun _ => ¬ (s0.calls.existsContent c = true ∧ ∃ op ver ids, c = callId W.H op ver ids)) := by
  intro s hs
  have hcalls := hs.ext.calls
  have hok := keeps_getDataContent hW c s hs.inv
  dsimp only at hok ⊢
  rw [hcalls] at hok ⊢
  cases hg : s0.calls.getDataContent c with
  | ok d =>
    rw [hg] at hok
    refine ⟨hs, hok.2, ?_⟩
    unfold CachedCalls.getDataContent at hg
    split at hg
    · unfold InMem.getDataContent at hg
      split at hg
      · have := getData_rows hg
        exact ⟨dataLive_of_rows (fun r hr => hB.whole.rows r (.inl hr)) this, full_of_rows this⟩
      · cases hg
    · cases hg
  | error e =>
    refine ⟨hs, ?_⟩
    rintro ⟨h1, op, ver, ids, h2⟩
    have hx : s0.calls.cache.existsContent c = true := by
      cases hx : s0.calls.cache.existsContent c with
      | true => rfl
      | false =>
        unfold CachedCalls.existsContent at h1
        rw [if_neg (by rw [hx]; nofun)] at h1
        simp only [sqlExistsRefHid, List.any_eq_true, decide_eq_true_eq] at h1
        obtain ⟨r, hr, hrc⟩ := h1
        obtain ⟨_, _, _, ⟨t, ht, _⟩, _⟩ := hB.inv.pers r hr
        exact absurd (hrc.trans h2) (ht.ne_callId hW op ver ids)
    unfold CachedCalls.getDataContent at hg
    rw [if_pos hx] at hg
    unfold InMem.getDataContent at hg
    simp only [InMem.existsContent, List.any_eq_true, decide_eq_true_eq] at hx
    cases hf : s0.calls.cache.df.find? (fun r => r.callCid = c) with
    | none =>
      obtain ⟨r, hr, hrc⟩ := hx
      have := List.find?_eq_none.1 hf r hr
      simp [hrc] at this
    | some r =>
      rw [hf] at hg
      have hm := List.mem_of_find?_eq_some hf
      obtain ⟨d, hd⟩ := getData_some (hB.inv.cache.2 r hm) ⟨r, hm, rfl⟩
      dsimp only at hg
      rw [hd] at hg
      cases hg

/-! ### looking up -/

/-- The op can be looked up on these inputs: values within the recursion limit, some input or output, and the outputs
named in the right way. -/
structure LookOK (W : World) (op : String) (ver : Int) (outNames : Option (List String)) (ins : List In) : Prop where
  fitsIn : ∀ i ∈ ins, i.t.Fits W.cfg.fuel
  outs : ∀ outs, Sem W op ver (canon (insVals ins)) outs → (∀ p ∈ outs, p.2.Fits W.cfg.fuel) ∧ (ins = [] → outs ≠ []) ∧
    ∃ n, NamesOK outNames n ∧ Dict.keys outs = outNamesOf outNames n

theorem mem_canon_ins {ins : List In} {p : String × TVal} (h : p ∈ canon (insVals ins)) : ∃ i ∈ ins, p = (i.name, i.t) := by
  rw [mem_canon] at h
  simp only [insVals, List.mem_map] at h
  obtain ⟨i, hi, rfl⟩ := h
  exact ⟨i, hi, rfl⟩

theorem LookOK.fits {op op' : String} {ver : Int} {outNames : Option (List String)} {ins : List In} {c : String} (hl : LookOK W op ver outNames ins)
    {h : String} (hs : ∀ cins outs, CallSem W op' h c cins outs → cins = canon (insVals ins) ∧ Sem W op ver cins outs) :
    CallFits W op' h c := by
  intro cins outs h1
  obtain ⟨rfl, h2⟩ := hs cins outs h1
  refine ⟨fun p hp => ?_, (hl.outs outs h2).1⟩
  obtain ⟨i, hi, rfl⟩ := mem_canon_ins hp
  exact hl.fitsIn i hi

/-- What a looked up call gives: outputs that can be unwrapped, and some input or output. -/
def FirmCall (W : World) (s0 : St) (c : CallObj) : Prop :=
  (∀ p ∈ c.outputs, ∀ t, Prov W p.2.hid t → t.Flat → FirmTop (Has s0.shapes) p.2) ∧ c.refs ≠ []

theorem CallObj.refs_ne_nil {c : CallObj} (h : Dict.keys c.inputs ≠ [] ∨ Dict.keys c.outputs ≠ []) : c.refs ≠ [] := by
  unfold CallObj.refs
  simp only [Dict.keys, ne_eq, List.map_eq_nil_iff] at h
  simp only [ne_eq, List.append_eq_nil_iff, List.map_eq_nil_iff]
  rintro ⟨h1, h2⟩
  rcases h with h | h
  · exact h h1
  · exact h h2

theorem CallData.Full.keys {d : CallData} (h : d.Full) : Dict.keys d.inputHids ≠ [] ∨ Dict.keys d.outputHids ≠ [] := by
  simpa only [Dict.keys, ne_eq, List.map_eq_nil_iff, CallData.Full] using h

theorem firm_lookupCall (hW : W.Good) (hB : Base W s0) {op : String} {ver : Int} {outNames : Option (List String)}
    {inputs : List (String × Ref)} {ins : List In} (hi : InsOK W inputs ins) :
    Keeps (During W s0) (lookupCall W.cfg op ver outNames inputs)
      (fun o => (∀ c, o = some c → CallAt W op ver ins c ∧ FirmCall W s0 c) ∧
        (o = none → s0.calls.exists_ (callId W.H op ver (insHids ins)) = false))
      (fun _ => ¬ LookOK W op ver outNames ins) := by
  have hk := during_reads (s0 := s0) (keeps_lookupCall hW (op := op) (ver := ver) (outNames := outNames) hi)
    (fun hR => pres_lookupCall hR.toReads _ _ _ _ _)
  refine (hk.and (q' := fun o => (∀ c, o = some c → FirmCall W s0 c) ∧
        (o = none → s0.calls.exists_ (callId W.H op ver (insHids ins)) = false))
    (e' := fun _ => ¬ LookOK W op ver outNames ins) ?_).mono (fun _ h => ⟨fun c hc => ⟨h.1 c hc, h.2.1 c hc⟩, h.2.2⟩) (fun _ h => h.2)
  unfold lookupCall
  simp only [hi.hids, hi.cids]
  refine Keeps.bind (q := fun b => b = s0.calls.exists_ (callId W.H op ver (insHids ins)))
    (Keeps.read (fun s hs => by rw [hs.ext.calls])) (fun b hb => Keeps.ite (fun hbt => ?_) (fun hbf => ?_))
  · refine Keeps.bind ((firm_getData hW hB _).mono (fun _ h => h) (fun _ hn hl => hn ⟨hb ▸ hbt, fun op' cid hs => ?_⟩)) (fun d hd => ?_)
    · obtain ⟨h1, h2, h3⟩ := callSem_here hW hs hi.prov
      have hnil : ins = [] := by
        have : (canon (insVals ins)).length = ins.length := by rw [(perm_canon _).length_eq]; simp [insVals]
        rw [← h2] at this
        exact List.length_eq_zero_iff.1 this.symm
      have h4 : Sem W op ver (canon (insVals ins)) [] := by rw [← h2]; exact h3
      exact (hl.outs _ h4).2.1 hnil rfl
    · obtain ⟨hdok, hdl, hfull⟩ := hd
      refine Keeps.bind ((firm_getCallFromData hW hB hdok hdl).mono (fun _ h => h) (fun _ hn hl => hn ?_)) (fun c hc => Keeps.pure ⟨?_, nofun⟩)
      · refine hl.fits (fun cins outs hs => ?_)
        obtain ⟨_, h2, h3⟩ := callSem_here hW hs hi.prov
        exact ⟨h2, h3⟩
      · intro c' h'; cases h'
        refine ⟨fun p hp t ht hf => (hc.2.1 p hp t ht hf).firmTop, CallObj.refs_ne_nil ?_⟩
        rw [hc.2.2.1, hc.2.2.2]
        exact hfull.keys
  · refine Keeps.bind (q := fun b => b = s0.calls.existsContent (callId W.H op ver (insCids W ins)))
      (Keeps.read (fun s hs => by rw [hs.ext.calls])) (fun b' hb' => Keeps.ite (fun hbt => ?_) (fun _ => Keeps.pure ⟨nofun, fun _ => ?_⟩))
    · refine Keeps.bind ((firm_getDataContent hW hB _).mono (fun _ h => h) (fun _ hn hl => hn ⟨hb' ▸ hbt, _, _, _, rfl⟩)) (fun d hd => ?_)
      obtain ⟨⟨h, hdok, hdc⟩, hdl, hfull⟩ := hd
      have htr : ∀ op' cins outs, CallSem W op' h d.cid cins outs → cins = canon (insVals ins) ∧ Sem W op ver cins outs := by
        intro op' cins outs hs
        rw [hdc] at hs
        obtain ⟨_, h2, h3⟩ := callSem_transfer hW hs hi.prov rfl
        exact ⟨h2, (callSem_here hW h3 hi.prov).2.2⟩
      refine Keeps.bind ((firm_getCallFromData hW hB hdok hdl).mono (fun _ h => h) (fun _ hn hl => hn (hl.fits (htr _)))) (fun c hc => ?_)
      obtain ⟨⟨hco, hcc, hch, cins, outs, hs, hin, hout, _⟩, hfirm, hkin, hkout⟩ := hc
      have hs' : CallSem W c.op h d.cid cins outs := by rw [hcc, hch, hdok.1] at hs; exact hs
      obtain ⟨hcin, hsem⟩ := htr _ _ _ hs'
      have hkeys : ∀ k, k ∈ Dict.keys c.outputs ↔ k ∈ Dict.keys outs := by
        intro k
        refine ⟨fun hk => ?_, fun hk => hout.2.1 k hk⟩
        obtain ⟨r, hr⟩ := Dict.mem_keys.1 hk
        obtain ⟨t, ht, _⟩ := hout.2.2 _ (Dict.mem_of_get? hr)
        exact Dict.mem_keys.2 ⟨t, ht⟩
      refine Keeps.bind (q := fun os => All2 (fun p q => q = (p.1, p.2.withHid (outHid W.H (callId W.H op ver (insHids ins)) p.1)))
        c.outputs os) (Keeps.lift (fun os hos => ?_) (fun e he hl => ?_)) (fun os hos => ?_)
      · unfold reassignOutputs at hos
        split at hos
        · cases hos
        · refine (mapE_ok hos).imp (fun a b hab => ?_)
          split at hab
          · cases hab; rfl
          · cases hab
      · obtain ⟨_, _, n, hno, hkn⟩ := hl.outs _ (hcin ▸ hsem)
        have hkid : Dict.keys ((Dict.keys d.outputHids).map fun k => (k, k)) = Dict.keys d.outputHids := by
          simp [Dict.keys, Function.comp_def]
        obtain ⟨rs, hrs, hget⟩ := orderedOutputs_spec (d := (Dict.keys d.outputHids).map fun k => (k, k)) hno
          (by rw [hkid, ← hkout]; exact hout.1) (by rw [hkid, ← hkout, ← hkn]; exact hkeys)
        unfold reassignOutputs at he
        rw [hrs] at he
        dsimp only at he
        obtain ⟨bs, hbs, _⟩ := mapE_all (f := fun p : String × Ref => if p.1 ∈ rs then Except.ok (p.1, p.2.withHid (outHid W.cfg.H (callId W.H op ver (insHids ins)) p.1))
          else .error .keyError) (l := c.outputs) (fun p hp => by
            have hpk : p.1 ∈ outNamesOf outNames n := by
              rw [← hkn, ← hkeys]
              exact List.mem_map_of_mem hp
            obtain ⟨r, hr, hg⟩ := hget.mem_left hpk
            have := Dict.mem_of_get? hg
            simp only [List.mem_map, Prod.mk.injEq] at this
            obtain ⟨k, _, h1, h2⟩ := this
            rw [h1] at h2
            rw [h2, if_pos hr]
            exact ⟨_, rfl⟩)
        rw [hbs] at he
        cases he
      refine Keeps.bind (q := fun is => All2 (fun p q => q.1 = p.1) c.inputs is) (Keeps.lift (fun is his => ?_) (fun e he hl => ?_)) (fun is his => Keeps.pure ⟨?_, nofun⟩)
      · refine (mapE_ok his).imp (fun a b hab => ?_)
        split at hab
        · cases hab; rfl
        · cases hab
      · obtain ⟨bs, hbs, _⟩ := mapE_all (f := fun p : String × Ref => match Dict.get? inputs p.1 with
          | some r => Except.ok (p.1, p.2.withHid r.hid)
          | none => .error .keyError) (l := c.inputs) (fun p hp => by
            obtain ⟨t, ht, _⟩ := hin p hp
            rw [hcin] at ht
            obtain ⟨i, hi', hpi⟩ := mem_canon_ins ht
            simp only [Prod.mk.injEq] at hpi
            obtain ⟨q, hq, hq1, _⟩ := hi.mem_right hi'
            have : p.1 ∈ Dict.keys inputs := by rw [hpi.1, ← hq1]; exact List.mem_map_of_mem hq
            obtain ⟨r, hr⟩ := Dict.mem_keys.1 this
            rw [hr]
            exact ⟨_, rfl⟩)
        exact absurd (he.symm.trans hbs) nofun
      · intro c' h'; cases h'
        refine ⟨fun q hq t ht hf => ?_, CallObj.refs_ne_nil ?_⟩
        · obtain ⟨p, hp, rfl⟩ := hos.mem_right hq
          obtain ⟨t', ht', hh', hr'⟩ := hout.2.2 p hp
          refine FirmTop.withHid ((hfirm p hp t' hr'.prov ?_).firmTop) _
          -- both ids stand for the same value
          have hcs : CallSem W op (callId W.H op ver (insHids ins)) c.cid (canon (insVals ins)) outs := by
            rw [hcc, hdc]
            have h0 := hs'
            rw [hdc] at h0
            have := (callSem_transfer hW h0 hi.prov rfl).2.2
            rw [hcin] at this
            exact this
          have hp1 := callSem_prov hcs ht'
          simp only [Ref.hid_withHid] at ht
          rw [hp1.det hW ht]
          exact hf
        · show Dict.keys is ≠ [] ∨ Dict.keys os ≠ []
          rw [keys_of_all2 (fun a b h => h) his, keys_of_all2 (fun a b h => by rw [h]) hos, hkin, hkout]
          exact hfull.keys
    · rw [← hb]; simpa using hbf

end
end Verif
