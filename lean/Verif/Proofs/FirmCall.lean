import Verif.Proofs.FirmWrap
/-!
A call does not fail unless the function does.
-/
namespace Verif

section
variable {W : World} {s0 : St}

/-! ### unwrapping arguments -/

theorem firm_unwrapArgs {ty : Ty} {e : Err → Prop} (ih : ∀ a t, ArgT W ty a t → ArgFirm W (Has s0.shapes) a →
      Keeps (During W s0) (unwrapArg W.cfg a) (fun _ => True) (fun _ => ¬ (t.Flat ∧ 0 < W.cfg.fuel))) :
    ∀ (as : List Arg) (ts : List TVal), All2 (ArgT W ty) as ts → (∀ a ∈ as, ArgFirm W (Has s0.shapes) a) →
      (∀ x, ¬ ((∀ t ∈ ts, t.Flat) ∧ 0 < W.cfg.fuel) → e x) →
    Keeps (During W s0) (unwrapArgs W.cfg as) (fun _ => True) e
  | [], ts, h, _, _ => by unfold unwrapArgs; exact Keeps.pure trivial
  | a :: as, ts, h, hf, he => by
    cases h with
    | @cons _ t _ ts h1 h2 =>
      unfold unwrapArgs
      refine Keeps.bind ((ih a _ h1 (hf a (by simp))).mono (fun _ h => h) (fun x hx => he x (fun hh => hx ⟨hh.1 t (by simp), hh.2⟩))) (fun v hv => ?_)
      exact Keeps.bind (firm_unwrapArgs ih as _ h2 (fun b hb => hf b (List.mem_cons_of_mem _ hb))
        (fun x hx => he x (fun hh => hx ⟨fun t ht => hh.1 t (List.mem_cons_of_mem _ ht), hh.2⟩))) (fun vs hvs => Keeps.pure trivial)

theorem firm_unwrapArg (hW : W.Good) (hB : Base W s0) : ∀ (ty : Ty) (a : Arg) (t : TVal), ArgT W ty a t → ArgFirm W (Has s0.shapes) a →
    Keeps (During W s0) (unwrapArg W.cfg a) (fun _ => True) (fun _ => ¬ (t.Flat ∧ 0 < W.cfg.fuel)) := by
  have href : ∀ (r : Ref) (t : TVal), RefOK W r t → EFirm W (Has s0.shapes) r →
      Keeps (During W s0) (unwrapArg W.cfg (.ref r)) (fun _ => True) (fun _ => ¬ (t.Flat ∧ 0 < W.cfg.fuel)) := by
    intro r t hr hf
    unfold unwrapArg
    exact (firm_unwrapRef hW hB r t hr).mono (fun _ _ => trivial) (fun _ hn hh => hn ⟨hh.2, hf t hr hh.1⟩)
  intro ty
  induction ty with
  | atom =>
    intro a t h hf
    cases a <;> simp only [ArgT] at h
    · exact href _ t h hf
    · unfold unwrapArg; exact Keeps.pure trivial
  | unsupported =>
    intro a t h hf
    cases a <;> simp only [ArgT] at h
    exact href _ t h hf
  | coll k ty ih =>
    intro a t h hf
    cases a with
    | ref r => simp only [ArgT] at h; exact href _ t h hf
    | val v => unfold unwrapArg; exact Keeps.pure trivial
    | list xs =>
      simp only [ArgT] at h
      obtain ⟨keys, items, ts, hi, rfl, _, ha⟩ := h
      have hfi := hf.items hi
      cases k <;> simp only [plainItems, Option.some.injEq, Prod.mk.injEq, reduceCtorEq] at hi
      obtain ⟨rfl, rfl⟩ := hi
      unfold unwrapArg
      exact Keeps.bind (firm_unwrapArgs ih xs ts ha hfi (fun x hx hh => hx ⟨hh.1.elts, hh.2⟩)) (fun vs hvs => Keeps.pure trivial)
    | dict ks xs =>
      simp only [ArgT] at h
      obtain ⟨keys, items, ts, hi, rfl, _, ha⟩ := h
      have hfi := hf.items hi
      cases k <;> simp only [plainItems, Option.some.injEq, Prod.mk.injEq, reduceCtorEq] at hi
      obtain ⟨rfl, rfl⟩ := hi
      unfold unwrapArg
      exact Keeps.bind (firm_unwrapArgs ih xs ts ha hfi (fun x hx hh => hx ⟨hh.1.elts, hh.2⟩)) (fun vs hvs => Keeps.pure trivial)
    | ptr id v =>
      simp only [ArgT] at h
      obtain ⟨keys, items, ts, hi, _⟩ := h
      cases k <;> simp [plainItems] at hi

theorem firm_bodyArg (hW : W.Good) (hB : Base W s0) (ty : Ty) (a : Arg) (t : TVal) (h : ArgT W ty a t) (hf : ArgFirm W (Has s0.shapes) a) :
    Keeps (During W s0) (bodyArg W.cfg a) (fun v => v = t.erase) (fun _ => ¬ (t.Flat ∧ 0 < W.cfg.fuel)) := by
  have hk := during_reads (s0 := s0) (keeps_bodyArg hW ty a t h) (fun hR => pres_bodyArg hR _ _)
  refine (hk.and (q' := fun _ => True) (e' := fun _ => ¬ (t.Flat ∧ 0 < W.cfg.fuel)) ?_).mono (fun _ h => h.1) (fun _ h => h.2)
  have := firm_unwrapArg hW hB ty a t h hf
  cases a with
  | ptr id v =>
    exfalso
    cases ty <;> simp only [ArgT] at h
    obtain ⟨keys, items, ts, hi, _⟩ := h
    rename_i k _
    cases k <;> simp [plainItems] at hi
  | _ => exact this

/-! ### outputs and inputs -/

theorem firm_wrapOutput (hW : W.Good) (hB : Base W s0) {hid : String} {v : Val} {ty : Ty} {t : TVal} (hv : ValT ty v t) (hw : t.Wf W)
    (hp : Prov W hid t) : Keeps (During W s0) (wrapOutput W.cfg hid v ty)
      (fun p => (RefOK W p.1 t ∧ p.1.hid = hid ∧ ∀ c ∈ p.2, CallOK W c) ∧ (t.Flat → FirmTop (NewS s0 p.2) p.1) ∧ ∀ c ∈ p.2, c.refs ≠ [])
      (fun _ => ¬ (t.Flat ∧ t.Fits W.cfg.fuel ∧ s0.allowNew = true)) := by
  have hk := during_reads (s0 := s0) (keeps_wrapOutput hW hv hw hp) (fun hR => pres_wrapOutput hR.toReads _ _ _ _)
  refine (hk.and (q' := fun p => (t.Flat → FirmTop (NewS s0 p.2) p.1) ∧ ∀ c ∈ p.2, c.refs ≠ [])
    (e' := fun _ => ¬ (t.Flat ∧ t.Fits W.cfg.fuel ∧ s0.allowNew = true)) ?_).mono (fun _ h => h) (fun _ h => h.2)
  cases ty with
  | atom =>
    unfold wrapOutput
    refine Keeps.pure ⟨fun _ => ?_, by simp⟩
    cases v <;> exact trivial
  | unsupported => simp only [ValT] at hv
  | coll k ty =>
    unfold wrapOutput
    refine Keeps.bind ((firm_construct hW hB _ _ _ (valT_argT _ v t hv hw) (by simp [ArgFirm])).mono (fun _ h => h)
      (fun _ hn hh => hn ⟨hh.2.1, fun _ _ => .inl hh.2.2⟩)) (fun p hp' => ?_)
    exact (firm_destruct hW hB _ _ t t.Flat (hp'.1.1.withHid hp) id (fun hf => (hp'.2.1 hf).firmTop.withHid _)).mono (fun q hq => hq.2)
      (fun _ hn hh => hn ⟨hh.1, hh.2.1, hh.2.2, v, hv⟩)

theorem firm_wrapInputs (hW : W.Good) (hB : Base W s0) {args : List BArg} {ins : List In} (h : ArgsOK W args ins)
    (hf : ∀ a ∈ args, ArgFirm W (Has s0.shapes) a.arg) :
    Keeps (During W s0) (wrapInputs W.cfg args) (fun p => (InsOK W p.1 (storedIns args ins) ∧
      Dict.keys p.1 = (args.filter fun a => !a.ignored).map (·.name) ∧ (∀ c ∈ p.2, CallOK W c) ∧
      p.2.map CallObj.hid = (args.filter fun a => !a.ignored).flatMap fun a => structHids W.H a.ty a.arg) ∧ ∀ c ∈ p.2, c.refs ≠ [])
      (fun _ => ¬ ((∀ i ∈ storedIns args ins, i.t.Fits W.cfg.fuel) ∧
        ∀ a ∈ args.filter (fun a => !a.ignored), ∀ h ∈ structHids W.H a.ty a.arg, MayCall s0 h)) := by
  have hk := during_reads (s0 := s0) (keeps_wrapInputs hW h) (fun hR => pres_wrapInputs hR.toReads _ _)
  refine (hk.and (q' := fun p => ∀ c ∈ p.2, c.refs ≠ [])
    (e' := fun _ => ¬ ((∀ i ∈ storedIns args ins, i.t.Fits W.cfg.fuel) ∧
        ∀ a ∈ args.filter (fun a => !a.ignored), ∀ h ∈ structHids W.H a.ty a.arg, MayCall s0 h)) ?_).mono (fun _ h => h) (fun _ h => h.2)
  unfold wrapInputs
  refine Keeps.bind (Keeps.mapM' (R := fun (a : BArg) (p : String × Ref × List CallObj) => ∀ c ∈ p.2.2, c.refs ≠ []) _ (fun a ha => ?_)) (fun rs hrs => Keeps.pure ?_)
  · obtain ⟨i, hi, _, _, ht⟩ := h.stored.mem_left ha
    refine Keeps.bind ((firm_construct hW hB _ _ _ ht (hf a (List.mem_filter.1 ha).1)).mono (fun _ h => h)
      (fun _ hn hh => hn ⟨hh.1 i hi, hh.2 a ha⟩)) (fun p hp => Keeps.pure hp.2.2)
  · intro c hc
    simp only [List.mem_flatMap] at hc
    obtain ⟨p, hp, hc⟩ := hc
    obtain ⟨a, _, h⟩ := hrs.mem_right hp
    exact h c hc

/-! ### calls -/

/-- The function can be run and its outputs stored. -/
structure ExecOK (W : World) (s0 : St) (d : OpDef) (args : List BArg) (ins : List In) : Prop where
  allow : s0.allowNew = true
  fuel : 0 < W.cfg.fuel
  flatIn : ∀ i ∈ ins, i.t.Flat
  parse : ∀ ret, d.body (plainIns args ins) = .ok ret → ∃ outs, parseReturns d.nout d.outNames d.ann ret = .ok outs
  flatOut : ∀ outs, Sem W d.name d.version (canon (insVals (storedIns args ins))) outs → ∀ p ∈ outs, p.2.Flat

/-- The call can be answered. -/
structure CallsOK (W : World) (s0 : St) (d : OpDef) (args : List BArg) (ins : List In) : Prop where
  look : LookOK W d.name d.version d.outNames (storedIns args ins)
  struct : ∀ a ∈ args.filter (fun a => !a.ignored), ∀ h ∈ structHids W.H a.ty a.arg, MayCall s0 h
  main : s0.calls.exists_ (callId W.H d.name d.version (insHids (storedIns args ins))) = true ∨ ExecOK W s0 d args ins

/-- What a call to be saved has: some input or output, unless it can have none. -/
def CallFull (W : World) (c : CallObj) : Prop := c.refs ≠ [] ∨ CallSem W c.op c.hid c.cid [] []

theorem firm_callInternal (hW : W.Good) (hB : Base W s0) {d : OpDef} (hd : OpOK W d) {args : List BArg} {ins : List In}
    (h : ArgsOK W args ins) (hn : (args.map (·.name)).Nodup)
    (hign : d.body (eraseIns (insVals ins)) = d.body (plainIns args ins)) (hf : ∀ a ∈ args, ArgFirm W (Has s0.shapes) a.arg) :
    Keeps (During W s0) (callInternal W.cfg d args)
      (fun p => (CallAt W d.name d.version (storedIns args ins) p.1 ∧ ∀ c ∈ p.2, CallOK W c) ∧
        (∀ q ∈ p.1.outputs, ∀ t, Prov W q.2.hid t → t.Flat → FirmTop (NewS s0 (p.1 :: p.2)) q.2) ∧ ∀ c ∈ p.1 :: p.2, CallFull W c)
      (fun e => ¬ CallsOK W s0 d args ins ∨ d.body (plainIns args ins) = .error e) := by
  have hk := during_reads (s0 := s0) (keeps_callInternal hW hd h hn hign) (fun hR => pres_callInternal hR _ _ _)
  refine (hk.and (q' := fun p => (∀ q ∈ p.1.outputs, ∀ t, Prov W q.2.hid t → t.Flat → FirmTop (NewS s0 (p.1 :: p.2)) q.2) ∧
      (p.1.refs ≠ [] ∨ (p.1.outputs = [] ∧ storedIns args ins = [])) ∧ ∀ c ∈ p.2, c.refs ≠ [])
    (e' := fun e => ¬ CallsOK W s0 d args ins ∨ d.body (plainIns args ins) = .error e) ?_).mono (fun p hp => ⟨hp.1, hp.2.1, fun c hc => ?_⟩) (fun _ h => h.2)
  rotate_left
  · rcases List.mem_cons.1 hc with rfl | hc
    · rcases hp.2.2.1 with h1 | ⟨h1, h2⟩
      · exact .inl h1
      · right
        obtain ⟨g1, g2, outs, g3, g4, _, ⟨_, g5, _⟩, _⟩ := hp.1.1
        have houts : outs = [] := by
          cases outs with
          | nil => rfl
          | cons q l =>
            have := g5 q.1 (by simp [Dict.keys])
            rw [h1] at this; simp [Dict.keys] at this
        rw [houts, h2] at g3
        rw [g1]
        exact g3
    · exact .inl (hp.2.2.2 c hc)
  have wk : ∀ {α : Type} {m : M α} {q : α → Prop}, Keeps (During W s0) m q (fun _ => ¬ CallsOK W s0 d args ins) →
      Keeps (During W s0) m q (fun e => ¬ CallsOK W s0 d args ins ∨ d.body (plainIns args ins) = .error e) :=
    fun h => h.mono (fun _ h => h) (fun _ h => .inl h)
  unfold callInternal
  refine Keeps.bind (wk ((firm_wrapInputs hW hB h hf).mono (fun _ h => h) (fun _ hn hc => hn ⟨hc.look.fitsIn, hc.struct⟩))) (fun p hp => ?_)
  obtain ⟨inputs, inputCalls⟩ := p
  obtain ⟨⟨hins, hkeys, hcalls, _⟩, hfull⟩ := hp
  simp only at hins hkeys hcalls hfull ⊢
  refine Keeps.bind (wk ((firm_lookupCall hW hB hins).mono (fun _ h => h) (fun _ hn hc => hn hc.look))) (fun o ho => ?_)
  cases o with
  | some c =>
    obtain ⟨_, h1, h2⟩ := ho.1 c rfl
    exact Keeps.pure ⟨fun q hq t ht hfl => (h1 q hq t ht hfl).mono (fun _ h => .inl h), .inl h2, hfull⟩
  | none =>
    have hno := ho.2 rfl
    have hex : CallsOK W s0 d args ins → ExecOK W s0 d args ins := by
      intro hc
      rcases hc.main with h1 | h1
      · rw [hno] at h1; cases h1
      · exact h1
    refine Keeps.bind (q := fun b => b = s0.allowNew) (Keeps.read (fun s hs => hs.allow)) (fun b hb => Keeps.ite (fun _ => ?_)
      (fun hbf => Keeps.raise (.inl (fun hc => hbf (hb.trans (hex hc).allow)))))
    refine Keeps.bind (q := fun vals => vals = eraseIns (insVals ins)) (wk ?_) (fun vals hvals => ?_)
    · refine (Keeps.mapM2 h (Q := fun (a : BArg) i (p : String × Val) => p.1 = a.name ∧ p.2 = i.t.erase) (fun a ha i hi hai => ?_)).mono (fun vals hv => ?_) (fun _ h => h)
      · exact Keeps.bind ((firm_bodyArg hW hB _ _ _ hai.2.2 (hf a ha)).mono (fun _ h => h) (fun _ hn hc => hn ⟨(hex hc).flatIn i hi, (hex hc).fuel⟩))
          (fun v hv => Keeps.pure ⟨rfl, hv⟩)
      · have h1 : ins.map (fun i => (i.name, i.t.erase)) = vals.map id := All2.map_eq (fun i p hip => by
          obtain ⟨a, _, ha, h1, h2⟩ := hip
          rw [ha.1, ← h1, ← h2]; rfl) hv.2
        rw [List.map_id] at h1
        rw [← h1]
        simp [eraseIns, insVals, Function.comp_def]
    subst hvals
    refine Keeps.bind (q := fun _ => True) (fun s hs => ⟨⟨{ hs.inv with }, { hs.ext with }, hs.allow⟩, trivial⟩) (fun _ _ => ?_)
    refine Keeps.bind (q := fun ret => d.body (plainIns args ins) = .ok ret)
      (Keeps.lift (fun a ha => hign ▸ ha) (fun e he => .inr (hign ▸ he))) (fun ret hret => ?_)
    refine Keeps.bind (q := fun outs => parseReturns d.nout d.outNames d.ann ret = .ok outs)
      (Keeps.lift (fun a ha => ha) (fun e he => .inl (fun hc => ?_))) (fun outs houts => ?_)
    · obtain ⟨outs, ho⟩ := (hex hc).parse ret hret
      rw [he] at ho; cases ho
    have hwf : ∀ p ∈ canon (insVals (storedIns args ins)), p.2.Wf W := by
      intro p hp
      exact h.stored.wf p (mem_canon.1 hp)
    obtain ⟨touts, hto⟩ := hd.conforms _ ret outs hwf hret houts
    have hsem : Sem W d.name d.version (canon (insVals (storedIns args ins))) touts := Sem.user hd.mem hret houts hto
    have hnd : (Dict.keys inputs).Nodup := by
      rw [hkeys]
      exact ((List.filter_sublist).map _).nodup hn
    simp only [hins.hids, hins.cids]
    have hcs : CallSem W d.name (callId W.H d.name d.version (insHids (storedIns args ins)))
        (callId W.H d.name d.version (insCids W (storedIns args ins))) (canon (insVals (storedIns args ins))) touts :=
      ⟨_, _, hins.prov, rfl, rfl, rfl, (insVals_nodup_iff hins).2 hnd, hsem⟩
    have hkeysT : Dict.keys touts = outs.map (·.1) := by
      clear hcs hsem houts
      induction hto with
      | nil => rfl
      | cons h1 _ ih =>
        simp only [Dict.keys, List.map_cons] at ih ⊢
        rw [ih, h1.1]
    have hndT : (Dict.keys touts).Nodup := by
      obtain ⟨vs, hvs, hsh⟩ := parseReturns_shape houts
      have hno := hd.names _ ret vs hret hvs
      have := congrArg (List.map Prod.fst) (hsh hno)
      rw [List.map_map] at this
      rw [hkeysT]
      have e2 : (outNamesOf d.outNames vs.length).length ≤ vs.length := by simp [outNamesOf]
      rw [List.map_fst_zip e2] at this
      have e3 : (Prod.fst ∘ fun p : String × Val × Ty => (p.1, p.2.1)) = fun p => p.1 := by funext p; rfl
      rw [e3] at this
      rw [this]
      exact outNamesOf_nodup hno
    generalize hch : callId W.H d.name d.version (insHids (storedIns args ins)) = hid at hcs
    refine Keeps.bind (wk (Keeps.mapM2 hto (Q := fun (p : String × Val × Ty) (tq : String × TVal) (q : String × Ref × List CallObj) =>
        q.1 = p.1 ∧ q.2.1.hid = outHid W.H hid p.1 ∧ (tq.2.Flat → FirmTop (NewS s0 q.2.2) q.2.1) ∧ RefOK W q.2.1 tq.2 ∧ ∀ c ∈ q.2.2, c.refs ≠ [])
        (fun p hp tq htq hpt => ?_))) (fun wr hwr => Keeps.pure ?_)
    · have hg : Dict.get? touts p.1 = some tq.2 := (Dict.get?_eq_some_iff hndT).2 (by rw [hpt.1]; exact htq)
      refine Keeps.bind ((firm_wrapOutput hW hB hpt.2.1 hpt.2.2 (callSem_prov hcs hg)).mono (fun _ h => h) (fun _ hn hc => hn ?_)) (fun x hx => Keeps.pure ?_)
      · exact ⟨(hex hc).flatOut _ hsem _ htq, (hc.look.outs _ hsem).1 _ htq, (hex hc).allow⟩
      · exact ⟨rfl, hx.1.2.1, hx.2.1, hx.1.1, hx.2.2⟩
    · refine ⟨fun q hq t ht hfl => ?_, ?_, fun c hc => ?_⟩
      · simp only [List.mem_map] at hq
        obtain ⟨w, hw, rfl⟩ := hq
        obtain ⟨tq, _, p, _, _, _, _, h3, h4, _⟩ := hwr.2.mem_right hw
        rw [ht.det hW h4.prov] at hfl
        refine FirmTop.mono (fun h => NewS.mono (fun c hc => ?_)) (h3 hfl)
        exact List.mem_cons_of_mem _ (List.mem_append_right _ (List.mem_flatMap.2 ⟨w, hw, hc⟩))
      · by_cases hnil : storedIns args ins = [] ∧ wr = []
        · right; rw [hnil.2]; exact ⟨rfl, hnil.1⟩
        · left
          refine CallObj.refs_ne_nil ?_
          dsimp only
          by_cases h1 : wr = []
          · left
            intro hk
            apply hnil
            refine ⟨?_, h1⟩
            have : inputs = [] := by simpa [Dict.keys] using hk
            rw [this] at hins
            have := hins.length_eq
            exact List.length_eq_zero_iff.1 this.symm
          · right
            simpa [Dict.keys] using h1
      · simp only [List.mem_append, List.mem_flatMap] at hc
        rcases hc with hc | ⟨q, hq, hc⟩
        · exact hfull c hc
        · obtain ⟨tq, _, p, _, _, _, _, _, _, h5⟩ := hwr.2.mem_right hq
          exact h5 c hc

end
end Verif
