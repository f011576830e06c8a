import Verif.Proofs.StorageCalls
import Verif.Proofs.Outputs
import Verif.Spec.ProgramOK
import Mathlib.Tactic.ClearExcept
/-!
`call_internal`, `save_call`, `call` and the other entry points keep the invariant; `call` returns refs to
what the plain function returns.
-/
namespace Verif

variable {W : World}

/-- The arguments of a call stand for values. -/
def ArgsOK (W : World) (args : List BArg) (ins : List In) : Prop :=
  All2 (fun a i => i.name = a.name ∧ i.hid = argHid W.H a.ty a.arg ∧ ArgT W a.ty a.arg i.t) args ins

/-- The inputs that are not ignored. -/
def storedIns : List BArg → List In → List In
  | a :: as, i :: is => if a.ignored then storedIns as is else i :: storedIns as is
  | _, _ => []

theorem ArgsOK.stored {args : List BArg} {ins : List In} (h : ArgsOK W args ins) :
    ArgsOK W (args.filter fun a => !a.ignored) (storedIns args ins) := by
  induction h with
  | nil => exact .nil
  | @cons a i as is h1 h2 ih =>
    simp only [storedIns, List.filter_cons]
    cases a.ignored with
    | true => exact ih
    | false => exact .cons h1 ih

theorem ArgsOK.names {args : List BArg} {ins : List In} (h : ArgsOK W args ins) :
    Dict.keys (insVals ins) = args.map (·.name) := by
  induction h with
  | nil => rfl
  | cons h1 _ ih =>
    simp only [Dict.keys, insVals, List.map_cons] at ih ⊢
    rw [ih, h1.1]

theorem ArgsOK.wf {args : List BArg} {ins : List In} (h : ArgsOK W args ins) : ∀ p ∈ insVals ins, p.2.Wf W := by
  intro p hp
  simp only [insVals, List.mem_map] at hp
  obtain ⟨i, hi, rfl⟩ := hp
  obtain ⟨a, _, _, _, ha⟩ := h.mem_right hi
  have key : ∀ (ty : Ty) (a : Arg) (t : TVal), ArgT W ty a t → t.Wf W := by
    intro ty a t ha
    cases ty <;> cases a <;> simp only [ArgT] at ha
    all_goals first | exact ha.prov.wf | exact ha.2 | skip
    all_goals obtain ⟨_, _, _, _, _, hw, _⟩ := ha; exact hw
  exact key _ _ _ ha

theorem mem_storedIns {i : In} : ∀ {args : List BArg} {ins : List In}, i ∈ storedIns args ins → i ∈ ins
  | [], ins, h => by simp [storedIns] at h
  | _ :: _, [], h => by simp [storedIns] at h
  | a :: as, j :: is, h => by
    simp only [storedIns] at h
    split at h
    · exact List.mem_cons_of_mem _ (mem_storedIns h)
    · rcases List.mem_cons.1 h with rfl | h
      · simp
      · exact List.mem_cons_of_mem _ (mem_storedIns h)

theorem storedIns_all {args : List BArg} {ins : List In} (h : ∀ a ∈ args, a.ignored = false)
    (hl : args.length = ins.length) : storedIns args ins = ins := by
  induction args generalizing ins with
  | nil => cases ins <;> simp_all [storedIns]
  | cons a as ih =>
    cases ins with
    | nil => simp at hl
    | cons i is =>
      simp only [storedIns, h a (by simp)]
      simp only [Bool.false_eq_true, if_false]
      rw [ih (fun x hx => h x (List.mem_cons_of_mem _ hx)) (by simpa using hl)]

theorem keeps_wrapInputs (hW : W.Good) {args : List BArg} {ins : List In} (h : ArgsOK W args ins) :
    Keeps (Inv W) (wrapInputs W.cfg args) (fun p => InsOK W p.1 (storedIns args ins) ∧
      Dict.keys p.1 = (args.filter fun a => !a.ignored).map (·.name) ∧ (∀ c ∈ p.2, CallOK W c) ∧
      p.2.map CallObj.hid = (args.filter fun a => !a.ignored).flatMap fun a => structHids W.H a.ty a.arg) SErr := by
  unfold wrapInputs
  have hs := h.stored
  generalize (args.filter fun a => !a.ignored) = as at hs
  generalize storedIns args ins = is at hs
  refine Keeps.bind (q := All2 (fun (a : BArg) (p : String × Ref × List CallObj) => p.1 = a.name ∧ ∀ t, ArgT W a.ty a.arg t →
    WrapOK W a.ty a.arg t p.2) as) (Keeps.mapM' _ (fun a ha => ?_)) (fun rs hrs => Keeps.pure ?_)
  · obtain ⟨i, _, _, _, ht⟩ := hs.mem_left ha
    refine Keeps.bind (Keeps.forall_ ⟨i.t, ht⟩ (fun t ht => keeps_construct hW _ _ _ ht)) (fun p hp => Keeps.pure ⟨rfl, hp⟩)
  · clear h
    have h' : ∀ {as : List BArg} {is : List In} {rs : List (String × Ref × List CallObj)}, ArgsOK W as is →
        All2 (fun (a : BArg) (p : String × Ref × List CallObj) => p.1 = a.name ∧ ∀ t, ArgT W a.ty a.arg t →
          WrapOK W a.ty a.arg t p.2) as rs →
        InsOK W (rs.map fun p => (p.1, p.2.1)) is ∧ Dict.keys (rs.map fun p => (p.1, p.2.1)) = as.map (·.name) ∧
          (∀ c ∈ rs.flatMap (fun p => p.2.2), CallOK W c) ∧
          (rs.flatMap (fun p => p.2.2)).map CallObj.hid = as.flatMap fun a => structHids W.H a.ty a.arg := by
      intro as is rs h1 h2
      induction h2 generalizing is with
      | nil =>
        unfold ArgsOK at h1
        simp only [All2.nil_left] at h1; subst h1; exact ⟨.nil, rfl, by simp, rfl⟩
      | cons g1 g2 ih =>
        cases h1 with
        | cons f1 f2 =>
          obtain ⟨a1, a2, a3, a4⟩ := ih f2
          obtain ⟨b1, b2, b3, b4⟩ := g1.2 _ f1.2.2
          refine ⟨.cons ⟨by rw [g1.1, f1.1], by rw [f1.2.1]; exact b2, b1⟩ a1, ?_, ?_,
            by simp only [List.flatMap_cons, List.map_append]; rw [a4, b4]⟩
          · simp only [Dict.keys, List.map_cons] at a2 ⊢
            rw [a2, g1.1]
          · intro c hc
            simp only [List.flatMap_cons, List.mem_append] at hc
            rcases hc with hc | hc
            · exact b3 c hc
            · exact a3 c hc
    exact h' hs hrs

theorem parseReturns_err {nout : Nout} {names : Option (List String)} {ann : RetAnn} {ret : Val} {e : Err}
    (h : parseReturns nout names ann ret = .error e) : SErr e := by
  unfold parseReturns at h
  split at h
  · rename_i he
    cases h
    unfold returnsTuple at he
    split at he <;> try (cases he; done)
    all_goals first | (split at he <;> cases he; trivial) | (cases he; trivial)
  · dsimp only at h
    split at h
    · rename_i he
      cases h
      unfold outputTys at he
      split at he
      · cases he
      · cases he
      · have : ∀ (ks : List String) (ts : List Ty) (e : Err), annOfTuple ks ts = .error e → SErr e := by
          intro ks
          induction ks with
          | nil => intro ts e h; simp [annOfTuple] at h
          | cons k ks ih =>
            intro ts e h
            cases ts with
            | nil => simp only [annOfTuple, Except.error.injEq] at h; subst h; trivial
            | cons t ts =>
              simp only [annOfTuple] at h
              split at h
              · cases h
              · cases h; exact ih _ _ ‹_›
        exact this _ _ _ he
      · cases he; trivial
      · split at he <;> cases he
        trivial
    · cases h

theorem keeps_logExec (op : String) (args : List (String × Val)) : Keeps (Inv W) (logExec op args) (fun _ => True) SErr :=
  fun _ hs => ⟨{ hs with }, trivial⟩

/-- The plain call: what the function gets and what it returns. -/
def plainIns (args : List BArg) (ins : List In) : List (String × Val) := eraseIns (canon (insVals (storedIns args ins)))

theorem keeps_callInternal (hW : W.Good) {d : OpDef} (hd : OpOK W d) {args : List BArg} {ins : List In}
    (h : ArgsOK W args ins) (hn : (args.map (·.name)).Nodup)
    (hign : d.body (eraseIns (insVals ins)) = d.body (plainIns args ins)) :
    Keeps (Inv W) (callInternal W.cfg d args)
      (fun p => CallAt W d.name d.version (storedIns args ins) p.1 ∧ ∀ c ∈ p.2, CallOK W c)
      (fun e => SErr e ∨ d.body (plainIns args ins) = .error e) := by
  have wk : ∀ {α : Type} {m : M α} {q : α → Prop}, Keeps (Inv W) m q SErr →
      Keeps (Inv W) m q (fun e => SErr e ∨ d.body (plainIns args ins) = .error e) :=
    fun h => h.mono (fun _ h => h) (fun _ h => .inl h)
  unfold callInternal
  refine Keeps.bind (wk (keeps_wrapInputs hW h)) (fun p hp => ?_)
  obtain ⟨inputs, inputCalls⟩ := p
  obtain ⟨hins, hkeys, hcalls, _⟩ := hp
  simp only at hins hkeys hcalls ⊢
  refine Keeps.bind (wk (keeps_lookupCall hW hins)) (fun o ho => ?_)
  cases o with
  | some c => exact Keeps.pure ⟨ho c rfl, hcalls⟩
  | none =>
    refine Keeps.bind Keeps.readAny (fun b _ => Keeps.ite (fun _ => ?_) (fun _ => Keeps.raise (.inl trivial)))
    refine Keeps.bind (q := fun vals => vals = eraseIns (insVals ins)) (wk ?_) (fun vals hvals => ?_)
    · refine (Keeps.mapM' (R := fun (a : BArg) (p : String × Val) => p.1 = a.name ∧ ∀ t, ArgT W a.ty a.arg t → p.2 = t.erase)
        args (fun a ha => ?_)).mono (fun vals hv => ?_) (fun _ h => h)
      · obtain ⟨i, _, _, _, ht⟩ := h.mem_left ha
        exact Keeps.bind (Keeps.forall_ ⟨i.t, ht⟩ (fun t ht => keeps_bodyArg hW _ _ _ ht)) (fun v hv => Keeps.pure ⟨rfl, hv⟩)
      · have key : ∀ {as : List BArg} {is : List In} {vals : List (String × Val)}, ArgsOK W as is →
            All2 (fun (a : BArg) (p : String × Val) => p.1 = a.name ∧ ∀ t, ArgT W a.ty a.arg t → p.2 = t.erase) as vals →
            vals = eraseIns (insVals is) := by
          intro as is vals h1 h2
          induction h2 generalizing is with
          | nil => unfold ArgsOK at h1; simp only [All2.nil_left] at h1; subst h1; rfl
          | @cons a p as vals g1 g2 ih =>
            cases h1 with
            | cons f1 f2 =>
              rw [ih f2]
              simp only [eraseIns, insVals, List.map_cons]
              rw [f1.1, ← g1.1, ← g1.2 _ f1.2.2]
        exact key h hv
    subst hvals
    refine Keeps.bind (wk (keeps_logExec _ _)) (fun _ _ => ?_)
    refine Keeps.bind (q := fun ret => d.body (plainIns args ins) = .ok ret)
      (Keeps.lift (fun a ha => hign ▸ ha) (fun e he => .inr (hign ▸ he))) (fun ret hret => ?_)
    refine Keeps.bind (q := fun outs => parseReturns d.nout d.outNames d.ann ret = .ok outs)
      (Keeps.lift (fun a ha => ha) (fun e he => .inl (parseReturns_err he))) (fun outs houts => ?_)
    have hwf : ∀ p ∈ canon (insVals (storedIns args ins)), p.2.Wf W := by
      intro p hp
      exact h.stored.wf p (mem_canon.1 hp)
    obtain ⟨touts, hto⟩ := hd.conforms _ ret outs hwf hret houts
    have hsem : Sem W d.name d.version (canon (insVals (storedIns args ins))) touts := Sem.user hd.mem hret houts hto
    have hnd : (Dict.keys inputs).Nodup := by
      rw [hkeys]
      exact ((List.filter_sublist).map _).nodup hn
    simp only [hins.hids, hins.cids]
    have hcs : CallSem W d.name (callId W.H d.name d.version (insHids (storedIns args ins)))
        (callId W.H d.name d.version (insCids W (storedIns args ins))) (canon (insVals (storedIns args ins))) touts :=
      ⟨_, _, hins.prov, rfl, rfl, rfl, (insVals_nodup_iff hins).2 hnd, hsem⟩
    have hkeysT : Dict.keys touts = outs.map (·.1) := by
      clear hcs hsem houts
      induction hto with
      | nil => rfl
      | cons h1 _ ih =>
        simp only [Dict.keys, List.map_cons] at ih ⊢
        rw [ih, h1.1]
    have hndT : (Dict.keys touts).Nodup := by
      obtain ⟨vs, hvs, hsh⟩ := parseReturns_shape houts
      have hno := hd.names _ ret vs hret hvs
      have := congrArg (List.map Prod.fst) (hsh hno)
      rw [List.map_map] at this
      rw [hkeysT]
      have e2 : (outNamesOf d.outNames vs.length).length ≤ vs.length := by simp [outNamesOf]
      rw [List.map_fst_zip e2] at this
      have e3 : (Prod.fst ∘ fun p : String × Val × Ty => (p.1, p.2.1)) = fun p => p.1 := by funext p; rfl
      rw [e3] at this
      rw [this]
      exact outNamesOf_nodup hno
    generalize hch : callId W.H d.name d.version (insHids (storedIns args ins)) = hid at hcs
    refine Keeps.bind (q := All2 (fun (p : String × Val × Ty) (q : String × Ref × List CallObj) => q.1 = p.1 ∧
        ∀ t, (Dict.get? touts p.1 = some t ∧ ValT p.2.2 p.2.1 t ∧ t.Wf W) → RefOK W q.2.1 t ∧ q.2.1.hid = outHid W.H hid p.1 ∧
          ∀ c ∈ q.2.2, CallOK W c) outs) (wk (Keeps.mapM' _ (fun p hp => ?_))) (fun wr hwr => Keeps.pure ?_)
    · obtain ⟨q, hq, hn, hv, hw⟩ := hto.mem_left hp
      have hg : Dict.get? touts p.1 = some q.2 := (Dict.get?_eq_some_iff hndT).2 (by rw [hn]; exact hq)
      refine Keeps.bind (Keeps.forall_ (S := fun t => Dict.get? touts p.1 = some t ∧ ValT p.2.2 p.2.1 t ∧ t.Wf W) ⟨q.2, hg, hv, hw⟩
        (fun t ht => keeps_wrapOutput hW ht.2.1 ht.2.2 (callSem_prov hcs ht.1))) (fun x hx => Keeps.pure ⟨rfl, hx⟩)
    · have hwk : Dict.keys (wr.map fun p => (p.1, p.2.1)) = outs.map (·.1) := by
        clear hto houts hkeysT
        induction hwr with
        | nil => rfl
        | cons h1 _ ih =>
          simp only [Dict.keys, List.map_cons] at ih ⊢
          rw [ih, h1.1]
      have hfacts : ∀ q ∈ wr, ∃ t, Dict.get? touts q.1 = some t ∧ RefOK W q.2.1 t ∧ q.2.1.hid = outHid W.H hid q.1 ∧
          ∀ c ∈ q.2.2, CallOK W c := by
        intro q hq
        obtain ⟨p, hp, h1, h2⟩ := hwr.mem_right hq
        obtain ⟨x, hx, hn, hv, hw⟩ := hto.mem_left hp
        have hg : Dict.get? touts p.1 = some x.2 := (Dict.get?_eq_some_iff hndT).2 (by rw [hn]; exact hx)
        rw [h1]
        exact ⟨x.2, hg, h2 x.2 ⟨hg, hv, hw⟩⟩
      refine ⟨⟨rfl, hch.symm, touts, hcs, hsem, ?_, ⟨?_, ?_, ?_⟩, d.version, _, by rw [hins.hids]; exact hch.symm, fun p hp => hp, fun n hn => .inl hn⟩, ?_⟩
      · intro p hp
        obtain ⟨i, hi', hn, hh, hri⟩ := hins.mem_left hp
        refine ⟨i.t, ?_, hri⟩
        rw [mem_canon]
        simp only [insVals, List.mem_map]
        exact ⟨i, hi', by rw [← hn]⟩
      · simp only; rw [hwk, ← hkeysT]; exact hndT
      · simp only; rw [hwk, ← hkeysT]; exact fun n h => h
      · intro p hp
        simp only [List.mem_map] at hp
        obtain ⟨q, hq, rfl⟩ := hp
        obtain ⟨t, h1, h2, h3, _⟩ := hfacts q hq
        exact ⟨t, h1, h3, h2⟩
      · intro c hc
        simp only [List.mem_append, List.mem_flatMap] at hc
        rcases hc with hc | ⟨q, hq, hc⟩
        · exact hcalls c hc
        · obtain ⟨_, _, _, _, h4⟩ := hfacts q hq
          exact h4 c hc

theorem exists_all2 {α β : Type} {R : α → β → Prop} : ∀ {l : List α}, (∀ a ∈ l, ∃ b, R a b) → ∃ bs, All2 R l bs
  | [], _ => ⟨[], .nil⟩
  | a :: l, h => by
    obtain ⟨b, hb⟩ := h a (by simp)
    obtain ⟨bs, hbs⟩ := exists_all2 (l := l) (fun x hx => h x (List.mem_cons_of_mem _ hx))
    exact ⟨b :: bs, .cons hb hbs⟩

theorem keeps_saveCall {c : CallObj} (hc : CallOK W c) : Keeps (Inv W) (saveCall c) (fun _ => True) SErr := by
  unfold saveCall
  refine Keeps.bind Keeps.readAny (fun b _ => Keeps.ite (fun _ => Keeps.pure trivial) (fun _ => ?_))
  refine Keeps.bind (q := fun _ => True) ?_ (fun _ _ => ?_)
  · exact Keeps.bind Keeps.readAny (fun b _ => Keeps.ite (fun _ => Keeps.pure trivial) (fun _ => keeps_opsSet _))
  have hc0 := hc
  obtain ⟨cins, outs, hs, hin, hout, _⟩ := hc
  obtain ⟨ts, hts⟩ := exists_all2 (R := RefOK W) (l := c.inputs.map (·.2) ++ c.outputs.map (·.2)) (fun r hr => by
    simp only [List.mem_append, List.mem_map] at hr
    rcases hr with ⟨p, hp, rfl⟩ | ⟨p, hp, rfl⟩
    · obtain ⟨t, _, h⟩ := hin p hp; exact ⟨t, h⟩
    · obtain ⟨t, _, _, h⟩ := hout.2.2 p hp; exact ⟨t, h⟩)
  refine Keeps.bind (keeps_saveRefs _ ts (refsOK_iff.2 hts)) (fun _ _ => ?_)
  intro s hs
  refine ⟨{ hs with cache := ?_, pers := ?_ }, trivial⟩
  · exact hs.cache.save hc0
  · exact hs.pers

/-- The results of a call stand for what the plain function returns. -/
def ResOK (W : World) (d : OpDef) (vals : List (String × Val)) (rs : List Ref) : Prop :=
  ∃ ret vs ts, d.body vals = .ok ret ∧ returnsTuple d.nout ret = .ok vs ∧ All2 (RefOK W) rs ts ∧ TVal.erases ts = vs

theorem valT_erase : ∀ (ty : Ty) (v : Val) (t : TVal), ValT ty v t → t.erase = v
  | .atom, v, t, h => by simp only [ValT] at h; rw [h]; rfl
  | .unsupported, v, t, h => by simp only [ValT] at h
  | .coll k ty, v, t, h => by
    simp only [ValT] at h
    obtain ⟨keys, vs, ts, rfl, rfl, hk, hall⟩ := h
    have : TVal.erases ts = vs := by
      clear hk
      induction hall with
      | nil => rfl
      | cons h1 _ ih => simp only [TVal.erases]; rw [valT_erase ty _ _ h1, ih]
    simp only [TVal.erase, this]

theorem sem_user_inv (hW : W.Good) {d : OpDef} (hd : W.D d) {n : String} {v : Int} {ins outs : List (String × TVal)}
    (h : Sem W n v ins outs) (hn : n = d.name) (hv : v = d.version) : ∃ ret pouts, d.body (eraseIns ins) = .ok ret ∧
      parseReturns d.nout d.outNames d.ann ret = .ok pouts ∧
      All2 (fun p q => p.1 = q.1 ∧ ValT p.2.2 p.2.1 q.2 ∧ q.2.Wf W) pouts outs := by
  cases h with
  | make hw => exact absurd (hn ▸ builderName_structural _) (hW.user d hd)
  | getitem he => exact absurd (hn ▸ getitemName_structural _) (hW.user d hd)
  | user hdd hb hp ha =>
    have := hW.func _ _ hdd hd hn hv
    subst this
    exact ⟨_, _, hb, hp, ha⟩

theorem resOK_of_callAt (hW : W.Good) {d : OpDef} (hd : OpOK W d) {args : List BArg} {ins : List In} {c : CallObj}
    (hc : CallAt W d.name d.version (storedIns args ins) c) :
    ∃ rs, orderedOutputs d.outNames c.outputs = .ok rs ∧ ResOK W d (plainIns args ins) rs ∧
      rs.map Ref.hid = (outNamesOf d.outNames rs.length).map (outHid W.H c.hid) := by
  obtain ⟨h1, h2, outs, h3, h4, _, ⟨hnd, hall, hout⟩, _⟩ := hc
  obtain ⟨ret, pouts, hb, hp, ha⟩ := sem_user_inv hW hd.mem h4 rfl rfl
  obtain ⟨vs, hvs, hsh⟩ := parseReturns_shape hp
  have hno := hd.names _ ret vs hb hvs
  have hsh := hsh hno
  have houts : All2 (fun n q => n = q.1) (outNamesOf d.outNames vs.length) outs ∧
      All2 (fun v (q : String × TVal) => q.2.erase = v) vs outs := by
    have : ∀ {pouts : List (String × Val × Ty)} {outs : List (String × TVal)} {ns : List String} {vs : List Val},
        ns.length = vs.length → All2 (fun p q => p.1 = q.1 ∧ ValT p.2.2 p.2.1 q.2 ∧ q.2.Wf W) pouts outs →
        pouts.map (fun p => (p.1, p.2.1)) = ns.zip vs → All2 (fun n q => n = q.1) ns outs ∧
          All2 (fun v (q : String × TVal) => q.2.erase = v) vs outs := by
      intro pouts outs ns vs hl ha
      induction ha generalizing ns vs with
      | nil =>
        intro h
        cases ns with
        | nil => cases vs with
          | nil => exact ⟨.nil, .nil⟩
          | cons _ _ => simp at hl
        | cons _ _ => cases vs with
          | nil => simp at hl
          | cons _ _ => simp at h
      | cons h1 h2 ih =>
        intro h
        cases ns with
        | nil => simp at h
        | cons n ns => cases vs with
          | nil => simp at h
          | cons v vs =>
            simp only [List.map_cons, List.zip_cons_cons, List.cons.injEq, Prod.mk.injEq] at h
            obtain ⟨i1, i2⟩ := ih (by simpa using hl) h.2
            exact ⟨.cons (by rw [← h.1.1, h1.1]) i1, .cons (by rw [← h.1.2]; exact valT_erase _ _ _ h1.2.1) i2⟩
    exact this (by simp [outNamesOf]) ha hsh
  have hkeysO : Dict.keys outs = outNamesOf d.outNames vs.length := by
    have := houts.1
    generalize outNamesOf d.outNames vs.length = ns at this
    clear * - this
    induction this with
    | nil => rfl
    | cons h1 _ ih => simp only [Dict.keys, List.map_cons] at ih ⊢; rw [ih, h1]
  have hkeys : ∀ k, k ∈ Dict.keys c.outputs ↔ k ∈ outNamesOf d.outNames vs.length := by
    intro k
    rw [← hkeysO]
    refine ⟨fun hk => ?_, fun hk => hall k hk⟩
    obtain ⟨r, hr⟩ := Dict.mem_keys.1 hk
    obtain ⟨t, ht, _⟩ := hout _ (Dict.mem_of_get? hr)
    exact Dict.mem_keys.2 ⟨t, ht⟩
  obtain ⟨rs, hrs, hget⟩ := orderedOutputs_spec hno hnd hkeys
  have hlen : rs.length = vs.length := by rw [← hget.length_eq]; simp [outNamesOf]
  refine ⟨rs, hrs, ⟨ret, vs, outs.map (·.2), hb, hvs, ?_, ?_⟩, ?_⟩
  · have hndO : (Dict.keys outs).Nodup := by rw [hkeysO]; exact outNamesOf_nodup hno
    have key : ∀ {ns : List String} {outs' : List (String × TVal)} {rs : List Ref}, (∀ q ∈ outs', q ∈ outs) →
        All2 (fun n q => n = q.1) ns outs' → All2 (fun k r => Dict.get? c.outputs k = some r) ns rs →
        All2 (RefOK W) rs (outs'.map (·.2)) := by
      intro ns outs' rs hsub g1 g2
      induction g2 generalizing outs' with
      | nil => simp only [All2.nil_left] at g1; subst g1; exact .nil
      | cons f1 f2 ih =>
        cases g1 with
        | cons e1 e2 =>
          refine .cons ?_ (ih (fun q hq => hsub q (List.mem_cons_of_mem _ hq)) e2)
          obtain ⟨t, ht, _, hr⟩ := hout _ (Dict.mem_of_get? f1)
          simp only at ht
          have := (Dict.get?_eq_some_iff hndO).2 (hsub _ (List.mem_cons_self))
          rw [← e1, ht] at this
          cases this
          exact hr
    exact key (fun q h => h) houts.1 hget
  · have := houts.2
    clear * - this
    induction this with
    | nil => rfl
    | cons h1 _ ih => simp only [List.map_cons, TVal.erases]; rw [h1, ih]
  · rw [hlen]
    generalize outNamesOf d.outNames vs.length = ns at hget
    clear * - hget hout
    induction hget with
    | nil => rfl
    | cons h1 _ ih =>
      simp only [List.map_cons]
      obtain ⟨t, _, hh, _⟩ := hout _ (Dict.mem_of_get? h1)
      rw [ih, hh]

/-- A call returns refs to what the plain function returns (or raises what it raises), or fails with an exception of the
storage. -/
theorem keeps_call (hW : W.Good) {d : OpDef} (hd : OpOK W d) {args : List BArg} {ins : List In}
    (h : ArgsOK W args ins) (hn : (args.map (·.name)).Nodup)
    (hign : d.body (eraseIns (insVals ins)) = d.body (plainIns args ins)) :
    Keeps (Inv W) (call W.cfg d args)
      (fun rs => ResOK W d (plainIns args ins) rs ∧ rs.map Ref.hid = (outNamesOf d.outNames rs.length).map
        (outHid W.H (callId W.H d.name d.version (insHids (storedIns args ins)))))
      (fun e => SErr e ∨ d.body (plainIns args ins) = .error e) := by
  have wk : ∀ {α : Type} {m : M α} {q : α → Prop}, Keeps (Inv W) m q SErr →
      Keeps (Inv W) m q (fun e => SErr e ∨ d.body (plainIns args ins) = .error e) :=
    fun h => h.mono (fun _ h => h) (fun _ h => .inl h)
  unfold call
  refine Keeps.bind (keeps_callInternal hW hd h hn hign) (fun p hp => ?_)
  obtain ⟨main, calls⟩ := p
  refine Keeps.bind (wk (keeps_saveCall hp.1.callOK)) (fun _ _ => ?_)
  refine Keeps.bind (wk (Keeps.forM' _ (fun c hc => keeps_saveCall (hp.2 c hc)))) (fun _ _ => ?_)
  obtain ⟨rs, hrs, hres, hh⟩ := resOK_of_callAt hW hd hp.1
  have h2 := hp.1.2.1
  simp only at h2
  refine Keeps.lift (fun a ha => ?_) (fun e he => ?_)
  · simp only at ha hrs
    rw [hrs] at ha; cases ha
    exact ⟨hres, by rw [← h2]; exact hh⟩
  · simp only at he hrs
    rw [hrs] at he; cases he

/-! ### the other entry points -/

theorem CachedDict.flush_err {V : Type} {size : V → Nat} {cache : Dict String V} : ∀ {ks : List String} {p p' : SqlDict V} {e : Err},
    CachedDict.flush size cache ks p = (.error e, p') → SErr e
  | [], p, p', e, h => by simp [CachedDict.flush] at h
  | k :: ks, p, p', e, h => by
    simp only [CachedDict.flush] at h
    split at h
    · simp only [Prod.mk.injEq, Except.error.injEq] at h
      rw [← h.1]; trivial
    · split at h
      · rename_i he
        simp only [Prod.mk.injEq, Except.error.injEq] at h
        rw [← h.1]
        unfold SqlDict.set at he
        split at he
        · split at he <;> cases he
          trivial
        · cases he
      · exact CachedDict.flush_err h

theorem CachedDict.commit_err {V : Type} {size : V → Nat} {c c' : CachedDict V} {e : Err}
    (h : c.commit size = (.error e, c')) : SErr e := by
  unfold CachedDict.commit at h
  split at h
  · cases h
  · cases h; exact CachedDict.flush_err ‹_›

theorem CachedDict.clear_err {V : Type} {b : Bool} {c c' : CachedDict V} {e : Err}
    (h : c.clear b = (.error e, c')) : SErr e := by
  unfold CachedDict.clear at h
  split at h <;> cases h
  trivial

theorem CachedCalls.flush_err {cache : InMem} : ∀ {hs : List String} {rows rows' : List Row} {e : Err},
    CachedCalls.flush cache hs rows = (.error e, rows') → SErr e
  | [], rows, rows', e, h => by simp [CachedCalls.flush] at h
  | x :: hs, rows, rows', e, h => by
    simp only [CachedCalls.flush] at h
    split at h
    · simp only [Prod.mk.injEq, Except.error.injEq] at h
      rw [← h.1]; exact InMem.getData_err ‹_›
    · split at h
      · rename_i he
        simp only [Prod.mk.injEq, Except.error.injEq] at h
        rw [← h.1]
        have : ∀ {rs rows rows' : List Row} {e : Err}, insertRows rows rs = (.error e, rows') → SErr e := by
          intro rs
          induction rs with
          | nil => intro rows rows' e h; simp [insertRows] at h
          | cons r rs ih =>
            intro rows rows' e h
            simp only [insertRows] at h
            split at h
            · exact ih h
            · rename_i hi
              cases h
              unfold insertRow at hi
              split at hi <;> cases hi
              trivial
        exact this he
      · exact CachedCalls.flush_err h

theorem keeps_commit (hW : W.Good) : Keeps (Inv W) (commit W.cfg) (fun _ => True) SErr := by
  intro s hs
  have ha := hs.atoms.commit (size := W.cfg.sizeA)
  have hb := hs.shapes.commit (size := W.cfg.sizeS)
  have hraise : ∀ s', StoreAll (fun c v => c = W.H v) s'.atoms → StoreAll (ShapeOK W) s'.shapes → MemOK W s'.calls.cache →
      (∀ m, s'.stale = some m → MemOK W m) → Inv W (rollback s s') := by
    intro s' h1 h2 h3 h4
    exact { atoms := hs.atoms.rollback h1, shapes := hs.shapes.rollback h2, cache := h3, pers := hs.pers, stale := h4 }
  unfold commit commitBody
  cases hac : s.atoms.commit W.cfg.sizeA with
  | mk x a =>
    rw [hac] at ha
    cases x with
    | error e => exact ⟨hraise _ ha hs.shapes hs.cache hs.stale, CachedDict.commit_err hac⟩
    | ok _ =>
      simp only
      cases hbc : s.shapes.commit W.cfg.sizeS with
      | mk x b =>
        rw [hbc] at hb
        cases x with
        | error e => exact ⟨hraise _ ha hb hs.cache hs.stale, CachedDict.commit_err hbc⟩
        | ok _ =>
          simp only
          cases hoc : s.ops.commit W.cfg.sizeO with
          | mk x o =>
            cases x with
            | error e => exact ⟨hraise _ ha hb hs.cache hs.stale, CachedDict.commit_err hoc⟩
            | ok _ =>
              simp only
              unfold CachedCalls.commit
              cases hcc : CachedCalls.flush s.calls.cache s.calls.dirty s.calls.pers with
              | mk x c =>
                cases x with
                | error e => exact ⟨hraise _ ha hb hs.cache hs.stale, CachedCalls.flush_err hcc⟩
                | ok _ =>
                  exact ⟨{ atoms := ha, shapes := hb, cache := hs.cache, pers := flush_table hW hs.cache hs.pers hcc, stale := hs.stale }, trivial⟩

theorem keeps_clearCache (b : Bool) : Keeps (Inv W) (clearCache b) (fun _ => True) SErr := by
  intro s hs
  have ha := hs.atoms.clear b
  have hb := hs.shapes.clear b
  unfold clearCache
  cases hac : s.atoms.clear b with
  | mk x a =>
    rw [hac] at ha
    cases x with
    | error e => exact ⟨{ hs with atoms := ha }, CachedDict.clear_err hac⟩
    | ok _ =>
      simp only
      cases hbc : s.shapes.clear b with
      | mk x b' =>
        rw [hbc] at hb
        cases x with
        | error e => exact ⟨{ hs with atoms := ha, shapes := hb }, CachedDict.clear_err hbc⟩
        | ok _ =>
          simp only
          cases hoc : s.ops.clear b with
          | mk x o =>
            cases x with
            | error e => exact ⟨{ hs with atoms := ha, shapes := hb }, CachedDict.clear_err hoc⟩
            | ok _ =>
              simp only
              cases hcc : s.calls.clear b with
              | mk x c =>
                unfold CachedCalls.clear at hcc
                split at hcc
                · cases hcc; exact ⟨{ hs with atoms := ha, shapes := hb }, trivial⟩
                · cases hcc
                  refine ⟨{ atoms := ha, shapes := hb, cache := MemOK.empty, pers := hs.pers, stale := ?_ }, trivial⟩
                  intro m hm
                  simp only [Option.some.injEq] at hm
                  subst hm
                  cases hst : s.stale with
                  | none => simpa using hs.cache
                  | some m => simpa using hs.stale m hst

theorem Inv.callCache {s : St} (hs : Inv W s) : MemOK W s.callCache := by
  unfold St.callCache
  cases hst : s.stale with
  | none => simpa using hs.cache
  | some m => simpa using hs.stale m hst

theorem Inv.setCallCache {s : St} (hs : Inv W s) {m : InMem} (hm : MemOK W m) : Inv W (s.setCallCache m) := by
  unfold St.setCallCache
  split
  · exact { hs with cache := hm }
  · refine { hs with stale := ?_ }
    intro m' h'; cases h'; exact hm

theorem keeps_dropCached : ∀ (hids : List String), Keeps (Inv W) (dropCached hids) (fun _ => True) SErr
  | [] => Keeps.pure trivial
  | h :: hs => by
    intro s his
    have heq : dropCached (h :: hs) s = if s.callCache.exists_ h then
      match s.callCache.drop h with
      | .error e => (.error e, s)
      | .ok m => dropCached hs (s.setCallCache m)
      else dropCached hs s := rfl
    rw [heq]
    by_cases hex : s.callCache.exists_ h
    · rw [if_pos hex]
      cases hd : s.callCache.drop h with
      | error e =>
        refine ⟨his, ?_⟩
        unfold InMem.drop at hd
        split at hd <;> cases hd
        trivial
      | ok m => exact keeps_dropCached hs _ (his.setCallCache (his.callCache.drop hd))
    · rw [if_neg hex]
      exact keeps_dropCached hs s his

theorem keeps_dropCalls (hids : List String) (b : Bool) : Keeps (Inv W) (dropCalls hids b) (fun _ => True) SErr := by
  intro s hs
  unfold dropCalls
  simp only
  generalize hg : (if b = true then _ else hids) = hids'
  have h := keeps_dropCached (W := W) hids' s hs
  cases hd : dropCached hids' s with
  | mk x s' =>
    rw [hd] at h
    cases x with
    | error e => exact h
    | ok _ =>
      refine ⟨{ h.1 with pers := ?_ }, trivial⟩
      exact h.1.pers.filter (fun x => decide (x ∉ hids'))

theorem keeps_shapesDrop (h : String) : Keeps (Inv W) (shapesDrop h) (fun _ => True) SErr :=
  keeps_of_res (fun _ hs => ⟨{ hs with shapes := hs.shapes.drop h }, fun _ _ => trivial, fun _ he => CachedDict.drop_err he⟩)

theorem keeps_atomsDrop (c : String) : Keeps (Inv W) (atomsDrop c) (fun _ => True) SErr :=
  keeps_of_res (fun _ hs => ⟨{ hs with atoms := hs.atoms.drop c }, fun _ _ => trivial, fun _ he => CachedDict.drop_err he⟩)

theorem keeps_cleanupRefs : Keeps (Inv W) cleanupRefs (fun _ => True) SErr := by
  unfold cleanupRefs
  refine Keeps.bind Keeps.readAny (fun os _ => ?_)
  refine Keeps.bind (Keeps.forM' _ (fun h _ => keeps_shapesDrop h)) (fun _ _ => ?_)
  refine Keeps.bind Keeps.readAny (fun cs _ => ?_)
  exact Keeps.forM' _ (fun c _ => keeps_atomsDrop c)

theorem keeps_preload : Keeps (Inv W) preload (fun _ => True) SErr := by
  intro s hs
  have h1 := hs.setCallCache (MemOK.ofRows hs.pers)
  refine ⟨?_, trivial⟩
  generalize s.setCallCache (InMem.ofRows s.calls.pers) = s1 at h1
  exact { h1 with atoms := ⟨h1.atoms.2.loadAll, h1.atoms.2⟩, shapes := ⟨h1.shapes.2.loadAll, h1.shapes.2⟩ }

theorem keeps_reopen : Keeps (Inv W) reopen (fun _ => True) SErr := by
  intro s hs
  exact ⟨{ atoms := hs.atoms.open_, shapes := hs.shapes.open_, cache := MemOK.empty, pers := hs.pers,
           stale := fun m h => by cases h }, trivial⟩

theorem inv_fresh (o : Option (Joblib Val)) (thr : Nat) (ho : ∀ j, o = some j → DictAll (fun c v => c = W.H v) j) :
    Inv W (.fresh o thr) := by
  refine { atoms := ⟨DictAll.nil, DictAll.nil, ?_⟩, shapes := ⟨DictAll.nil, DictAll.nil, ?_⟩, cache := MemOK.empty,
           pers := TableOK.nil, stale := fun m h => by cases h }
  · exact ho
  · intro j h; cases h

end Verif
