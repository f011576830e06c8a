import Verif.Spec.Elements
import Verif.Proofs.Firm
import Verif.Proofs.Recorded
import Verif.Proofs.History
import Verif.Proofs.View
/-!
The elements of a freshly computed collection are the outputs of element accesses.
-/
namespace Verif

variable {W : World}

mutual
theorem Each.imp {P Q : Kind → String → Val → Ref → Prop} (hpq : ∀ k h i e t, RefOK W e t → P k h i e → Q k h i e) :
    ∀ (r : Ref) (t : TVal), RefOK W r t → Each P r → Each Q r
  | .atom .., _, _, _ => by simp [Each]
  | .coll k c h m ks es, t, hr, hp => by
    simp only [Each] at hp ⊢
    simp only [RefOK] at hr
    obtain ⟨_, keys, ts, _, _, h1⟩ := hr
    exact ⟨hp.1, Eachs.imp hpq es ts k h _ (h1 hp.1).2 hp.2⟩
theorem Eachs.imp {P Q : Kind → String → Val → Ref → Prop} (hpq : ∀ k h i e t, RefOK W e t → P k h i e → Q k h i e) :
    ∀ (es : List Ref) (ts : List TVal) (k : Kind) (h : String) (is : List Val), RefsOK W es ts → Eachs P k h is es → Eachs Q k h is es
  | [], _, _, _, [], _, _ => by simp [Eachs]
  | [], _, _, _, _ :: _, _, hp => by simp [Eachs] at hp
  | _ :: _, _, _, _, [], _, hp => by simp [Eachs] at hp
  | e :: es, [], _, _, _ :: _, hr, _ => by simp [RefsOK] at hr
  | e :: es, t :: ts, k, h, i :: is, hr, hp => by
    simp only [Eachs] at hp ⊢
    simp only [RefsOK] at hr
    exact ⟨⟨hpq _ _ _ _ _ hr.1 hp.1.1, Each.imp hpq e t hr.1 hp.1.2⟩, Eachs.imp hpq es ts k h is hr.2 hp.2⟩
end

/-- The element was taken out by one of these calls. -/
def TakenBy (H : Val → String) (hids : List String) (k : Kind) (h : String) (i : Val) (e : Ref) : Prop :=
  accessId H k h i ∈ hids ∧ e.hid = outHid H (accessId H k h i) (getitemOut k)

theorem taken_destruct (hW : W.Good) : ∀ (ty : Ty) (r : Ref) (t : TVal), RefOK W r t →
    Keeps (Inv W) (destruct W.cfg ty r) (fun p => (∃ t, RefOK W p.1 t) ∧ Each (TakenBy W.H (p.2.map CallObj.hid)) p.1 ∧ p.1.hid = r.hid) SErr := by
  intro ty
  induction ty with
  | atom =>
    intro r t h
    cases r <;> unfold destruct
    · exact Keeps.pure ⟨⟨_, h⟩, by simp [Each], rfl⟩
    · exact Keeps.raise trivial
  | unsupported =>
    intro r t h
    cases r <;> unfold destruct
    · exact Keeps.pure ⟨⟨_, h⟩, by simp [Each], rfl⟩
    · exact Keeps.raise trivial
  | coll k ty ih =>
    intro r t h
    have hk0 := keeps_destruct hW (.coll k ty) r t h
    refine (hk0.and (e' := SErr) ?_).mono (fun p hp => ⟨⟨_, hp.1.1⟩, hp.2, hp.1.2.1⟩) (fun _ he => he.1)
    cases r with
    | atom c h' o => unfold destruct; exact Keeps.pure (by simp [Each])
    | coll k' c hid inMem keys elts =>
      unfold destruct
      refine Keeps.ite (fun hkk => ?_) (fun _ => Keeps.raise trivial)
      subst hkk
      refine Keeps.ite (fun hm => ?_) (fun _ => Keeps.raise (serr_iterErr _))
      have h0 := h
      simp only [RefOK] at h
      obtain ⟨hp, keys', ts, rfl, hc, hin⟩ := h
      obtain ⟨rfl, hrs⟩ := hin hm
      rw [refsOK_iff] at hrs
      have hwf := hp.wf
      simp only [TVal.Wf] at hwf
      obtain ⟨hk, _, _⟩ := hwf
      have hidx := idxVals_elts (W := W) hk
      have hlen : elts.length = ts.length := hrs.length_eq
      rw [hlen]
      refine Keeps.bind (q := All2 (fun idx p => TakenBy W.H (p.2.map CallObj.hid) k hid idx p.1 ∧ (∃ t, RefOK W p.1 t) ∧
          Each (TakenBy W.H (p.2.map CallObj.hid)) p.1) (idxVals k keys ts.length)) (Keeps.mapM' _ (fun idx hmem => ?_)) (fun rs hrs' => ?_)
      · obtain ⟨t, _, ht⟩ := hidx.mem_left hmem
        obtain ⟨w1, w2⟩ := wrapVal_ok ht.2
        have hins : InsOK W [(getitemArg k, .coll k c hid inMem keys elts), (getitemIdx k, wrapAtom W.cfg idx none)]
            [⟨getitemArg k, hid, .coll k keys ts⟩, ⟨getitemIdx k, rawHid W.H idx, .atom idx⟩] :=
          .cons ⟨rfl, rfl, h0⟩ (.cons ⟨rfl, w2, w1⟩ .nil)
        refine Keeps.bind (keeps_structCall hW (t := t) hins ?_ (Sem.getitem ht.1) ?_ (fun e he => getItem_err he)) (fun call hcall => ?_)
        · simp [Dict.keys, getitem_names]
        · intro r hr h hp
          exact (getItem_ok hrs hr ht.1).withHid hp
        · obtain ⟨hok, hch, r, hout, hrh, hr⟩ := hcall
          rw [hout]
          simp only [Dict.get?_cons, if_true]
          refine Keeps.bind (ih r t hr) (fun p hp => Keeps.pure ⟨⟨?_, ?_⟩, hp.1, ?_⟩)
          · rw [List.map_cons, hch]
            exact List.mem_cons_self ..
          · rw [hp.2.2, hrh]; rfl
          · obtain ⟨t', ht'⟩ := hp.1
            exact Each.imp (W := W) (fun _ _ _ _ _ _ h => ⟨List.mem_cons_of_mem _ h.1, h.2⟩) p.1 t' ht' hp.2.1
      · refine Keeps.pure ?_
        simp only [Each, true_and]
        have key : ∀ (is : List Val) (qs : List (Ref × List CallObj)),
            All2 (fun idx p => TakenBy W.H (p.2.map CallObj.hid) k hid idx p.1 ∧ (∃ t, RefOK W p.1 t) ∧
              Each (TakenBy W.H (p.2.map CallObj.hid)) p.1) is qs → (∀ q ∈ qs, ∀ x ∈ q.2.map CallObj.hid, x ∈ (rs.flatMap (·.2)).map CallObj.hid) →
            Eachs (TakenBy W.H ((rs.flatMap (·.2)).map CallObj.hid)) k hid is (qs.map (·.1)) := by
          intro is qs hall
          induction hall with
          | nil => intro _; simp [Eachs]
          | cons g1 g2 ih' =>
            intro hsub
            simp only [List.map_cons, Eachs]
            refine ⟨⟨⟨hsub _ (List.mem_cons_self ..) _ g1.1.1, g1.1.2⟩, ?_⟩, ih' (fun q hq => hsub q (List.mem_cons_of_mem _ hq))⟩
            obtain ⟨t', ht'⟩ := g1.2.1
            exact Each.imp (W := W) (fun _ _ _ _ _ _ h => ⟨hsub _ (List.mem_cons_self ..) _ h.1, h.2⟩) _ t' ht' g1.2.2
        have hl : (rs.map (·.1)).length = ts.length := by
          rw [List.length_map, ← hrs'.length_eq, hidx.length_eq]
        rw [hl]
        refine key _ rs hrs' (fun q hq x hx => ?_)
        obtain ⟨c, hc, rfl⟩ := List.mem_map.1 hx
        exact List.mem_map.2 ⟨c, List.mem_flatMap.2 ⟨q, hq, hc⟩, rfl⟩

theorem taken_wrapOutput (hW : W.Good) {hid : String} {v : Val} {ty : Ty} {t : TVal} (hv : ValT ty v t) (hw : t.Wf W)
    (hp : Prov W hid t) :
    Keeps (Inv W) (wrapOutput W.cfg hid v ty) (fun p => (∃ t, RefOK W p.1 t) ∧ Each (TakenBy W.H (p.2.map CallObj.hid)) p.1) SErr := by
  cases ty with
  | atom =>
    have := keeps_wrapOutput hW hv hw hp
    refine (this.and (q' := fun p => Each (TakenBy W.H (p.2.map CallObj.hid)) p.1) (e' := SErr) ?_).mono (fun p hp => ⟨⟨_, hp.1.1⟩, hp.2⟩) (fun _ h => h.1)
    unfold wrapOutput
    refine Keeps.pure ?_
    unfold wrapAtom wrapPtr wrapVal
    split <;> simp [Each]
  | unsupported => simp only [ValT] at hv
  | coll k ty =>
    unfold wrapOutput
    refine Keeps.bind (keeps_construct hW _ _ _ (valT_argT _ v t hv hw)) (fun p hp' => ?_)
    exact (taken_destruct hW _ _ t (hp'.1.withHid hp)).mono (fun q hq => ⟨hq.1, hq.2.1⟩) (fun _ h => h)

/-- A call that runs its function: the elements of its outputs are taken out by the calls recorded with it. -/
theorem taken_callInternal (hW : W.Good) {d : OpDef} (hd : OpOK W d) {args : List BArg} {ins : List In}
    (h : ArgsOK W args ins) (hn : (args.map (·.name)).Nodup)
    (hign : d.body (eraseIns (insVals ins)) = d.body (plainIns args ins)) {s s1 : St} (hs : Inv W s) {main : CallObj} {calls : List CallObj}
    (hc : callInternal W.cfg d args s = (.ok (main, calls), s1)) (hlog : s1.log ≠ s.log) :
    ∀ o ∈ main.outputs, Each (TakenBy W.H (calls.map CallObj.hid)) o.2 := by
  unfold callInternal at hc
  obtain ⟨⟨inputs, ics⟩, t1, g1, g2⟩ := bind_ok hc
  have k1 := keeps_wrapInputs hW h s hs
  rw [g1] at k1
  obtain ⟨i1, hins, hkeys, hcalls, _⟩ := k1
  have q1 := quiet_wrapInputs W.cfg args s
  rw [g1] at q1
  dsimp only at g2 hins
  obtain ⟨o, t2, g3, g4⟩ := bind_ok g2
  have k2 := keeps_lookupCall (op := d.name) (ver := d.version) (outNames := d.outNames) hW hins t1 i1
  rw [g3] at k2
  have q2 := quiet_lookupCall W.cfg d.name d.version d.outNames inputs t1
  rw [g3] at q2
  cases o with
  | some c =>
    cases g4
    exact absurd (q2.log.trans q1.log) hlog
  | none =>
    dsimp only at g4
    obtain ⟨b, t3, g5, g6⟩ := bind_ok g4
    cases g5
    split at g6
    · have hb := Keeps.mapM' (I := Inv W) (e := SErr) (f := fun (a : BArg) => do
          let v ← bodyArg W.cfg a.arg
          M.pure (a.name, v)) (R := fun (a : BArg) (p : String × Val) => p.1 = a.name ∧ ∀ t, ArgT W a.ty a.arg t → p.2 = t.erase)
        args (fun a ha => by
          obtain ⟨i, _, _, _, ht⟩ := h.mem_left ha
          exact Keeps.bind (Keeps.forall_ ⟨i.t, ht⟩ (fun t ht => keeps_bodyArg hW _ _ _ ht)) (fun v hv => Keeps.pure ⟨rfl, hv⟩)) t2 k2.1
      obtain ⟨vals, t4, g7, g8⟩ := bind_ok g6
      rw [g7] at hb
      have hvals : vals = eraseIns (insVals ins) := by
        have key : ∀ {as : List BArg} {is : List In} {vals : List (String × Val)}, ArgsOK W as is →
            All2 (fun (a : BArg) (p : String × Val) => p.1 = a.name ∧ ∀ t, ArgT W a.ty a.arg t → p.2 = t.erase) as vals →
            vals = eraseIns (insVals is) := by
          intro as is vals h1 h2
          induction h2 generalizing is with
          | nil => unfold ArgsOK at h1; simp only [All2.nil_left] at h1; subst h1; rfl
          | @cons a p as vals g1 g2 ih =>
            cases h1 with
            | cons f1 f2 =>
              rw [ih f2]
              simp only [eraseIns, insVals, List.map_cons]
              rw [f1.1, ← g1.1, ← g1.2 _ f1.2.2]
        exact key h hb.2
      subst hvals
      obtain ⟨_, t5, g9, g10⟩ := bind_ok g8
      have k5 := keeps_logExec (W := W) d.name (eraseIns (insVals ins)) t4 hb.1
      rw [g9] at k5
      obtain ⟨ret, t6, g11, g12⟩ := bind_ok g10
      have hret : d.body (eraseIns (insVals ins)) = .ok ret ∧ t6 = t5 := by
        simp only [M.lift, Prod.mk.injEq] at g11
        exact ⟨g11.1, g11.2.symm⟩
      obtain ⟨hret, rfl⟩ := hret
      obtain ⟨outs, t7, g13, g14⟩ := bind_ok g12
      have houts : parseReturns d.nout d.outNames d.ann ret = .ok outs ∧ t7 = t6 := by
        simp only [M.lift, Prod.mk.injEq] at g13
        exact ⟨g13.1, g13.2.symm⟩
      obtain ⟨houts, rfl⟩ := houts
      rw [hign] at hret
      have hwf : ∀ p ∈ canon (insVals (storedIns args ins)), p.2.Wf W := fun p hp => h.stored.wf p (mem_canon.1 hp)
      obtain ⟨touts, hto⟩ := hd.conforms _ ret outs hwf hret houts
      have hsem : Sem W d.name d.version (canon (insVals (storedIns args ins))) touts := Sem.user hd.mem hret houts hto
      have hnd : (Dict.keys inputs).Nodup := by
        rw [hkeys]
        exact ((List.filter_sublist).map _).nodup hn
      have hcs : CallSem W d.name (callId W.H d.name d.version (insHids (storedIns args ins)))
          (callId W.H d.name d.version (insCids W (storedIns args ins))) (canon (insVals (storedIns args ins))) touts :=
        ⟨_, _, hins.prov, rfl, rfl, rfl, (insVals_nodup_iff hins).2 hnd, hsem⟩
      have hkeysT : Dict.keys touts = outs.map (·.1) := by
        clear hcs hsem houts g14 g12 g10 g13
        induction hto with
        | nil => rfl
        | cons h1 _ ih =>
          simp only [Dict.keys, List.map_cons] at ih ⊢
          rw [ih, h1.1]
      have hndT : (Dict.keys touts).Nodup := by
        obtain ⟨vs, hvs, hsh⟩ := parseReturns_shape houts
        have hno := hd.names _ ret vs hret hvs
        have := congrArg (List.map Prod.fst) (hsh hno)
        rw [List.map_map] at this
        rw [hkeysT]
        have e2 : (outNamesOf d.outNames vs.length).length ≤ vs.length := by simp [outNamesOf]
        rw [List.map_fst_zip e2] at this
        have e3 : (Prod.fst ∘ fun p : String × Val × Ty => (p.1, p.2.1)) = fun p => p.1 := by funext p; rfl
        rw [e3] at this
        rw [this]
        exact outNamesOf_nodup hno
      obtain ⟨wr, t8, g15, g16⟩ := bind_ok g14
      cases g16
      rw [hins.hids] at g15
      have hwr := Keeps.mapM' (I := Inv W) (e := SErr) (f := fun (p : String × Val × Ty) => do
          let (r, cs) ← wrapOutput W.cfg (outHid W.H (callId W.H d.name d.version (insHids (storedIns args ins))) p.1) p.2.1 p.2.2
          M.pure (p.1, r, cs))
        (R := fun _ q => (∃ t, RefOK W q.2.1 t) ∧ Each (TakenBy W.H (q.2.2.map CallObj.hid)) q.2.1) outs (fun p hp => by
          obtain ⟨q, hq, hn, hv, hw⟩ := hto.mem_left hp
          have hg : Dict.get? touts p.1 = some q.2 := (Dict.get?_eq_some_iff hndT).2 (by rw [hn]; exact hq)
          exact Keeps.bind (taken_wrapOutput hW hv hw (callSem_prov hcs hg)) (fun x hx => Keeps.pure hx)) t7 k5.1
      rw [show W.cfg.H = W.H from rfl] at g15
      rw [g15] at hwr
      intro o ho
      obtain ⟨q, hq, rfl⟩ := List.mem_map.1 ho
      obtain ⟨_, _, ⟨t, ht⟩, h2⟩ := hwr.2.mem_right hq
      refine Each.imp (W := W) (fun _ _ _ _ _ _ h => ⟨?_, h.2⟩) _ t ht h2
      obtain ⟨c, hc, hce⟩ := List.mem_map.1 h.1
      exact List.mem_map.2 ⟨c, List.mem_append_right _ (List.mem_flatMap.2 ⟨q, hq, hc⟩), hce⟩
    · cases g6

theorem sem_getitem_outs {k : Kind} {ver : Int} {ins outs : List (String × TVal)} {n : String} (hW : W.Good) (h : Sem W n ver ins outs) (hn : n = getitemName k) :
    ∃ t, outs = [(getitemOut k, t)] := by
  cases h with
  | user hd _ _ _ => exact absurd (hn ▸ getitemName_structural k) (hW.user _ hd)
  | make _ => exact absurd hn (builder_ne_getitem _ _)
  | @getitem k' _ _ _ t _ => rw [getitemName_inj hn]; exact ⟨t, rfl⟩

/-- A recorded element access has all its rows. -/
theorem access_rows (hW : W.Good) {rows : List Row} (hT : TableOK W rows) {k : Kind} {h : String} {i : Val} {e : Ref} {t : TVal} (he : RefOK W e t)
    (hh : e.hid = outHid W.H (accessId W.H k h i) (getitemOut k)) {r : Row} (hr : r ∈ rows) (hrh : r.callHid = accessId W.H k h i) :
    AccessRow W.H rows k h i e := by
  have hop : ∀ r ∈ rows, r.callHid = accessId W.H k h i → r.op = getitemName k ∧
      ∃ cins t, CallSem W r.op r.callHid r.callCid cins [(getitemOut k, t)] := by
    intro r hr hrh
    obtain ⟨cins, outs, ⟨ver, ins, h1, h2, h3, h4, h5, h6⟩, _⟩ := hT r hr
    rw [hrh] at h2
    have ho := (callId_inj hW h2).1
    obtain ⟨t, ht⟩ := sem_getitem_outs (k := k) hW h6 ho.symm
    subst ht
    exact ⟨ho.symm, cins, t, ver, ins, h1, by rw [hrh]; exact h2, h3, h4, h5, h6⟩
  have hnotout : ∀ r ∈ rows, r.callHid = accessId W.H k h i → r.dir = .out → r.name = getitemOut k := by
    intro r hr hrh hd
    obtain ⟨cins, outs, hs, _, hout, _⟩ := hT r hr
    obtain ⟨_, _, _, hs'⟩ := hop r hr hrh
    obtain ⟨_, _, _, rfl⟩ := callSem_functional hW hs hs'
    obtain ⟨t, ht, _⟩ := hout hd
    have := Dict.mem_of_get? ht
    simp only [List.mem_singleton, Prod.mk.injEq] at this
    exact this.1
  obtain ⟨ver, ids, g1, g2, _, _, g5⟩ := hT.recordTrue hW hr
  have hids : canon ids = canon [(getitemArg k, h), (getitemIdx k, rawHid W.H i)] := by
    rw [hrh] at g1
    exact (callId_inj hW g1).2.2.symm
  have hin : ∀ p ∈ [(getitemArg k, h), (getitemIdx k, rawHid W.H i)], p.1 ≠ getitemOut k →
      ∃ r ∈ rows, r.callHid = accessId W.H k h i ∧ r.dir = .in_ ∧ r.name = p.1 ∧ r.refHid = p.2 := by
    intro p hp hne
    rw [← mem_canon, ← hids, mem_canon] at hp
    obtain ⟨r', hr', a1, a2, a3⟩ := g5 p hp
    rw [hrh] at a1
    rcases a3 with a3 | ⟨a3, a4⟩
    · exact absurd (a2 ▸ hnotout r' hr' a1 a3) hne
    · exact ⟨r', hr', a1, a3, a2, a4⟩
  refine ⟨?_, hin (getitemArg k, h) (by simp) (by cases k <;> (dsimp only; decide)), hin (getitemIdx k, rawHid W.H i) (by simp) (by cases k <;> (dsimp only; decide))⟩
  obtain ⟨_, outs, hs, _, _, hall, _⟩ := hT r hr
  obtain ⟨_, _, t', hs'⟩ := hop r hr hrh
  obtain ⟨_, _, _, rfl⟩ := callSem_functional hW hs hs'
  obtain ⟨r', hr', a1, a2, a3⟩ := hall (getitemOut k) (by simp [Dict.keys])
  rw [hrh] at a1
  obtain ⟨_, _, _, ⟨t2, b1, b2, _⟩, b3, _⟩ := hT r' hr'
  obtain ⟨_, _, b4⟩ := b3 a3
  have href : r'.refHid = e.hid := by rw [b4, a1, a2, hh]
  refine ⟨r', hr', (hop r' hr' a1).1, a1, a3, a2, href, ?_⟩
  rw [href] at b1
  rw [b2, b1.det hW he.prov, he.cid]

theorem AccessRow.mono {H : Val → String} {rows rows' : List Row} (hsub : ∀ r ∈ rows, r ∈ rows') {k : Kind} {h : String} {i : Val} {e : Ref}
    (ha : AccessRow H rows k h i e) : AccessRow H rows' k h i e := by
  obtain ⟨⟨a, a1, a2⟩, ⟨b, b1, b2⟩, c, c1, c2⟩ := ha
  exact ⟨⟨a, hsub a a1, a2⟩, ⟨b, hsub b b1, b2⟩, c, hsub c c1, c2⟩

/-- So has one that is known to the storage. -/
theorem access_known (hW : W.Good) {s : St} (hi : Inv W s) (hf : MemFull W s.calls.cache) {k : Kind} {h : String} {i : Val} {e : Ref} {t : TVal} (he : RefOK W e t)
    (hh : e.hid = outHid W.H (accessId W.H k h i) (getitemOut k)) (hex : s.calls.exists_ (accessId W.H k h i) = true) : AccessRow W.H s.rows k h i e := by
  rcases exists_iff.1 hex with h1 | h1
  · rcases hf _ (by simpa [InMem.exists_] using h1) with ⟨r, hr, hrh⟩ | ⟨op, cid, ver, ins, _, h2, _, _, _, h6⟩
    · exact (access_rows hW hi.cache.1 he hh hr hrh).mono fun r hr => List.mem_append_left _ hr
    · obtain ⟨t, ht⟩ := sem_getitem_outs (k := k) hW h6 (callId_inj hW h2).1.symm
      cases ht
  · simp only [sqlExists, List.any_eq_true, decide_eq_true_eq] at h1
    obtain ⟨r, hr, hrh⟩ := h1
    exact (access_rows hW hi.pers he hh hr hrh).mono fun r hr => List.mem_append_right _ hr

theorem saveCall_keeps_exists {c : CallObj} {s s' : St} {x : Except Err Unit} (h : saveCall c s = (x, s')) {k : String} (hk : s.calls.exists_ k = true) : s'.calls.exists_ k = true := by
  have hp : Pres (fun s s' => ∀ k, s.calls.exists_ k = true → s'.calls.exists_ k = true) (saveCall c) := by
    have ord : PreOrd (fun s s' : St => ∀ k, s.calls.exists_ k = true → s'.calls.exists_ k = true) := ⟨fun _ _ h => h, fun h1 h2 k h => h2 k (h1 k h)⟩
    have q : ∀ {α : Type} {m : M α}, Pres Quiet m → Pres (fun s s' => ∀ k, s.calls.exists_ k = true → s'.calls.exists_ k = true) m :=
      fun h => h.mono fun _ _ h k hk => by rw [h.calls]; exact hk
    unfold saveCall
    refine Pres.bind ord (Pres.read ord _) (fun _ => Pres.ite (fun _ => Pres.pure ord _) (fun _ => ?_))
    refine Pres.bind ord (Pres.bind ord (Pres.read ord _) (fun _ => Pres.ite (fun _ => Pres.pure ord _) (fun _ => q (quiet_opsSet _)))) (fun _ => ?_)
    refine Pres.bind ord (q (quiet_saveRefs _)) (fun _ s k hk => ?_)
    rw [exists_iff] at hk ⊢
    refine hk.imp (fun hk => ?_) id
    simp only [CachedCalls.save, InMem.exists_save]
    exact .inl hk
  have := hp s k hk
  rw [h] at this
  exact this

theorem saveCalls_exist : ∀ {cs : List CallObj} {s s' : St}, M.forM' saveCall cs s = (.ok (), s') → ∀ c ∈ cs, s'.calls.exists_ c.hid = true := by
  have keep : ∀ (cs : List CallObj) {s s' : St}, M.forM' saveCall cs s = (.ok (), s') → ∀ k, s.calls.exists_ k = true → s'.calls.exists_ k = true := by
    intro cs
    induction cs with
    | nil => intro s s' h k hk; cases h; exact hk
    | cons c cs ih =>
      intro s s' h k hk
      unfold M.forM' at h
      obtain ⟨_, s1, f1, f2⟩ := bind_ok h
      exact ih f2 k (saveCall_keeps_exists f1 hk)
  intro cs
  induction cs with
  | nil => intro _ _ _ c hc; cases hc
  | cons c cs ih =>
    intro s s' h x hx
    unfold M.forM' at h
    obtain ⟨_, s1, f1, f2⟩ := bind_ok h
    rcases List.mem_cons.1 hx with rfl | hx
    · exact keep cs f2 _ (saveCall_exists f1)
    · exact ih f2 x hx

/-- The elements of the collections returned by a call that executed its function are outputs of recorded element accesses. -/
theorem elements_call (hW : W.Good) {d : OpDef} (hd : OpOK W d) {args : List BArg} {ins : List In}
    (h : ArgsOK W args ins) (hn : (args.map (·.name)).Nodup)
    (hign : d.body (eraseIns (insVals ins)) = d.body (plainIns args ins)) {s s' : St} (hs : Inv W s) {rs : List Ref}
    (hcall : call W.cfg d args s = (.ok rs, s')) (hlog : s'.log ≠ s.log) (hi' : Inv W s') (hf' : MemFull W s'.calls.cache)
    (hrok : ∀ r ∈ rs, ∃ t, RefOK W r t) :
    ∀ r ∈ rs, Each (AccessRow W.H s'.rows) r := by
  unfold call at hcall
  obtain ⟨⟨main, calls⟩, s1, h1, h2⟩ := bind_ok hcall
  obtain ⟨_, s2, h3, h4⟩ := bind_ok h2
  obtain ⟨_, s3, h5, h6⟩ := bind_ok h4
  have hl2 : s2.log = s1.log := by
    have := log_saveCall main s1
    rw [h3] at this
    exact this
  have hl3 : s3.log = s2.log := by
    have := Pres.forM' SameLog.ord (f := saveCall) calls (fun c _ => log_saveCall c) s2
    rw [h5] at this
    exact this
  cases ho : orderedOutputs d.outNames main.outputs with
  | error e => rw [ho] at h6; cases h6
  | ok rs' =>
    rw [ho] at h6
    cases h6
    have ht := taken_callInternal hW hd h hn hign hs h1 (by rw [hl3, hl2] at hlog; exact hlog)
    have hex := saveCalls_exist h5
    intro r hr
    obtain ⟨n, hno⟩ := orderedOutputs_mem ho r hr
    obtain ⟨t, hrt⟩ := hrok r hr
    refine Each.imp (W := W) (fun k hh i e t het htk => ?_) r t hrt (ht _ hno)
    obtain ⟨c, hc, hce⟩ := List.mem_map.1 htk.1
    exact access_known hW hi' hf' het htk.2 (hce ▸ hex c hc)

end Verif
