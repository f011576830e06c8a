import Verif.Proofs.StorageFuns
/-!
Wrapping arguments and outputs, `call_internal`, `call`: what they return is what the plain function returns.
-/
namespace Verif

variable {W : World}

theorem Keeps.forall_ {α β : Type} {I : St → Prop} {m : M α} {S : β → Prop} {q : β → α → Prop} {e : Err → Prop}
    (hne : ∃ t, S t) (h : ∀ t, S t → Keeps I m (q t) e) : Keeps I m (fun a => ∀ t, S t → q t a) e := by
  intro s hs
  obtain ⟨t0, h0⟩ := hne
  have h1 := h t0 h0 s hs
  cases hm : m s with
  | mk x s' =>
    rw [hm] at h1
    cases x with
    | ok a =>
      refine ⟨h1.1, fun t ht => ?_⟩
      have := h t ht s hs
      rw [hm] at this
      exact this.2
    | error er => exact h1

/-! ### inputs of structural calls -/

/-- names, refs and values put together -/
def mkIns : List String → List Ref → List TVal → List In
  | n :: ns, r :: rs, t :: ts => ⟨n, r.hid, t⟩ :: mkIns ns rs ts
  | _, _, _ => []

theorem mkIns_ok : ∀ {names : List String} {rs : List Ref} {ts : List TVal}, All2 (RefOK W) rs ts →
    names.length = rs.length → InsOK W (names.zip rs) (mkIns names rs ts) ∧
      insVals (mkIns names rs ts) = names.zip ts ∧ insHids (mkIns names rs ts) = names.zip (rs.map Ref.hid)
  | [], [], ts, h, _ => by
    simp only [All2.nil_left] at h; subst h
    exact ⟨.nil, rfl, rfl⟩
  | [], _ :: _, _, _, hl => by simp at hl
  | _ :: _, [], _, _, hl => by simp at hl
  | n :: ns, r :: rs, ts, h, hl => by
    cases h with
    | @cons _ t _ ts h1 h2 =>
      obtain ⟨ih1, ih2, ih3⟩ := mkIns_ok (names := ns) h2 (by simpa using hl)
      simp only [mkIns, List.zip_cons_cons, List.map_cons, insVals, insHids] at ih2 ih3 ⊢
      exact ⟨.cons ⟨rfl, rfl, h1⟩ ih1, by rw [ih2], by rw [ih3]⟩

theorem argItems_plain {k : Kind} {a : Arg} {keys : List String} {items : List Arg}
    (h : plainItems k a = some (keys, items)) : argItems k a = .ok (keys, items) := by
  unfold plainItems at h
  split at h <;> simp only [Option.some.injEq, Prod.mk.injEq, reduceCtorEq] at h
  all_goals obtain ⟨rfl, rfl⟩ := h; rfl

/-- A wrapped argument. -/
def WrapOK (W : World) (ty : Ty) (a : Arg) (t : TVal) (p : Ref × List CallObj) : Prop :=
  RefOK W p.1 t ∧ p.1.hid = argHid W.H ty a ∧ (∀ c ∈ p.2, CallOK W c) ∧
    p.2.map CallObj.hid = structHids W.H ty a

theorem wrapVal_ok {v : Val} (hw : (TVal.atom v).Wf W) : RefOK W (wrapAtom W.cfg v none) (.atom v) ∧
    (wrapAtom W.cfg v none).hid = rawHid W.H v := by
  have hnp : wrapAtom W.cfg v none = .atom (W.H v) (rawHid W.H v) (some v) := by
    cases v <;> try rfl
    simp only [TVal.Wf] at hw
    exact absurd rfl (hw.1 _)
  rw [hnp]
  simp only [RefOK, Ref.hid]
  exact ⟨⟨Prov.raw hw, v, rfl, rfl, .inr rfl⟩, trivial⟩

theorem argHid_coll {k : Kind} {ty : Ty} {a : Arg} (ha : ∀ r, a ≠ .ref r) {keys : List String} {items : List Arg}
    (hi : plainItems k a = some (keys, items)) : argHid W.H (.coll k ty) a =
      outHid W.H (callId W.H (builderName k) 0 ((structNames k keys items.length).zip (items.map (argHid W.H ty))))
          (builderOut k) := by
  cases a with
  | ref r => exact absurd rfl (ha r)
  | _ => simp only [argHid, hi]

theorem structHids_coll {k : Kind} {ty : Ty} {a : Arg} (ha : ∀ r, a ≠ .ref r) {keys : List String} {items : List Arg}
    (hi : plainItems k a = some (keys, items)) : structHids W.H (.coll k ty) a = items.flatMap (structHids W.H ty) ++
      [callId W.H (builderName k) 0 ((structNames k keys items.length).zip (items.map (argHid W.H ty)))] := by
  cases a with
  | ref r => exact absurd rfl (ha r)
  | _ => simp only [structHids, hi]

theorem keeps_construct (hW : W.Good) : ∀ (ty : Ty) (a : Arg) (t : TVal), ArgT W ty a t →
    Keeps (Inv W) (construct W.cfg ty a) (WrapOK W ty a t) SErr := by
  intro ty
  induction ty with
  | atom =>
    intro a t h
    cases a <;> simp only [ArgT] at h
    · unfold construct; exact Keeps.pure ⟨h, rfl, by simp, rfl⟩
    · unfold construct
      obtain ⟨rfl, hw⟩ := h
      obtain ⟨h1, h2⟩ := wrapVal_ok hw
      exact Keeps.pure ⟨h1, h2, by simp, rfl⟩
  | unsupported =>
    intro a t h
    cases a <;> simp only [ArgT] at h
    unfold construct; exact Keeps.pure ⟨h, rfl, by simp, rfl⟩
  | coll k ty ih =>
    intro a t h
    by_cases har : ∃ r, a = .ref r
    · obtain ⟨r, rfl⟩ := har
      simp only [ArgT] at h
      unfold construct; exact Keeps.pure ⟨h, rfl, by simp, rfl⟩
    have har' : ∀ r, a ≠ .ref r := fun r hr => har ⟨r, hr⟩
    have h' : ∃ keys items ts, plainItems k a = some (keys, items) ∧ t = .coll k keys ts ∧ t.Wf W ∧
        All2 (ArgT W ty) items ts := by
      cases a with
      | ref r => exact absurd rfl (har' r)
      | _ => simpa only [ArgT] using h
    obtain ⟨keys, items, ts, hi, rfl, hw, hall⟩ := h'
    have hitems : construct W.cfg (.coll k ty) a = (do
        let (keys, items) ← M.lift (argItems k a)
        let rs ← M.mapM' (construct W.cfg ty) items
        let refs := rs.map (·.1)
        let main ← structCall W.cfg (builderName k) (builderOut k) ((structNames k keys refs.length).zip refs)
          (.ok (makeColl W.cfg k keys refs))
        match main.outputs with
        | [] => M.raise .indexError
        | (_, out) :: _ => M.pure (out, rs.flatMap (·.2) ++ [main])) := by
      cases a with
      | ref r => exact absurd rfl (har' r)
      | _ => rw [construct]; · rfl
             · intro r hr; cases hr
    rw [hitems, argItems_plain hi]
    refine Keeps.bind (q := fun p => p = (keys, items)) (Keeps.lift (fun p hp => by cases hp; rfl) (fun e he => by cases he))
      (fun p hp => ?_)
    subst hp
    refine Keeps.bind (q := All2 (fun x p => ∀ t, ArgT W ty x t → WrapOK W ty x t p) items)
      (Keeps.mapM' items (fun x hx => ?_)) (fun rs hrs => ?_)
    · obtain ⟨tx, _, htx⟩ := hall.mem_left hx
      exact Keeps.forall_ ⟨tx, htx⟩ (fun t ht => ih x t ht)
    have hrefs : All2 (RefOK W) (rs.map (·.1)) ts ∧ rs.map (fun p => p.1.hid) = items.map (argHid W.H ty) ∧
        (∀ c ∈ rs.flatMap (·.2), CallOK W c) ∧ (rs.flatMap (·.2)).map CallObj.hid = items.flatMap (structHids W.H ty) := by
      clear hitems hw hi h
      induction hrs generalizing ts with
      | nil => simp only [All2.nil_left] at hall; subst hall; exact ⟨.nil, rfl, by simp, rfl⟩
      | cons h1 h2 ih' =>
        cases hall with
        | cons g1 g2 =>
          obtain ⟨a1, a2, a3, a4⟩ := h1 _ g1
          obtain ⟨b1, b2, b3, b4⟩ := ih' _ g2
          refine ⟨.cons a1 b1, by simp only [List.map_cons]; rw [a2, b2], ?_,
            by simp only [List.flatMap_cons, List.map_append]; rw [a4, b4]⟩
          intro c hc
          simp only [List.flatMap_cons, List.mem_append] at hc
          rcases hc with hc | hc
          · exact a3 c hc
          · exact b3 c hc
    obtain ⟨hrefs, hhids, hcalls, hstruct⟩ := hrefs
    have hwf := hw
    simp only [TVal.Wf] at hw
    obtain ⟨hk, hemp, hwfs⟩ := hw
    have hlen : (rs.map (·.1)).length = ts.length := hrefs.length_eq
    have hk' : KeysOK k keys (rs.map (·.1)).length := by rw [hlen]; exact hk
    obtain ⟨hins, hvals, hhid⟩ := mkIns_ok (names := structNames k keys (rs.map (·.1)).length) hrefs (structNames_length hk')
    refine Keeps.bind (keeps_structCall hW (t := .coll k keys ts) hins ?_ ?_ ?_ (fun e he => by cases he)) (fun main hmain => ?_)
    · rw [zip_keys (structNames_length hk')]
      exact structNames_nodup hk'
    · rw [hvals, hlen]
      exact Sem.make hwf
    · intro r hr h hp
      cases hr
      simp only [makeColl, Ref.withHid, RefOK]
      refine ⟨hp, keys, ts, rfl, ?_, fun _ => ⟨rfl, refsOK_iff.2 hrefs⟩⟩
      have hcids : ∀ {rs : List Ref} {ts : List TVal}, All2 (RefOK W) rs ts → rs.map Ref.cid = TVal.cids W.H ts := by
        intro rs ts h
        induction h with
        | nil => rfl
        | cons h1 _ ih => simp only [List.map_cons, TVal.cids, h1.cid, ih]
      simp only [TVal.cid, hcids hrefs]
    · obtain ⟨hok, hmh, r, hout, hrh, hr⟩ := hmain
      rw [hout]
      refine Keeps.pure ⟨hr, ?_, ?_, ?_⟩
      · rw [hrh, argHid_coll har' hi, hhid]
        have : items.length = (rs.map (·.1)).length := by rw [List.length_map]; exact hrs.length_eq
        rw [this, ← hhids, List.map_map]
        rfl
      · intro c hc
        simp only [List.mem_append, List.mem_singleton] at hc
        rcases hc with hc | rfl
        · exact hcalls c hc
        · exact hok
      · rw [structHids_coll har' hi, List.map_append, hstruct]
        simp only [List.map_cons, List.map_nil]
        rw [hmh, hhid]
        have : items.length = (rs.map (·.1)).length := by rw [List.length_map]; exact hrs.length_eq
        rw [this, ← hhids, List.map_map]
        rfl

theorem getItem_err {k : Kind} {keys : List String} {elts : List Ref} {idx : Val} {e : Err}
    (h : getItem k keys elts idx = .error e) : SErr e := by
  unfold getItem at h
  split at h
  · split at h <;> cases h; trivial
  · split at h <;> cases h; trivial
  · cases h; trivial

theorem get?_zip_rel {α β : Type} {R : α → β → Prop} {n : String} {a : α} : ∀ {keys : List String} {as : List α} {bs : List β},
    All2 R as bs → Dict.get? (keys.zip as) n = some a → ∃ b, Dict.get? (keys.zip bs) n = some b ∧ R a b
  | [], as, bs, _, h => by simp at h
  | _ :: _, [], bs, _, h => by simp at h
  | k :: keys, a' :: as, bs, hr, h => by
    cases hr with
    | cons h1 h2 =>
      simp only [List.zip_cons_cons, Dict.get?_cons] at h ⊢
      split at h
      · cases h; rw [if_pos ‹_›]; exact ⟨_, rfl, h1⟩
      · rw [if_neg ‹_›]; exact get?_zip_rel h2 h

theorem getItem_ok {k : Kind} {keys : List String} {elts : List Ref} {ts : List TVal} {idx : Val} {r : Ref} {t : TVal}
    (hr : All2 (RefOK W) elts ts) (hg : getItem k keys elts idx = .ok r) (ht : eltAt k keys ts idx = some t) : RefOK W r t := by
  cases k <;> cases idx <;> simp only [getItem, eltAt, reduceCtorEq] at hg ht
  · split at hg
    · cases hg
      obtain ⟨t', ht', h⟩ := hr.get? _ ‹_›
      rw [ht] at ht'; cases ht'; exact h
    · cases hg
  · split at hg
    · cases hg
      obtain ⟨t', ht', h⟩ := get?_zip_rel hr ‹_›
      rw [ht] at ht'; cases ht'; exact h
    · cases hg

/-- The indices address the elements in order. -/
theorem idxVals_elts {k : Kind} {keys : List String} {ts : List TVal} (hk : KeysOK k keys ts.length) :
    All2 (fun idx t => eltAt k keys ts idx = some t ∧ (TVal.atom idx).Wf W) (idxVals k keys ts.length) ts := by
  have hwfi : ∀ i : Int, (TVal.atom (.int i)).Wf W := by
    intro i
    simp only [TVal.Wf]
    refine ⟨by simp, ?_, by simp⟩
    rintro ⟨xs, h, _⟩; cases h
  have hwfs : ∀ s : String, (TVal.atom (.str s)).Wf W := by
    intro i
    simp only [TVal.Wf]
    refine ⟨by simp, ?_, by simp⟩
    rintro ⟨xs, h, _⟩; cases h
  have aux : ∀ {α β : Type} {R : α → β → Prop} {as : List α} {bs : List β}, as.length = bs.length →
      (∀ (i : Nat) a b, as[i]? = some a → bs[i]? = some b → R a b) → All2 R as bs := by
    intro α β R as
    induction as with
    | nil => intro bs h _; cases bs with
      | nil => exact .nil
      | cons _ _ => simp at h
    | cons a as ih => intro bs h hr; cases bs with
      | nil => simp at h
      | cons b bs =>
        exact .cons (hr 0 a b rfl rfl) (ih (by simpa using h) (fun i x y hx hy => hr (i + 1) x y (by simpa using hx) (by simpa using hy)))
  cases k with
  | list =>
    simp only [idxVals, All2.map_left]
    refine aux (by simp) (fun i a b ha hb => ?_)
    simp only [eltAt]
    have : a = i := by
      rw [List.getElem?_range] at ha
      · exact (Option.some.inj ha).symm
      · have := (List.getElem?_eq_some_iff.1 hb).1; exact this
    subst this
    exact ⟨by simpa using hb, hwfi _⟩
  | dict =>
    simp only [idxVals, All2.map_left]
    refine aux hk.1 (fun i a b ha hb => ?_)
    simp only [eltAt]
    refine ⟨?_, hwfs _⟩
    have := congrArg (fun l => l[i]?) (map_get?_zip hk.2.2 hk.1)
    simp only [List.getElem?_map, ha, hb, Option.map_some] at this
    exact Option.some.inj this

theorem keeps_destruct (hW : W.Good) : ∀ (ty : Ty) (r : Ref) (t : TVal), RefOK W r t →
    Keeps (Inv W) (destruct W.cfg ty r) (fun p => RefOK W p.1 t ∧ p.1.hid = r.hid ∧ ∀ c ∈ p.2, CallOK W c) SErr := by
  intro ty
  induction ty with
  | atom =>
    intro r t h
    cases r <;> unfold destruct
    · exact Keeps.pure ⟨h, rfl, by simp⟩
    · exact Keeps.raise trivial
  | unsupported =>
    intro r t h
    cases r <;> unfold destruct
    · exact Keeps.pure ⟨h, rfl, by simp⟩
    · exact Keeps.raise trivial
  | coll k ty ih =>
    intro r t h
    cases r with
    | atom c h' o => unfold destruct; exact Keeps.pure ⟨h, rfl, by simp⟩
    | coll k' c hid inMem keys elts =>
      unfold destruct
      refine Keeps.ite (fun hkk => ?_) (fun _ => Keeps.raise trivial)
      subst hkk
      refine Keeps.ite (fun hm => ?_) (fun _ => Keeps.raise (serr_iterErr _))
      have h0 := h
      simp only [RefOK] at h
      obtain ⟨hp, keys', ts, rfl, hc, hin⟩ := h
      obtain ⟨rfl, hrs⟩ := hin hm
      rw [refsOK_iff] at hrs
      have hwf := hp.wf
      simp only [TVal.Wf] at hwf
      obtain ⟨hk, _, _⟩ := hwf
      have hidx := idxVals_elts (W := W) hk
      have hlen : elts.length = ts.length := hrs.length_eq
      rw [hlen]
      refine Keeps.bind (q := All2 (fun idx p => ∀ t, (eltAt k keys ts idx = some t ∧ (TVal.atom idx).Wf W) →
          RefOK W p.1 t ∧ ∀ c ∈ p.2, CallOK W c) (idxVals k keys ts.length)) (Keeps.mapM' _ (fun idx hmem => ?_)) (fun rs hrs' => ?_)
      · obtain ⟨t0, _, ht0⟩ := hidx.mem_left hmem
        refine Keeps.forall_ ⟨t0, ht0⟩ (fun t ht => ?_)
        obtain ⟨w1, w2⟩ := wrapVal_ok ht.2
        have hins : InsOK W [(getitemArg k, .coll k c hid inMem keys elts), (getitemIdx k, wrapAtom W.cfg idx none)]
            [⟨getitemArg k, hid, .coll k keys ts⟩, ⟨getitemIdx k, rawHid W.H idx, .atom idx⟩] :=
          .cons ⟨rfl, rfl, h0⟩ (.cons ⟨rfl, w2, w1⟩ .nil)
        refine Keeps.bind (keeps_structCall hW (t := t) hins ?_ (Sem.getitem ht.1) ?_ (fun e he => getItem_err he)) (fun call hcall => ?_)
        · simp [Dict.keys, getitem_names]
        · intro r hr h hp
          exact (getItem_ok hrs hr ht.1).withHid hp
        · obtain ⟨hok, _, r, hout, hrh, hr⟩ := hcall
          rw [hout]
          simp only [Dict.get?_cons, if_true]
          refine Keeps.bind (ih r t hr) (fun p hp => Keeps.pure ⟨hp.1, fun c hc => ?_⟩)
          simp only [List.mem_cons] at hc
          rcases hc with rfl | hc
          · exact hok
          · exact hp.2.2 c hc
      · refine Keeps.pure ?_
        have : All2 (RefOK W) (rs.map (·.1)) ts ∧ ∀ c ∈ rs.flatMap (·.2), CallOK W c := by
          clear h0 hc hp hin hrs hlen
          generalize hl : idxVals k keys ts.length = l at hidx hrs'
          have : ∀ (l : List Val) (us : List TVal) (rs : List (Ref × List CallObj)),
              All2 (fun idx t => eltAt k keys ts idx = some t ∧ (TVal.atom idx).Wf W) l us →
              All2 (fun idx p => ∀ t, (eltAt k keys ts idx = some t ∧ (TVal.atom idx).Wf W) →
                RefOK W p.1 t ∧ ∀ c ∈ p.2, CallOK W c) l rs →
              All2 (RefOK W) (rs.map (·.1)) us ∧ ∀ c ∈ rs.flatMap (·.2), CallOK W c := by
            intro l us rs h1 h2
            induction h2 generalizing us with
            | nil => simp only [All2.nil_left] at h1; subst h1; exact ⟨.nil, by simp⟩
            | cons g1 g2 ih' =>
              cases h1 with
              | cons f1 f2 =>
                obtain ⟨a1, a2⟩ := g1 _ f1
                obtain ⟨b1, b2⟩ := ih' _ f2
                refine ⟨.cons a1 b1, ?_⟩
                intro c hc
                simp only [List.flatMap_cons, List.mem_append] at hc
                rcases hc with hc | hc
                · exact a2 c hc
                · exact b2 c hc
          exact this l ts rs hidx hrs'
        refine ⟨?_, rfl, this.2⟩
        simp only [RefOK]
        exact ⟨hp, keys, ts, rfl, hc, fun _ => ⟨rfl, refsOK_iff.2 this.1⟩⟩

theorem valT_argT : ∀ (ty : Ty) (v : Val) (t : TVal), ValT ty v t → t.Wf W → ArgT W ty (.val v) t
  | .atom, v, t, h, hw => by simp only [ValT] at h; simp only [ArgT]; exact ⟨h, hw⟩
  | .unsupported, v, t, h, hw => by simp only [ValT] at h
  | .coll k ty, v, t, h, hw => by
    simp only [ValT] at h
    obtain ⟨keys, vs, ts, rfl, rfl, hk, hall⟩ := h
    simp only [ArgT]
    have hw' := hw
    simp only [TVal.Wf] at hw'
    have hall' : All2 (ArgT W ty) (vs.map .val) ts := by
      rw [All2.map_left]
      exact hall.imp_mem (fun a _ b hb hab => valT_argT ty a b hab ((TVal.wfs_iff _).1 hw'.2.2 b hb))
    cases k with
    | list =>
      simp only [KeysOK] at hk
      subst hk
      exact ⟨[], _, ts, rfl, rfl, hw, hall'⟩
    | dict => exact ⟨keys, _, ts, rfl, rfl, hw, hall'⟩

theorem keeps_wrapOutput (hW : W.Good) {hid : String} {v : Val} {ty : Ty} {t : TVal} (hv : ValT ty v t) (hw : t.Wf W)
    (hp : Prov W hid t) :
    Keeps (Inv W) (wrapOutput W.cfg hid v ty) (fun p => RefOK W p.1 t ∧ p.1.hid = hid ∧ ∀ c ∈ p.2, CallOK W c) SErr := by
  cases ty with
  | atom =>
    simp only [ValT] at hv
    subst hv
    unfold wrapOutput
    have hnp : wrapAtom W.cfg v (some hid) = .atom (W.H v) hid (some v) := by
      cases v <;> try rfl
      simp only [TVal.Wf] at hw
      exact absurd rfl (hw.1 _)
    rw [hnp]
    refine Keeps.pure ⟨?_, rfl, by simp⟩
    simp only [RefOK]
    exact ⟨hp, v, rfl, rfl, .inr rfl⟩
  | unsupported => simp only [ValT] at hv
  | coll k ty =>
    unfold wrapOutput
    refine Keeps.bind (keeps_construct hW _ _ _ (valT_argT _ v t hv hw)) (fun p hp' => ?_)
    exact (keeps_destruct hW _ _ t (hp'.1.withHid hp)).mono (fun q hq => ⟨hq.1, by simpa using hq.2.1, hq.2.2⟩) (fun _ h => h)

end Verif
