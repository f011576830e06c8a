import Verif.Proofs.StorageTables
/-!
Every function of the storage keeps the invariant and returns true things.
-/
namespace Verif

variable {W : World}

/-- An exception raised by the storage itself (not by a user function, and not a case outside the model). -/
def SErr : Err → Prop
  | .userError _ => False
  | .unmodelled => False
  | _ => True

theorem serr_noneErr (k : Kind) : SErr (noneErr k) := by cases k <;> trivial
theorem serr_iterErr (k : Kind) : SErr (iterErr k) := by cases k <;> trivial

theorem CachedDict.get_err {V : Type} {d : CachedDict V} {k : String} {e : Err} (h : (d.get k).1 = .error e) : SErr e := by
  unfold CachedDict.get at h
  split at h
  · cases h
  · split at h
    · cases h
    · rename_i e' he
      cases h
      unfold SqlDict.get at he
      split at he
      · split at he
        · simp only [Joblib.get] at he
          split at he
          · cases he
          · cases he; exact trivial
        · cases he; exact trivial
      · cases he

theorem CachedDict.drop_err {V : Type} {d : CachedDict V} {k : String} {e : Err} (h : (d.drop k).1 = .error e) : SErr e := by
  unfold CachedDict.drop at h
  dsimp only at h
  split at h
  · cases h
  · rename_i e' he
    cases h
    unfold SqlDict.drop at he
    dsimp only at he
    split at he
    · cases he
    · split at he
      · simp only [Joblib.drop] at he
        split at he
        · cases he
        · rename_i heq
          cases he
          split at heq
          · cases heq
          · cases heq
      · cases he

/-! ### tables -/

theorem keeps_of_res {α : Type} {m : M α} {q : α → Prop} {e : Err → Prop}
    (h : ∀ s, Inv W s → Inv W (m s).2 ∧ (∀ a, (m s).1 = .ok a → q a) ∧ (∀ er, (m s).1 = .error er → e er)) :
    Keeps (Inv W) m q e := by
  intro s hs
  have := h s hs
  cases hm : m s with
  | mk x s' =>
    rw [hm] at this
    cases x with
    | ok a => exact ⟨this.1, this.2.1 a rfl⟩
    | error er => exact ⟨this.1, this.2.2 er rfl⟩

theorem keeps_shapesGet (h : String) : Keeps (Inv W) (shapesGet h) (ShapeOK W h) SErr := by
  refine keeps_of_res (fun s hs => ?_)
  have := hs.shapes.get h
  exact ⟨{ hs with shapes := this.1 }, this.2, fun er he => CachedDict.get_err he⟩

theorem keeps_shapesSet {h : String} {r : Ref} (hr : ShapeOK W h r) :
    Keeps (Inv W) (shapesSet h r) (fun _ => True) SErr :=
  fun _ hs => ⟨{ hs with shapes := hs.shapes.set hr }, trivial⟩

theorem keeps_atomsGet (c : String) : Keeps (Inv W) (atomsGet c) (fun v => c = W.H v) SErr := by
  refine keeps_of_res (fun s hs => ?_)
  have := hs.atoms.get c
  exact ⟨{ hs with atoms := this.1 }, this.2, fun er he => CachedDict.get_err he⟩

theorem keeps_atomsSet {c : String} {v : Val} (hv : c = W.H v) :
    Keeps (Inv W) (atomsSet c v) (fun _ => True) SErr :=
  fun _ hs => ⟨{ hs with atoms := hs.atoms.set hv }, trivial⟩

theorem keeps_opsGet (n : String) : Keeps (Inv W) (opsGet n) (fun _ => True) SErr := by
  refine keeps_of_res (fun s hs => ?_)
  exact ⟨{ hs with }, fun _ _ => trivial, fun er he => CachedDict.get_err he⟩

theorem keeps_opsSet (n : String) : Keeps (Inv W) (opsSet n) (fun _ => True) SErr :=
  fun _ hs => ⟨{ hs with }, trivial⟩

/-! ### refs -/

theorem RefOK.withHid {r : Ref} {t : TVal} {h : String} (hr : RefOK W r t) (hp : Prov W h t) : RefOK W (r.withHid h) t := by
  cases r <;> simp only [RefOK, Ref.withHid] at hr ⊢ <;> exact ⟨hp, hr.2⟩

@[simp] theorem Ref.hid_withHid (r : Ref) (h : String) : (r.withHid h).hid = h := by cases r <;> rfl

theorem RefOK.detached {r : Ref} {t : TVal} (hr : RefOK W r t) : RefOK W r.detached t := by
  cases r <;> simp only [RefOK, Ref.detached] at hr ⊢
  · obtain ⟨hp, v, h1, h2, _⟩ := hr
    exact ⟨hp, v, h1, h2, by simp⟩
  · obtain ⟨hp, ks, ts, h1, h2, _⟩ := hr
    exact ⟨hp, ks, ts, h1, h2, fun h => by cases h⟩

theorem RefsOK.detached {rs : List Ref} {ts : List TVal} (h : RefsOK W rs ts) : RefsOK W (rs.map Ref.detached) ts := by
  rw [refsOK_iff] at h ⊢
  rw [All2.map_left]
  exact h.imp (fun _ _ => RefOK.detached)

theorem RefOK.ofDet (hW : W.Good) {r : Ref} {t t' : TVal} (hr : RefOK W r t') (hp : Prov W r.hid t) : RefOK W r t := by
  rw [hp.det hW hr.prov]; exact hr

mutual
theorem keeps_saveRef : ∀ (r : Ref) (t : TVal), RefOK W r t → Keeps (Inv W) (saveRef r) (fun _ => True) SErr
  | .atom c h o, t, hr => by
    unfold saveRef
    refine Keeps.bind Keeps.readAny (fun b _ => ?_)
    refine Keeps.ite (fun _ => Keeps.pure trivial) (fun _ => ?_)
    have hr0 := hr
    simp only [RefOK] at hr
    obtain ⟨hp, v, ht, hc, ho⟩ := hr
    refine Keeps.bind (q := fun _ => True) ?_ (fun _ _ => ?_)
    · cases o with
      | none => exact Keeps.pure trivial
      | some x =>
        rcases ho with ho | ho
        · cases ho
        · cases ho; exact keeps_atomsSet hc
    · exact keeps_shapesSet ⟨rfl, t, hr0.detached⟩
  | .coll k c h inMem keys elts, t, hr => by
    unfold saveRef
    refine Keeps.bind Keeps.readAny (fun b _ => ?_)
    refine Keeps.ite (fun _ => Keeps.pure trivial) (fun _ => ?_)
    refine Keeps.ite (fun hm => ?_) (fun _ => Keeps.raise (serr_noneErr k))
    simp only [RefOK] at hr
    obtain ⟨hp, ks, ts, ht, hc, hin⟩ := hr
    obtain ⟨hk, hrs⟩ := hin hm
    refine Keeps.bind (q := fun _ => True) (keeps_shapesSet ⟨rfl, t, ?_⟩) (fun _ _ => keeps_saveRefs elts ts hrs)
    simp only [shapeOf, RefOK]
    exact ⟨hp, ks, ts, ht, hc, fun _ => ⟨hk, hrs.detached⟩⟩
theorem keeps_saveRefs : ∀ (rs : List Ref) (ts : List TVal), RefsOK W rs ts →
    Keeps (Inv W) (saveRefs rs) (fun _ => True) SErr
  | [], _, _ => by unfold saveRefs; exact Keeps.pure trivial
  | r :: rs, [], h => by simp [RefsOK] at h
  | r :: rs, t :: ts, h => by
    unfold saveRefs
    simp only [RefsOK] at h
    exact Keeps.bind (keeps_saveRef r t h.1) (fun _ _ => keeps_saveRefs rs ts h.2)
end

/-- A loaded ref: true, and an atom has its value if asked for. -/
def LoadOK (W : World) (h : String) (inMemory : Bool) (r : Ref) : Prop :=
  ShapeOK W h r ∧ (inMemory = false → ∀ c h' o, r = .atom c h' o → o.isSome)

theorem keeps_loadRef (hW : W.Good) : ∀ (n : Nat) (h : String) (b : Bool),
    Keeps (Inv W) (loadRef n h b) (LoadOK W h b) SErr
  | 0, h, b => by unfold loadRef; exact Keeps.raise (trivial)
  | n + 1, h, b => by
    unfold loadRef
    refine Keeps.bind (keeps_shapesGet h) (fun r hr => ?_)
    obtain ⟨hh, t, hr⟩ := hr
    cases r with
    | atom c h' o =>
      refine Keeps.ite (fun hb => Keeps.pure ⟨⟨hh, t, hr⟩, fun hf => by rw [hb] at hf; cases hf⟩) (fun _ => ?_)
      refine Keeps.bind (keeps_atomsGet c) (fun v hv => Keeps.pure ⟨⟨hh, t, ?_⟩, ?_⟩)
      · simp only [RefOK] at hr ⊢
        obtain ⟨hp, v', ht, hc, _⟩ := hr
        have : v' = v := hW.inj _ _ (hc ▸ hv)
        exact ⟨hp, v', ht, hc, .inr (by rw [this])⟩
      · intro _ c' h'' o' heq
        cases heq; rfl
    | coll k c h' inMem keys elts =>
      refine Keeps.ite (fun hm => ?_) (fun _ => Keeps.raise (serr_iterErr k))
      have hr0 := hr
      simp only [RefOK] at hr
      obtain ⟨hp, ks, ts, ht, hc, hin⟩ := hr
      obtain ⟨hk, hrs⟩ := hin hm
      refine Keeps.bind (Keeps.mapM' (R := fun e r => LoadOK W (Ref.hid e) b r) elts
        (fun e _ => keeps_loadRef hW n e.hid b)) (fun es hes => ?_)
      cases k with
      | list =>
        refine Keeps.pure ⟨⟨hh, t, ?_⟩, fun _ _ _ _ heq => by cases heq⟩
        rw [hm] at hr0
        exact hr0
      | dict =>
        refine Keeps.pure ⟨⟨hh, t, ?_⟩, fun _ _ _ _ heq => by cases heq⟩
        simp only [RefOK]
        refine ⟨hp, ks, ts, ht, hc, fun _ => ⟨hk, ?_⟩⟩
        rw [refsOK_iff] at hrs ⊢
        clear hr0 hin hc hh ht hp
        induction hes generalizing ts with
        | nil => simpa using hrs
        | @cons e r es rs he hes ih =>
          cases hrs with
          | cons h1 h2 =>
            obtain ⟨⟨hrh, t', hr'⟩, _⟩ := he
            exact .cons (hr'.ofDet hW (hrh ▸ h1.prov)) (ih _ h2)

mutual
theorem keeps_unwrapRef (hW : W.Good) : ∀ (r : Ref) (t : TVal), RefOK W r t →
    Keeps (Inv W) (unwrapRef W.cfg r) (fun v => v = t.erase) SErr
  | .atom c h (some v), t, hr => by
    unfold unwrapRef
    simp only [RefOK] at hr
    obtain ⟨_, v', rfl, _, ho⟩ := hr
    rcases ho with ho | ho
    · cases ho
    · cases ho; exact Keeps.pure rfl
  | .atom c h none, t, hr => by
    unfold unwrapRef
    refine Keeps.bind (keeps_loadRef hW _ h false) (fun r hl => ?_)
    obtain ⟨⟨hh, t', hr'⟩, hsome⟩ := hl
    simp only [RefOK] at hr
    obtain ⟨hp, v, rfl, hc, _⟩ := hr
    have hr'' := hr'.ofDet hW (hh ▸ hp)
    cases r with
    | atom c' h' o =>
      cases o with
      | none => have := hsome rfl _ _ _ rfl; simp at this
      | some x =>
        simp only [RefOK] at hr''
        obtain ⟨_, v', hv', _, ho⟩ := hr''
        cases hv'
        rcases ho with ho | ho
        · cases ho
        · cases ho
          exact Keeps.bind (keeps_atomsSet hc) (fun _ _ => Keeps.pure rfl)
    | coll k c' h' m ks es =>
      simp only [RefOK] at hr''
      obtain ⟨_, _, _, hv', _⟩ := hr''
      cases hv'
  | .coll k c h inMem keys elts, t, hr => by
    unfold unwrapRef
    refine Keeps.ite (fun hm => ?_) (fun _ => Keeps.raise (serr_iterErr k))
    simp only [RefOK] at hr
    obtain ⟨hp, ks, ts, rfl, hc, hin⟩ := hr
    obtain ⟨hk, hrs⟩ := hin hm
    refine Keeps.bind (keeps_unwrapRefs hW elts ts hrs) (fun vs hvs => ?_)
    subst hvs; subst hk
    cases k <;> exact Keeps.pure rfl
theorem keeps_unwrapRefs (hW : W.Good) : ∀ (rs : List Ref) (ts : List TVal), RefsOK W rs ts →
    Keeps (Inv W) (unwrapRefs W.cfg rs) (fun vs => vs = TVal.erases ts) SErr
  | [], [], _ => by unfold unwrapRefs; exact Keeps.pure rfl
  | [], _ :: _, h => by simp [RefsOK] at h
  | _ :: _, [], h => by simp [RefsOK] at h
  | r :: rs, t :: ts, h => by
    unfold unwrapRefs
    simp only [RefsOK] at h
    refine Keeps.bind (keeps_unwrapRef hW r t h.1) (fun v hv => ?_)
    refine Keeps.bind (keeps_unwrapRefs hW rs ts h.2) (fun vs hvs => Keeps.pure ?_)
    rw [hv, hvs]; rfl
end

theorem argT_val : ∀ (ty : Ty) (v : Val) (t : TVal), ArgT W ty (.val v) t → t.erase = v
  | .atom, v, t, h => by simp only [ArgT] at h; rw [h.1]; rfl
  | .unsupported, v, t, h => by simp only [ArgT] at h
  | .coll k ty, v, t, h => by
    simp only [ArgT] at h
    obtain ⟨keys, items, ts, hi, rfl, _, ha⟩ := h
    have key : ∀ (vs : List Val) (ts : List TVal), All2 (ArgT W ty) (vs.map .val) ts → TVal.erases ts = vs := by
      intro vs
      induction vs with
      | nil => intro ts h; simp only [List.map_nil, All2.nil_left] at h; subst h; rfl
      | cons v vs ih =>
        intro ts h
        cases h with
        | cons h1 h2 => simp only [TVal.erases]; rw [argT_val ty v _ h1, ih _ h2]
    cases k <;> cases v <;> simp only [plainItems, Option.some.injEq, Prod.mk.injEq, reduceCtorEq] at hi
    · obtain ⟨rfl, rfl⟩ := hi
      simp only [TVal.erase, mkVal, key _ _ ha]
    · obtain ⟨rfl, rfl⟩ := hi
      simp only [TVal.erase, mkVal, key _ _ ha]

theorem keeps_unwrapArgs {ty : Ty} (ih : ∀ a t, ArgT W ty a t → Keeps (Inv W) (unwrapArg W.cfg a) (fun v => v = t.erase) SErr) :
    ∀ (as : List Arg) (ts : List TVal), All2 (ArgT W ty) as ts →
    Keeps (Inv W) (unwrapArgs W.cfg as) (fun vs => vs = TVal.erases ts) SErr
  | [], ts, h => by
    simp only [All2.nil_left] at h; subst h
    unfold unwrapArgs; exact Keeps.pure rfl
  | a :: as, ts, h => by
    cases h with
    | cons h1 h2 =>
      unfold unwrapArgs
      refine Keeps.bind (ih a _ h1) (fun v hv => ?_)
      refine Keeps.bind (keeps_unwrapArgs ih as _ h2) (fun vs hvs => Keeps.pure ?_)
      rw [hv, hvs]; rfl

theorem keeps_unwrapArg (hW : W.Good) : ∀ (ty : Ty) (a : Arg) (t : TVal), ArgT W ty a t →
    Keeps (Inv W) (unwrapArg W.cfg a) (fun v => v = t.erase) SErr := by
  intro ty
  induction ty with
  | atom =>
    intro a t h
    cases a <;> simp only [ArgT] at h
    · unfold unwrapArg; exact keeps_unwrapRef hW _ _ h
    · unfold unwrapArg; rw [h.1]; exact Keeps.pure rfl
  | unsupported =>
    intro a t h
    cases a <;> simp only [ArgT] at h
    unfold unwrapArg; exact keeps_unwrapRef hW _ _ h
  | coll k ty ih =>
    intro a t h
    cases a with
    | ref r => simp only [ArgT] at h; unfold unwrapArg; exact keeps_unwrapRef hW _ _ h
    | val v => unfold unwrapArg; exact Keeps.pure (argT_val _ _ _ h).symm
    | list xs =>
      simp only [ArgT] at h
      obtain ⟨keys, items, ts, hi, rfl, _, ha⟩ := h
      cases k <;> simp only [plainItems, Option.some.injEq, Prod.mk.injEq, reduceCtorEq] at hi
      obtain ⟨rfl, rfl⟩ := hi
      unfold unwrapArg
      refine Keeps.bind (keeps_unwrapArgs ih xs ts ha) (fun vs hvs => Keeps.pure ?_)
      rw [hvs]; rfl
    | dict ks xs =>
      simp only [ArgT] at h
      obtain ⟨keys, items, ts, hi, rfl, _, ha⟩ := h
      cases k <;> simp only [plainItems, Option.some.injEq, Prod.mk.injEq, reduceCtorEq] at hi
      obtain ⟨rfl, rfl⟩ := hi
      unfold unwrapArg
      refine Keeps.bind (keeps_unwrapArgs ih xs ts ha) (fun vs hvs => Keeps.pure ?_)
      rw [hvs]; rfl
    | ptr id v =>
      simp only [ArgT] at h
      obtain ⟨keys, items, ts, hi, _⟩ := h
      cases k <;> simp [plainItems] at hi

theorem keeps_bodyArg (hW : W.Good) (ty : Ty) (a : Arg) (t : TVal) (h : ArgT W ty a t) :
    Keeps (Inv W) (bodyArg W.cfg a) (fun v => v = t.erase) SErr := by
  have := keeps_unwrapArg hW ty a t h
  cases a with
  | ptr id v =>
    exfalso
    cases ty <;> simp only [ArgT] at h
    obtain ⟨keys, items, ts, hi, _⟩ := h
    rename_i k _
    cases k <;> simp [plainItems] at hi
  | _ => exact this

/-! ### calls -/

theorem keys_of_all2 {α β : Type} {R : String × α → String × β → Prop} (hR : ∀ a b, R a b → b.1 = a.1) :
    ∀ {l : List (String × α)} {l' : List (String × β)}, All2 R l l' → Dict.keys l' = Dict.keys l
  | _, _, .nil => rfl
  | _, _, .cons h1 h2 => by
    simp only [Dict.keys, List.map_cons]
    rw [hR _ _ h1]
    have := keys_of_all2 hR h2
    simp only [Dict.keys] at this
    rw [this]

theorem keeps_getCallFromData (hW : W.Good) {d : CallData} {h : String} (hd : DataOK W d h) :
    Keeps (Inv W) (getCallFromData W.cfg d)
      (fun c => c.op = d.opName ∧ c.cid = d.cid ∧ c.hid = d.hid ∧ CallOK W c) SErr := by
  obtain ⟨rfl, cins, outs, hs, hni, hno, hin, hout, hall, ver, ids, hid, hidin, hidall⟩ := hd
  unfold getCallFromData
  refine Keeps.bind (keeps_opsGet _) (fun _ _ => ?_)
  refine Keeps.bind (Keeps.mapM' (R := fun p q => q.1 = p.1 ∧ LoadOK W p.2 true q.2) _ (fun p hp => ?_)) (fun ins hins => ?_)
  · exact Keeps.bind (keeps_loadRef hW _ _ _) (fun r hr => Keeps.pure ⟨rfl, hr⟩)
  refine Keeps.bind (Keeps.mapM' (R := fun p q => q.1 = p.1 ∧ LoadOK W p.2 true q.2) _ (fun p hp => ?_)) (fun os hos => ?_)
  · exact Keeps.bind (keeps_loadRef hW _ _ _) (fun r hr => Keeps.pure ⟨rfl, hr⟩)
  refine Keeps.pure ⟨rfl, rfl, rfl, cins, outs, hs, ?_, ⟨?_, ?_, ?_⟩, ver, ids, hid, ?_, ?_⟩
  · intro q hq
    obtain ⟨p, hp, hn, ⟨hh, t', hr⟩, _⟩ := hins.mem_right hq
    obtain ⟨t, ht, hm, _⟩ := hin p.1 p.2 ((Dict.get?_eq_some_iff hni).2 hp)
    exact ⟨t, hn ▸ hm, hr.ofDet hW (hh ▸ ht)⟩
  · rw [keys_of_all2 (fun _ _ h => h.1) hos]; exact hno
  · rw [keys_of_all2 (fun _ _ h => h.1) hos]; exact hall
  · intro q hq
    obtain ⟨p, hp, hn, ⟨hh, t', hr⟩, _⟩ := hos.mem_right hq
    obtain ⟨t, hg, hx, ht, _⟩ := hout p.1 p.2 ((Dict.get?_eq_some_iff hno).2 hp)
    exact ⟨t, hn ▸ hg, by rw [hh, hx, hn], hr.ofDet hW (hh ▸ ht)⟩
  · intro q hq
    obtain ⟨q, hq', rfl⟩ := List.mem_map.1 hq
    obtain ⟨p, hp, hn, ⟨hh, _⟩, _⟩ := hins.mem_right hq'
    rw [hn, hh]
    exact hidin p hp
  · rw [keys_of_all2 (fun _ _ h => h.1) hos]
    simp only [idsOf, keys_map_snd, keys_of_all2 (fun _ _ h => h.1) hins]
    exact hidall

theorem mapE_ok {α β : Type} {f : α → Except Err β} : ∀ {l : List α} {bs : List β}, mapE f l = .ok bs →
    All2 (fun a b => f a = .ok b) l bs
  | [], bs, h => by simp only [mapE, Except.ok.injEq] at h; subst h; exact .nil
  | a :: l, bs, h => by
    simp only [mapE] at h
    split at h
    · cases h
    · split at h
      · cases h
      · cases h
        exact .cons ‹_› (mapE_ok ‹_›)

theorem mapE_err {α β : Type} {f : α → Except Err β} {p : Err → Prop} : ∀ {l : List α} {e : Err},
    (∀ a ∈ l, ∀ e, f a = .error e → p e) → mapE f l = .error e → p e
  | [], e, _, h => by simp [mapE] at h
  | a :: l, e, hp, h => by
    simp only [mapE] at h
    split at h
    · cases h; exact hp a (by simp) _ ‹_›
    · split at h
      · cases h; exact mapE_err (fun a' ha' => hp a' (List.mem_cons_of_mem _ ha')) ‹_›
      · cases h

theorem byInt_err {α : Type} : ∀ {d : Dict String α} {acc : Dict Nat α} {e : Err}, byInt d acc = .error e → SErr e
  | [], _, _, h => by simp [byInt] at h
  | (k, v) :: d, acc, e, h => by
    simp only [byInt] at h
    split at h
    · cases h; trivial
    · exact byInt_err h

theorem orderedOutputs_err {α : Type} {names : Option (List String)} {d : Dict String α} {e : Err}
    (h : orderedOutputs names d = .error e) : SErr e := by
  unfold orderedOutputs at h
  split at h
  · split at h
    · cases h; exact byInt_err ‹_›
    · refine mapE_err (p := SErr) (fun a _ e he => ?_) h
      split at he <;> cases he
      trivial
  · refine mapE_err (p := SErr) (fun a _ e he => ?_) h
    split at he <;> cases he
    trivial

/-- The wrapped inputs of a call and what they stand for. -/
def InsOK (W : World) (inputs : List (String × Ref)) (ins : List In) : Prop :=
  All2 (fun p i => p.1 = i.name ∧ p.2.hid = i.hid ∧ RefOK W p.2 i.t) inputs ins

theorem InsOK.hids {inputs : List (String × Ref)} {ins : List In} (h : InsOK W inputs ins) :
    idsOf Ref.hid inputs = insHids ins := by
  induction h with
  | nil => rfl
  | cons h1 _ ih =>
    simp only [idsOf, insHids, List.map_cons] at ih ⊢
    rw [ih, h1.1, h1.2.1]

theorem InsOK.cids {inputs : List (String × Ref)} {ins : List In} (h : InsOK W inputs ins) :
    idsOf Ref.cid inputs = insCids W ins := by
  induction h with
  | nil => rfl
  | cons h1 _ ih =>
    simp only [idsOf, insCids, List.map_cons] at ih ⊢
    rw [ih, h1.1, h1.2.2.cid]

theorem InsOK.prov {inputs : List (String × Ref)} {ins : List In} (h : InsOK W inputs ins) :
    ∀ p ∈ ins, Prov W p.hid p.t := by
  intro p hp
  obtain ⟨q, _, h1, h2, h3⟩ := h.mem_right hp
  rw [← h2]; exact h3.prov

theorem InsOK.keys {inputs : List (String × Ref)} {ins : List In} (h : InsOK W inputs ins) :
    Dict.keys (insVals ins) = Dict.keys inputs := by
  induction h with
  | nil => rfl
  | cons h1 _ ih =>
    simp only [Dict.keys, insVals, List.map_cons] at ih ⊢
    rw [ih, h1.1]

theorem eq_of_mem_nodup {α : Type} {l : List (String × α)} (hn : (Dict.keys l).Nodup) {k : String} {a b : α}
    (ha : (k, a) ∈ l) (hb : (k, b) ∈ l) : a = b := by
  have h1 := (Dict.get?_eq_some_iff hn).2 ha
  have h2 := (Dict.get?_eq_some_iff hn).2 hb
  rw [h1] at h2
  exact Option.some.inj h2

/-- The call of `op` on the inputs `ins`, with true outputs. -/
def CallAt (W : World) (op : String) (ver : Int) (ins : List In) (c : CallObj) : Prop :=
  c.op = op ∧ c.hid = callId W.H op ver (insHids ins) ∧ ∃ outs,
    CallSem W op c.hid c.cid (canon (insVals ins)) outs ∧ Sem W op ver (canon (insVals ins)) outs ∧
    (∀ p ∈ c.inputs, ∃ t, (p.1, t) ∈ canon (insVals ins) ∧ RefOK W p.2 t) ∧ OutsOK W c.hid c.outputs outs ∧
    InsFrom W.H op c.hid (idsOf Ref.hid c.inputs) (Dict.keys c.outputs)

theorem CallAt.callOK {op : String} {ver : Int} {ins : List In} {c : CallObj} (h : CallAt W op ver ins c) : CallOK W c := by
  obtain ⟨h1, h2, outs, h3, _, h4, h5, h6⟩ := h
  exact ⟨_, outs, h1 ▸ h3, h4, h5, h1 ▸ h6⟩

/-- What a call is about follows from its history id. -/
theorem callSem_here (hW : W.Good) {op op' c : String} {ver : Int} {ins : List In} {cins outs : List (String × TVal)}
    (h : CallSem W op' (callId W.H op ver (insHids ins)) c cins outs) (hp : ∀ p ∈ ins, Prov W p.hid p.t) :
    op' = op ∧ cins = canon (insVals ins) ∧ Sem W op ver cins outs := by
  obtain ⟨ver', ins', hp', hh, hc, hci, _, hs⟩ := h
  obtain ⟨ho, hv, hi⟩ := callId_inj hW hh
  rw [canon_insHids, canon_insHids] at hi
  refine ⟨ho.symm, ?_, by rw [ho, hv]; exact hs⟩
  rw [hci, canon_insVals, canon_insVals]
  refine map_eq_of_rel (fun a ha b hb hab => ?_) hi.symm
  simp only [Prod.mk.injEq] at hab ⊢
  exact ⟨hab.1, prov_det hW (hp' _ (mem_canon_insPairs ha).1) (hp _ (mem_canon_insPairs hb).1) hab.2⟩

/-- The names of the inputs follow from the history id. -/
theorem callSem_keys (hW : W.Good) {op op' h c : String} {ver : Int} {ids : List (String × String)} {cins outs : List (String × TVal)}
    (hs : CallSem W op' h c cins outs) (hh : h = callId W.H op ver ids) (n : String) : n ∈ Dict.keys ids ↔ n ∈ Dict.keys cins := by
  obtain ⟨ver', ins', _, hh', _, hci, _, _⟩ := hs
  rw [hh] at hh'
  have h1 := (callId_inj hW hh').2.2
  have h2 : n ∈ Dict.keys ids ↔ n ∈ Dict.keys (insHids ins') := by
    unfold Dict.keys
    rw [← ((perm_canon ids).map Prod.fst).mem_iff, h1, ((perm_canon _).map Prod.fst).mem_iff]
  rw [h2, hci]
  unfold Dict.keys
  rw [((perm_canon (insVals ins')).map Prod.fst).mem_iff]
  simp [insHids, insVals, Function.comp_def]

theorem callAt_of_callOK (hW : W.Good) {op : String} {ver : Int} {ins : List In} {c : CallObj} (hc : CallOK W c)
    (hh : c.hid = callId W.H op ver (insHids ins)) (hp : ∀ p ∈ ins, Prov W p.hid p.t) : CallAt W op ver ins c := by
  obtain ⟨cins, outs, hs, hi, ho, hf⟩ := hc
  have := callSem_here hW (hh ▸ hs) hp
  obtain ⟨h1, h2, h3⟩ := this
  subst h2
  exact ⟨h1, hh, outs, h1 ▸ hs, h3, hi, ho, h1 ▸ hf⟩

theorem mgetData_err {rows : List Row} : ∀ {hs : List String} {e : Err}, mgetData rows hs = .error e → SErr e
  | [], e, h => by simp [mgetData] at h
  | x :: hs, e, h => by
    simp only [mgetData] at h
    split at h
    · cases h; trivial
    · split at h
      · cases h
      · cases h; exact mgetData_err ‹_›

theorem InMem.getData_err {m : InMem} {h : String} {e : Err} (he : m.getData h = .error e) : SErr e := by
  unfold InMem.getData at he
  split at he
  · split at he
    · cases he
    · cases he; trivial
    · cases he; exact mgetData_err ‹_›
  · cases he; trivial

theorem CachedCalls.getData_err {s : CachedCalls} {h : String} {e : Err} (he : s.getData h = .error e) : SErr e := by
  unfold CachedCalls.getData at he
  split at he
  · exact InMem.getData_err he
  · unfold sqlGetData at he
    split at he
    · cases he
    · cases he; trivial
    · cases he; exact mgetData_err ‹_›

theorem CachedCalls.getDataContent_err {s : CachedCalls} {h : String} {e : Err} (he : s.getDataContent h = .error e) : SErr e := by
  unfold CachedCalls.getDataContent at he
  split at he
  · unfold InMem.getDataContent at he
    split at he
    · exact InMem.getData_err he
    · cases he; trivial
  · cases he; trivial

theorem keeps_getData (hW : W.Good) (h : String) :
    Keeps (Inv W) (fun s => (s.calls.getData h, s) : M CallData) (fun d => DataOK W d h) SErr := by
  refine keeps_of_res (fun s hs => ⟨hs, fun d hd => ?_, fun e he => CachedCalls.getData_err he⟩)
  simp only [CachedCalls.getData] at hd
  split at hd
  · exact dataOK_of_rows hW hs.cache.1 (getData_rows hd)
  · exact dataOK_of_rows hW hs.pers (sqlGetData_rows hd)

theorem keeps_getDataContent (hW : W.Good) (c : String) :
    Keeps (Inv W) (fun s => (s.calls.getDataContent c, s) : M CallData) (fun d => ∃ h, DataOK W d h ∧ d.cid = c) SErr := by
  refine keeps_of_res (fun s hs => ⟨hs, fun d hd => ?_, fun e he => CachedCalls.getDataContent_err he⟩)
  simp only [CachedCalls.getDataContent] at hd
  split at hd
  · exact getDataContent_ok hW hs.cache hd
  · simp [sqlGetDataContent] at hd

theorem insVals_nodup_iff {inputs : List (String × Ref)} {ins : List In} (h : InsOK W inputs ins) :
    (Dict.keys (canon (insVals ins))).Nodup ↔ (Dict.keys inputs).Nodup := by
  rw [← h.keys]
  exact ((perm_canon _).map _).nodup_iff

theorem keeps_lookupCall (hW : W.Good) {op : String} {ver : Int} {outNames : Option (List String)}
    {inputs : List (String × Ref)} {ins : List In} (hi : InsOK W inputs ins) :
    Keeps (Inv W) (lookupCall W.cfg op ver outNames inputs)
      (fun o => ∀ c, o = some c → CallAt W op ver ins c) SErr := by
  unfold lookupCall
  simp only [hi.hids, hi.cids]
  refine Keeps.bind Keeps.readAny (fun b _ => Keeps.ite (fun _ => ?_) (fun _ => ?_))
  · refine Keeps.bind (keeps_getData hW _) (fun d hd => ?_)
    refine Keeps.bind (keeps_getCallFromData hW hd) (fun c hc => Keeps.pure ?_)
    intro c' h'; cases h'
    exact callAt_of_callOK hW hc.2.2.2 (hc.2.2.1.trans hd.1) hi.prov
  · refine Keeps.bind Keeps.readAny (fun b _ => Keeps.ite (fun _ => ?_) (fun _ => Keeps.pure (fun c h => by cases h)))
    refine Keeps.bind (keeps_getDataContent hW _) (fun d hd => ?_)
    obtain ⟨h, hd, hdc⟩ := hd
    refine Keeps.bind (keeps_getCallFromData hW hd) (fun c hc => ?_)
    obtain ⟨hco, hcc, hch, cins, outs, hs, hin, hout, ver0, ids0, hid0, hidin0, hidall0⟩ := hc
    have hkeys0 := callSem_keys hW hs hid0
    rw [hcc, hdc] at hs
    obtain ⟨h1, h2, h3⟩ := callSem_transfer hW hs hi.prov rfl
    subst h2
    have hsem := (callSem_here hW h3 hi.prov).2.2
    have hnd : (Dict.keys (canon (insVals ins))).Nodup := by
      obtain ⟨_, _, _, _, _, _, hnd, _⟩ := h3; exact hnd
    refine Keeps.bind (q := fun os => All2 (fun p q => q = (p.1, p.2.withHid (outHid W.H (callId W.H op ver (insHids ins)) p.1)))
      c.outputs os) (Keeps.lift (fun os hos => ?_) (fun e he => ?_)) (fun os hos => ?_)
    · unfold reassignOutputs at hos
      split at hos
      · cases hos
      · refine (mapE_ok hos).imp (fun a b hab => ?_)
        split at hab
        · cases hab; rfl
        · cases hab
    · unfold reassignOutputs at he
      split at he
      · cases he; exact orderedOutputs_err ‹_›
      · refine mapE_err (p := SErr) (fun a _ e he => ?_) he
        split at he <;> cases he
        trivial
    refine Keeps.bind (q := fun is => All2 (fun p q => ∃ r, Dict.get? inputs p.1 = some r ∧ q = (p.1, p.2.withHid r.hid))
      c.inputs is) (Keeps.lift (fun is his => ?_) (fun e he => ?_)) (fun is his => Keeps.pure ?_)
    · refine (mapE_ok his).imp (fun a b hab => ?_)
      split at hab
      · cases hab; exact ⟨_, ‹_›, rfl⟩
      · cases hab
    · refine mapE_err (p := SErr) (fun a _ e he => ?_) he
      split at he <;> cases he
      trivial
    intro c' h'; cases h'
    refine ⟨h1, rfl, outs, ?_, hsem, ?_, ⟨?_, ?_, ?_⟩, ver, insHids ins, rfl, ?_, ?_⟩
    · show CallSem W op _ c.cid _ _
      rw [hcc, hdc]; exact h3
    · intro q hq
      obtain ⟨p, hp, r, hr, rfl⟩ := his.mem_right hq
      obtain ⟨t, ht, hrt⟩ := hin p hp
      refine ⟨t, ht, hrt.withHid ?_⟩
      obtain ⟨i, hi', hn, hh, hri⟩ := hi.mem_left (Dict.mem_of_get? hr)
      have hm : (p.1, i.t) ∈ canon (insVals ins) := by
        rw [mem_canon]
        simp only [insVals, List.mem_map]
        exact ⟨i, hi', by rw [← hn]⟩
      rw [eq_of_mem_nodup hnd ht hm]
      exact hri.prov
    · rw [keys_of_all2 (fun a b h => by rw [h]) hos]; exact hout.1
    · rw [keys_of_all2 (fun a b h => by rw [h]) hos]; exact hout.2.1
    · intro q hq
      obtain ⟨p, hp, rfl⟩ := hos.mem_right hq
      obtain ⟨t, ht, hh, hr⟩ := hout.2.2 p hp
      exact ⟨t, ht, by simp, hr.withHid (callSem_prov h3 ht)⟩
    · intro q hq
      obtain ⟨q, hq', rfl⟩ := List.mem_map.1 hq
      obtain ⟨p, hp, r, hr, rfl⟩ := his.mem_right hq'
      simp only [Ref.hid_withHid]
      rw [← hi.hids]
      exact List.mem_map.2 ⟨_, Dict.mem_of_get? hr, rfl⟩
    · intro n hn
      have hn0 : n ∈ Dict.keys ids0 := by
        rw [hkeys0]
        simp only [Dict.keys, insHids, insVals, List.map_map, Function.comp_def] at hn ⊢
        exact ((perm_canon _).map _).mem_iff.2 (by simpa [Function.comp_def] using hn)
      simp only [idsOf, keys_map_snd] at hidall0 ⊢
      rw [keys_of_all2 (fun a b h => by rw [h]) hos, keys_of_all2 (fun a b h => by obtain ⟨_, _, h⟩ := h; rw [h]) his]
      exact hidall0 n hn0

/-! ### structural calls -/

theorem keeps_structCall (hW : W.Good) {op out : String} {inputs : List (String × Ref)} {ins : List In}
    {compute : Except Err Ref} {t : TVal} (hi : InsOK W inputs ins) (hn : (Dict.keys inputs).Nodup)
    (hsem : Sem W op 0 (canon (insVals ins)) [(out, t)])
    (hc : ∀ r, compute = .ok r → ∀ h, Prov W h t → RefOK W (r.withHid h) t) (he : ∀ e, compute = .error e → SErr e) :
    Keeps (Inv W) (structCall W.cfg op out inputs compute)
      (fun c => CallOK W c ∧ c.hid = callId W.H op 0 (insHids ins) ∧ ∃ r, c.outputs = [(out, r)] ∧ r.hid = outHid W.H (callId W.H op 0 (insHids ins)) out ∧
        RefOK W r t) SErr := by
  unfold structCall
  refine Keeps.bind (keeps_lookupCall hW hi) (fun o ho => ?_)
  cases o with
  | some c =>
    refine Keeps.pure ?_
    have hat := ho c rfl
    refine ⟨hat.callOK, hat.2.1, ?_⟩
    obtain ⟨h1, h2, outs, h3, h4, _, h5, _⟩ := hat
    have := sem_functional hW h4 hsem rfl rfl rfl
    subst this
    obtain ⟨hnd, hall, hout⟩ := h5
    cases hco : c.outputs with
    | nil =>
      have := hall out (by simp [Dict.keys])
      rw [hco] at this; simp [Dict.keys] at this
    | cons p l =>
      have hkey : ∀ q ∈ c.outputs, q.1 = out ∧ q.2.hid = outHid W.H c.hid out ∧ RefOK W q.2 t := by
        intro q hq
        obtain ⟨t', ht', hh, hr⟩ := hout q hq
        simp only [Dict.get?_cons] at ht'
        split at ht'
        · rename_i heq
          simp only [Option.some.injEq] at ht'
          subst ht'
          subst heq
          exact ⟨rfl, hh, hr⟩
        · simp at ht'
      cases l with
      | nil =>
        obtain ⟨n, r⟩ := p
        obtain ⟨hn, hh, hr⟩ := hkey (n, r) (by rw [hco]; simp)
        simp only at hn hh hr
        subst hn
        exact ⟨r, rfl, h2 ▸ hh, hr⟩
      | cons p' l =>
        exfalso
        have h1 := (hkey p (by rw [hco]; simp)).1
        have h2 := (hkey p' (by rw [hco]; simp)).1
        rw [hco] at hnd
        simp [Dict.keys, h1, h2] at hnd
  | none =>
    refine Keeps.bind Keeps.readAny (fun b _ => Keeps.ite (fun _ => ?_) (fun _ => Keeps.raise trivial))
    refine Keeps.bind (q := fun r => compute = .ok r) (Keeps.lift (fun a h => h) he) (fun r hr => Keeps.pure ?_)
    simp only [hi.hids, hi.cids]
    have hcs : CallSem W op (callId W.H op 0 (insHids ins)) (callId W.H op 0 (insCids W ins)) (canon (insVals ins)) [(out, t)] :=
      ⟨0, ins, hi.prov, rfl, rfl, rfl, (insVals_nodup_iff hi).2 hn, hsem⟩
    have hprov := callSem_prov hcs (n := out) (t := t) (by simp [Dict.get?_cons])
    have hr' := hc r hr _ hprov
    refine ⟨⟨_, _, hcs, ?_, ⟨?_, ?_, ?_⟩, 0, _, rfl, fun p hp => hi.hids ▸ hp, fun n hn => .inl (hi.hids ▸ hn)⟩, trivial, _, rfl, by simp, hr'⟩
    · intro p hp
      obtain ⟨i, hi', hn, hh, hri⟩ := hi.mem_left hp
      refine ⟨i.t, ?_, hri⟩
      rw [mem_canon]
      simp only [insVals, List.mem_map]
      exact ⟨i, hi', by rw [← hn]⟩
    · simp [Dict.keys]
    · simp [Dict.keys]
    · intro p hp
      simp only [List.mem_singleton] at hp
      subst hp
      exact ⟨t, by simp [Dict.get?_cons], by simp, hr'⟩

end Verif
