import Verif.Proofs.Backed
/-!
Nothing the storage refers to is missing: records of refs, values of atoms, elements of collections, ops.
Reading and saving never leave a dangling reference.
-/
namespace Verif

/-! ### presence -/

section
variable {V : Type}

/-- The key has a value. -/
def Has (d : CachedDict V) (k : String) : Prop := ∃ v, (d.get k).1 = .ok v

theorem sql_exists_iff {p : SqlDict V} {k : String} : p.exists_ k = true ↔ ∃ v, p.get k = .ok v := by
  unfold SqlDict.exists_ SqlDict.get Dict.has
  cases hr : p.rows.get? k with
  | some v => cases p.overflow <;> simp
  | none =>
    cases p.overflow with
    | none => simp
    | some j =>
      simp only [Option.isSome_none, Bool.false_or, Joblib.exists_, Joblib.get, Dict.has]
      cases Dict.get? j k <;> simp

theorem exists_iff_has {d : CachedDict V} {k : String} : d.exists_ k = true ↔ Has d k := by
  unfold CachedDict.exists_ Has CachedDict.get Dict.has
  cases hc : d.cache.get? k with
  | some v => simp
  | none =>
    simp only [Option.isSome_none, Bool.false_eq_true, if_false]
    rw [sql_exists_iff]
    cases d.pers.get k <;> simp

theorem Has.set {d : CachedDict V} {k : String} (h : Has d k) (j : String) (v : V) : Has (d.set j v) k := by
  obtain ⟨w, hw⟩ := h
  unfold Has
  rw [CachedDict.set_get]
  split
  · exact ⟨v, rfl⟩
  · exact ⟨w, hw⟩

theorem Has.set_self (d : CachedDict V) (k : String) (v : V) : Has (d.set k v) k :=
  ⟨v, by rw [CachedDict.set_get, if_pos rfl]⟩

theorem has_get {d : CachedDict V} {j k : String} : Has (d.get j).2 k ↔ Has d k := by
  unfold Has; rw [CachedDict.get_get]

theorem open_get (p : SqlDict V) (k : String) : ((CachedDict.open_ p).get k).1 = p.get k := by
  unfold CachedDict.get CachedDict.open_
  simp only [Dict.get?_nil]
  cases p.get k <;> rfl
end

mutual
/-- What the ref needs from the storage is there: the values of atoms that are not in memory, the records of collections
that are not in memory. -/
def Live (A S : String → Prop) : Ref → Prop
  | .atom c _ o => o = none → A c
  | .coll _ _ h m _ es => (m = true → Lives A S es) ∧ (m = false → S h)
/-- pointwise -/
def Lives (A S : String → Prop) : List Ref → Prop
  | [] => True
  | r :: rs => Live A S r ∧ Lives A S rs
end

theorem lives_iff {A S : String → Prop} : ∀ {rs : List Ref}, Lives A S rs ↔ ∀ r ∈ rs, Live A S r
  | [] => by simp [Lives]
  | r :: rs => by simp [Lives, lives_iff (rs := rs)]

mutual
theorem Live.mono {A S A' S' : String → Prop} (hA : ∀ c, A c → A' c) (hS : ∀ h, S h → S' h) : ∀ (r : Ref), Live A S r → Live A' S' r
  | .atom c _ o, h => by
    simp only [Live] at h ⊢
    exact fun ho => hA c (h ho)
  | .coll _ _ h m _ es, hh => by
    simp only [Live] at hh ⊢
    exact ⟨fun hm => Lives.mono hA hS es (hh.1 hm), fun hm => hS h (hh.2 hm)⟩
theorem Lives.mono {A S A' S' : String → Prop} (hA : ∀ c, A c → A' c) (hS : ∀ h, S h → S' h) : ∀ (rs : List Ref), Lives A S rs → Lives A' S' rs
  | [], _ => by simp [Lives]
  | r :: rs, h => by
    simp only [Lives] at h ⊢
    exact ⟨Live.mono hA hS r h.1, Lives.mono hA hS rs h.2⟩
end

/-- Not a collection that is not in memory. -/
def Ref.top : Ref → Prop
  | .atom .. => True
  | .coll _ _ _ m _ _ => m = true

theorem Ref.top_withHid {r : Ref} {h : String} : (r.withHid h).top ↔ r.top := by cases r <;> rfl

theorem Live.withHid {A S : String → Prop} {r : Ref} (h : Live A S r) (ht : r.top) (hid : String) : Live A S (r.withHid hid) := by
  cases r with
  | atom c h o => simpa only [Ref.withHid, Live] using h
  | coll k c h' m ks es =>
    simp only [Ref.withHid, Live, Ref.top] at h ht ⊢
    exact ⟨h.1, fun hm => by rw [ht] at hm; cases hm⟩

/-- What the ref needs is in the storage. -/
def St.Live (s : St) : Ref → Prop := Verif.Live (Has s.atoms) (Has s.shapes)

/-- Both. -/
def St.LiveTop (s : St) (r : Ref) : Prop := s.Live r ∧ r.top

theorem St.LiveTop.withHid {s : St} {r : Ref} (h : s.LiveTop r) (hid : String) : s.LiveTop (r.withHid hid) :=
  ⟨Live.withHid h.1 h.2 hid, Ref.top_withHid.2 h.2⟩

/-- Nothing that is referred to is missing, except elements of the collections in `K`, which are being saved. -/
structure Whole (K : List String) (s : St) : Prop where
  atoms : ∀ h c h' o, (s.shapes.get h).1 = .ok (.atom c h' o) → Has s.atoms c
  colls : ∀ h k c h' m ks es, (s.shapes.get h).1 = .ok (.coll k c h' m ks es) → m = true ∧
    (h ∉ K → ∀ e ∈ es, Has s.shapes e.hid ∧ s.Live e)
  rows : ∀ r, r ∈ s.calls.cache.df ∨ r ∈ s.calls.pers → Has s.shapes r.refHid ∧ Has s.ops r.op

/-- Every read is answered as before, and no row is new. -/
theorem Whole.of_reads {K : List String} {s s' : St} (h : Whole K s) (ha : ∀ c, Has s.atoms c → Has s'.atoms c)
    (hs : ∀ k, (s'.shapes.get k).1 = (s.shapes.get k).1) (ho : ∀ n, Has s.ops n → Has s'.ops n)
    (hr : ∀ r, r ∈ s'.calls.cache.df ∨ r ∈ s'.calls.pers → r ∈ s.calls.cache.df ∨ r ∈ s.calls.pers) : Whole K s' := by
  have hS : ∀ k, Has s.shapes k → Has s'.shapes k := by
    intro k ⟨v, hv⟩; exact ⟨v, by rw [hs]; exact hv⟩
  refine ⟨fun k c h' o hk => ha _ (h.atoms k c h' o (by rw [← hs]; exact hk)), fun k k' c h' m ks es hk => ?_, fun r hr' => ?_⟩
  · obtain ⟨h1, h2⟩ := h.colls k k' c h' m ks es (by rw [← hs]; exact hk)
    refine ⟨h1, fun hK e he => ?_⟩
    obtain ⟨h3, h4⟩ := h2 hK e he
    exact ⟨hS _ h3, Live.mono ha hS e h4⟩
  · obtain ⟨h1, h2⟩ := h.rows r (hr r hr')
    exact ⟨hS _ h1, ho _ h2⟩

/-! ### reading -/

/-- `s` has the same records as `s0`, and at least its values. -/
structure Ext (s0 s : St) : Prop where
  shapes : ∀ k, (s.shapes.get k).1 = (s0.shapes.get k).1
  ops : ∀ k, (s.ops.get k).1 = (s0.ops.get k).1
  atoms : ∀ c, Has s0.atoms c → Has s.atoms c
  calls : s.calls = s0.calls

theorem Ext.refl (s : St) : Ext s s := ⟨fun _ => rfl, fun _ => rfl, fun _ h => h, rfl⟩

theorem Ext.unwraps (s0 : St) : Unwraps (fun s s' => Ext s0 s → Ext s0 s') where
  ord := ⟨fun _ h => h, fun h1 h2 h => h2 (h1 h)⟩
  shapesGet k s h := ⟨fun j => by simp only [shapesGet, CachedDict.get_get]; exact h.shapes j, h.ops, h.atoms, h.calls⟩
  atomsGet k s h := ⟨h.shapes, h.ops, fun c hc => by simp only [atomsGet]; exact has_get.2 (h.atoms c hc), h.calls⟩
  opsGet k s h := ⟨h.shapes, fun j => by simp only [opsGet, CachedDict.get_get]; exact h.ops j, h.atoms, h.calls⟩
  atomsSet k v s h := ⟨h.shapes, h.ops, fun c hc => (h.atoms c hc).set k v, h.calls⟩
  log op args s h := ⟨h.shapes, h.ops, h.atoms, h.calls⟩

theorem Ext.whole {s0 s : St} (h : Ext s0 s) {K : List String} (hw : Whole K s0) : Whole K s :=
  hw.of_reads h.atoms h.shapes (fun n ⟨v, hv⟩ => ⟨v, by rw [h.ops]; exact hv⟩) (fun r hr => by rw [h.calls] at hr; exact hr)

theorem Ext.live {s0 s : St} (h : Ext s0 s) {r : Ref} (hr : s0.Live r) : s.Live r :=
  Live.mono h.atoms (fun k ⟨v, hv⟩ => ⟨v, by rw [h.shapes]; exact hv⟩) r hr

section
variable {s0 : St} (hw : Whole [] s0)

/-- From a relation that is kept. -/
theorem keeps_ext {α : Type} {m : M α} (h : Pres (fun s s' => Ext s0 s → Ext s0 s') m) :
    Keeps (Ext s0) m (fun _ => True) (fun _ => True) := by
  intro s hs
  have := h s hs
  cases hm : m s with
  | mk x s' =>
    rw [hm] at this
    cases x <;> exact ⟨this, trivial⟩

theorem ext_shapesGet (h : String) : Keeps (Ext s0) (shapesGet h) (fun r => (s0.shapes.get h).1 = .ok r) (fun _ => True) := by
  intro s hs
  have h1 := (Ext.unwraps s0).shapesGet h s hs
  have h2 := hs.shapes h
  unfold shapesGet at h1 ⊢
  cases hg : (s.shapes.get h).1 with
  | ok r => rw [hg] at h2; exact ⟨h1, h2.symm⟩
  | error e => exact ⟨h1, trivial⟩

include hw in
theorem ext_loadRef : ∀ (n : Nat) (h : String) (b : Bool), Keeps (Ext s0) (loadRef n h b) s0.LiveTop (fun _ => True)
  | 0, h, b => by unfold loadRef; exact Keeps.raise trivial
  | n + 1, h, b => by
    unfold loadRef
    refine Keeps.bind (ext_shapesGet h) (fun r hr => ?_)
    cases r with
    | atom c h' o =>
      refine Keeps.ite (fun _ => Keeps.pure ⟨?_, trivial⟩) (fun _ => ?_)
      · exact fun _ => hw.atoms h c h' o hr
      · refine Keeps.bind (keeps_ext ((Ext.unwraps s0).atomsGet c)) (fun v _ => Keeps.pure ⟨?_, trivial⟩)
        exact fun ho => by cases ho
    | coll k c h' m keys elts =>
      refine Keeps.ite (fun hm => ?_) (fun _ => Keeps.raise trivial)
      obtain ⟨_, he⟩ := hw.colls h k c h' m keys elts hr
      refine Keeps.bind (Keeps.mapM' (R := fun _ r => s0.LiveTop r) elts (fun e _ => ext_loadRef n e.hid b)) (fun es hes => ?_)
      cases k with
      | list =>
        refine Keeps.pure ⟨⟨fun _ => ?_, nofun⟩, rfl⟩
        exact lives_iff.2 (fun e hm => (he (by simp) e hm).2)
      | dict =>
        refine Keeps.pure ⟨⟨fun _ => ?_, nofun⟩, rfl⟩
        refine lives_iff.2 (fun e hm => ?_)
        obtain ⟨_, _, h1⟩ := hes.mem_right hm
        exact h1.1

/-- The refs of the call. -/
def CallObj.refs (c : CallObj) : List Ref := c.inputs.map (·.2) ++ c.outputs.map (·.2)

/-- The refs of the call are there. -/
def CallLive (s : St) (c : CallObj) : Prop := ∀ r ∈ c.refs, s.Live r

theorem CallLive.of {s : St} {c : CallObj} (h1 : ∀ p ∈ c.inputs, s.Live p.2) (h2 : ∀ p ∈ c.outputs, s.Live p.2) : CallLive s c := by
  intro r hr
  simp only [CallObj.refs, List.mem_append, List.mem_map] at hr
  rcases hr with ⟨p, hp, rfl⟩ | ⟨p, hp, rfl⟩
  · exact h1 p hp
  · exact h2 p hp

include hw in
theorem ext_getCallFromData (cfg : Cfg) (d : CallData) : Keeps (Ext s0) (getCallFromData cfg d)
    (fun c => (∀ p ∈ c.inputs, s0.LiveTop p.2) ∧ ∀ p ∈ c.outputs, s0.LiveTop p.2) (fun _ => True) := by
  unfold getCallFromData
  refine Keeps.bind (keeps_ext ((Ext.unwraps s0).opsGet _)) (fun _ _ => ?_)
  refine Keeps.bind (Keeps.mapM' (R := fun _ q => s0.LiveTop q.2) _ (fun p _ => ?_)) (fun ins hins => ?_)
  · exact Keeps.bind (ext_loadRef hw _ _ _) (fun r hr => Keeps.pure hr)
  refine Keeps.bind (Keeps.mapM' (R := fun _ q => s0.LiveTop q.2) _ (fun p _ => ?_)) (fun os hos => Keeps.pure ⟨?_, ?_⟩)
  · exact Keeps.bind (ext_loadRef hw _ _ _) (fun r hr => Keeps.pure hr)
  · intro q hq; obtain ⟨_, _, h⟩ := hins.mem_right hq; exact h
  · intro q hq; obtain ⟨_, _, h⟩ := hos.mem_right hq; exact h

theorem ext_any {α : Type} (f : St → Except Err α) : Keeps (Ext s0) (fun s => (f s, s) : M α) (fun _ => True) (fun _ => True) := by
  intro s hs
  cases hf : f s <;> simp only [hf] <;> exact ⟨hs, trivial⟩

include hw in
theorem ext_lookupCall (cfg : Cfg) (op : String) (ver : Int) (outNames : Option (List String)) (inputs : List (String × Ref)) :
    Keeps (Ext s0) (lookupCall cfg op ver outNames inputs)
      (fun o => ∀ c, o = some c → (∀ p ∈ c.inputs, s0.LiveTop p.2) ∧ ∀ p ∈ c.outputs, s0.LiveTop p.2) (fun _ => True) := by
  unfold lookupCall
  refine Keeps.bind Keeps.readAny (fun b _ => Keeps.ite (fun _ => ?_) (fun _ => ?_))
  · refine Keeps.bind (ext_any _) (fun d _ => ?_)
    refine Keeps.bind (ext_getCallFromData hw cfg d) (fun c hc => Keeps.pure ?_)
    intro c' h'; cases h'; exact hc
  · refine Keeps.bind Keeps.readAny (fun b _ => Keeps.ite (fun _ => ?_) (fun _ => Keeps.pure (fun c h => by cases h)))
    refine Keeps.bind (ext_any _) (fun d _ => ?_)
    refine Keeps.bind (ext_getCallFromData hw cfg d) (fun c hc => ?_)
    refine Keeps.bind (q := fun os => ∀ p ∈ os, s0.LiveTop p.2) (Keeps.lift (fun os hos => ?_) (fun _ _ => trivial)) (fun os hos => ?_)
    · unfold reassignOutputs at hos
      split at hos
      · cases hos
      · intro q hq
        obtain ⟨p, hp, h1⟩ := (mapE_ok hos).mem_right hq
        split at h1
        · cases h1; exact (hc.2 p hp).withHid _
        · cases h1
    refine Keeps.bind (q := fun is => ∀ p ∈ is, s0.LiveTop p.2) (Keeps.lift (fun is his => ?_) (fun _ _ => trivial)) (fun is his => Keeps.pure ?_)
    · intro q hq
      obtain ⟨p, hp, h1⟩ := (mapE_ok his).mem_right hq
      split at h1
      · cases h1; exact (hc.1 p hp).withHid _
      · cases h1
    intro c' h'; cases h'
    exact ⟨his, hos⟩

include hw in
theorem ext_structCall (cfg : Cfg) {op out : String} {inputs : List (String × Ref)} {compute : Except Err Ref}
    (hi : ∀ p ∈ inputs, s0.Live p.2) (hc : ∀ r, compute = .ok r → s0.Live r) :
    Keeps (Ext s0) (structCall cfg op out inputs compute)
      (fun c => (∀ p ∈ c.inputs, s0.Live p.2) ∧ (∀ p ∈ c.outputs, p.2.top → s0.Live p.2) ∧
        ((∀ p ∈ c.outputs, p.2.top) ∨ ∃ r h, c.outputs = [(out, r.withHid h)] ∧ compute = .ok r)) (fun _ => True) := by
  unfold structCall
  refine Keeps.bind (ext_lookupCall hw cfg _ _ _ _) (fun o ho => ?_)
  cases o with
  | some c =>
    obtain ⟨h1, h2⟩ := ho c rfl
    exact Keeps.pure ⟨fun p hp => (h1 p hp).1, fun p hp _ => (h2 p hp).1, .inl fun p hp => (h2 p hp).2⟩
  | none =>
    refine Keeps.bind Keeps.readAny (fun b _ => Keeps.ite (fun _ => ?_) (fun _ => Keeps.raise trivial))
    refine Keeps.bind (q := fun r => compute = .ok r) (Keeps.lift (fun _ h => h) (fun _ _ => trivial)) (fun r hr => Keeps.pure ⟨hi, ?_, ?_⟩)
    · intro p hp ht
      simp only [List.mem_singleton] at hp
      subst hp
      exact Live.withHid (hc r hr) (Ref.top_withHid.1 ht) _
    · exact .inr ⟨r, _, rfl, hr⟩

mutual
/-- The refs in the argument are there. -/
def ArgLive (s : St) : Arg → Prop
  | .ref r => s.Live r
  | .list xs => ArgsLive s xs
  | .dict _ xs => ArgsLive s xs
  | _ => True
/-- pointwise -/
def ArgsLive (s : St) : List Arg → Prop
  | [] => True
  | a :: as => ArgLive s a ∧ ArgsLive s as
end

theorem argsLive_iff {s : St} : ∀ {as : List Arg}, ArgsLive s as ↔ ∀ a ∈ as, ArgLive s a
  | [] => by simp [ArgsLive]
  | a :: as => by simp [ArgsLive, argsLive_iff (as := as)]

theorem argItems_live {s : St} {k : Kind} {a : Arg} {keys : List String} {items : List Arg} (h : argItems k a = .ok (keys, items))
    (ha : ArgLive s a) : ∀ x ∈ items, ArgLive s x := by
  unfold argItems at h
  split at h <;> cases h
  all_goals first
    | (simp only [ArgLive] at ha; exact argsLive_iff.1 ha)
    | (intro x hx
       simp only [List.mem_map] at hx
       obtain ⟨y, _, rfl⟩ := hx
       simp [ArgLive])

theorem live_wrapAtom (s : St) (cfg : Cfg) (v : Val) (h : Option String) : s.LiveTop (wrapAtom cfg v h) := by
  unfold wrapAtom
  split
  · exact ⟨fun ho => (nomatch ho), trivial⟩
  · unfold wrapVal
    exact ⟨fun ho => (nomatch ho), trivial⟩

include hw in
theorem ext_construct (cfg : Cfg) : ∀ (ty : Ty) (a : Arg), ArgLive s0 a → Keeps (Ext s0) (construct cfg ty a)
    (fun p => s0.Live p.1 ∧ ((∀ r, a ≠ .ref r) → p.1.top) ∧ ∀ c ∈ p.2, CallLive s0 c) (fun _ => True) := by
  have href : ∀ r ty, ArgLive s0 (.ref r) → Keeps (Ext s0) (construct cfg ty (.ref r))
      (fun p => s0.Live p.1 ∧ ((∀ r', Arg.ref r ≠ .ref r') → p.1.top) ∧ ∀ c ∈ p.2, CallLive s0 c) (fun _ => True) := by
    intro r ty h
    simp only [ArgLive] at h
    have : construct cfg ty (.ref r) = M.pure (r, []) := by cases ty <;> simp [construct]
    rw [this]
    exact Keeps.pure ⟨h, fun hh => absurd rfl (hh r), fun c hc => by simp at hc⟩
  intro ty
  induction ty with
  | atom =>
    intro a ha
    cases a with
    | ref r => exact href r _ ha
    | val v =>
      unfold construct
      exact Keeps.pure ⟨(live_wrapAtom s0 cfg v none).1, fun _ => (live_wrapAtom s0 cfg v none).2, fun c hc => by simp at hc⟩
    | ptr id v =>
      unfold construct
      exact Keeps.pure ⟨fun ho => (nomatch ho), fun _ => trivial, fun c hc => by simp at hc⟩
    | list xs => unfold construct; exact Keeps.raise trivial
    | dict ks xs => unfold construct; exact Keeps.raise trivial
  | unsupported =>
    intro a ha
    cases a with
    | ref r => exact href r _ ha
    | _ => unfold construct; exact Keeps.raise trivial
  | coll k ty ih =>
    intro a ha
    have main : (∀ r, a ≠ .ref r) → construct cfg (.coll k ty) a = (do
        let (keys, items) ← M.lift (argItems k a)
        let rs ← M.mapM' (construct cfg ty) items
        let refs := rs.map (·.1)
        let main ← structCall cfg (builderName k) (builderOut k) ((structNames k keys refs.length).zip refs)
          (.ok (makeColl cfg k keys refs))
        match main.outputs with
        | [] => M.raise .indexError
        | (_, out) :: _ => M.pure (out, rs.flatMap (·.2) ++ [main])) := by
      intro h
      cases a with
      | ref r => exact absurd rfl (h r)
      | _ => rw [construct]; rfl; intro r h; cases h
    by_cases hr : ∃ r, a = .ref r
    · obtain ⟨r, rfl⟩ := hr
      exact href r _ ha
    · have hr' : ∀ r, a ≠ .ref r := fun r h => hr ⟨r, h⟩
      rw [main hr']
      refine Keeps.bind (q := fun p => ∀ x ∈ p.2, ArgLive s0 x) (Keeps.lift (fun p hp => argItems_live hp ha) (fun _ _ => trivial)) (fun p hp => ?_)
      obtain ⟨keys, items⟩ := p
      refine Keeps.bind (Keeps.mapM' (R := fun _ q => s0.Live q.1 ∧ ∀ c ∈ q.2, CallLive s0 c) items (fun x hx =>
        (ih x (hp x hx)).mono (fun q hq => ⟨hq.1, hq.2.2⟩) (fun _ _ => trivial))) (fun rs hrs => ?_)
      have hlive : ∀ q ∈ rs, s0.Live q.1 ∧ ∀ c ∈ q.2, CallLive s0 c := by
        intro q hq; obtain ⟨_, _, h⟩ := hrs.mem_right hq; exact h
      have hrefs : ∀ r ∈ rs.map (·.1), s0.Live r := by
        intro r hr; obtain ⟨q, hq, rfl⟩ := List.mem_map.1 hr; exact (hlive q hq).1
      refine Keeps.bind (ext_structCall hw cfg ?_ ?_) (fun c hc => ?_)
      · intro p hp
        exact hrefs _ (List.of_mem_zip hp).2
      · intro r hr
        cases hr
        exact ⟨fun _ => lives_iff.2 hrefs, nofun⟩
      · obtain ⟨h1, h2, h3⟩ := hc
        have htop : ∀ p ∈ c.outputs, p.2.top := by
          rcases h3 with h3 | ⟨r, h, h3, h4⟩
          · exact h3
          · intro p hp
            rw [h3] at hp
            simp only [List.mem_singleton] at hp
            subst hp
            cases h4
            exact rfl
        have hcl : CallLive s0 c := CallLive.of h1 (fun p hp => h2 p hp (htop p hp))
        cases ho : c.outputs with
        | nil => exact Keeps.raise trivial
        | cons p l =>
          rw [ho] at h2 htop
          refine Keeps.pure ⟨h2 p (by simp) (htop p (by simp)), fun _ => htop p (by simp), ?_⟩
          intro c' hc'
          simp only [List.mem_append, List.mem_flatMap, List.mem_singleton] at hc'
          rcases hc' with ⟨q, hq, hc'⟩ | rfl
          · exact (hlive q hq).2 c' hc'
          · exact hcl

theorem getItem_mem {k : Kind} {keys : List String} {elts : List Ref} {i : Val} {r : Ref} (h : getItem k keys elts i = .ok r) :
    r ∈ elts := by
  unfold getItem at h
  split at h
  · split at h
    · cases h; exact List.mem_of_getElem? ‹_›
    · cases h
  · split at h
    · cases h; exact (List.of_mem_zip (Dict.mem_of_get? ‹_›)).2
    · cases h
  · cases h

include hw in
theorem ext_destruct (cfg : Cfg) : ∀ (ty : Ty) (r : Ref), (r.top → s0.Live r) → Keeps (Ext s0) (destruct cfg ty r)
    (fun p => r.top ∧ s0.LiveTop p.1 ∧ ∀ c ∈ p.2, CallLive s0 c) (fun _ => True) := by
  have hatom : ∀ ty c h o, ((Ref.atom c h o).top → s0.Live (.atom c h o)) → Keeps (Ext s0) (destruct cfg ty (.atom c h o))
      (fun p => (Ref.atom c h o).top ∧ s0.LiveTop p.1 ∧ ∀ c ∈ p.2, CallLive s0 c) (fun _ => True) := by
    intro ty c h o hl
    have : destruct cfg ty (.atom c h o) = M.pure (.atom c h o, []) := by cases ty <;> simp [destruct]
    rw [this]
    exact Keeps.pure ⟨trivial, ⟨hl trivial, trivial⟩, fun c hc => by simp at hc⟩
  intro ty
  induction ty with
  | atom =>
    intro r hr
    cases r with
    | atom c h o => exact hatom _ c h o hr
    | coll => unfold destruct; exact Keeps.raise trivial
  | unsupported =>
    intro r hr
    cases r with
    | atom c h o => exact hatom _ c h o hr
    | coll => unfold destruct; exact Keeps.raise trivial
  | coll k ty ih =>
    intro r hr
    cases r with
    | atom c h o => exact hatom _ c h o hr
    | coll k' c h m keys elts =>
      unfold destruct
      refine Keeps.ite (fun hk => Keeps.ite (fun hm => ?_) (fun _ => Keeps.raise trivial)) (fun _ => Keeps.raise trivial)
      have hl := hr hm
      have helts : ∀ e ∈ elts, s0.Live e := by
        simp only [St.Live, Live] at hl
        exact lives_iff.1 (hl.1 hm)
      refine Keeps.bind (Keeps.mapM' (R := fun _ q => s0.LiveTop q.1 ∧ ∀ c ∈ q.2, CallLive s0 c) _ (fun i _ => ?_)) (fun rs hrs => ?_)
      · refine Keeps.bind (ext_structCall hw cfg ?_ ?_) (fun call hcall => ?_)
        · intro p hp
          simp only [List.mem_cons, List.not_mem_nil, or_false] at hp
          rcases hp with rfl | rfl
          · exact hl
          · exact (live_wrapAtom s0 cfg i none).1
        · intro r hr
          exact helts r (getItem_mem hr)
        · obtain ⟨h1, h2, h3⟩ := hcall
          cases hg : Dict.get? call.outputs (getitemOut k) with
          | none => exact Keeps.raise trivial
          | some elt =>
            have hmem := Dict.mem_of_get? hg
            refine Keeps.bind (ih elt (fun ht => h2 _ hmem ht)) (fun q hq => Keeps.pure ?_)
            obtain ⟨g1, g2, g3⟩ := hq
            refine ⟨g2, fun c hc => ?_⟩
            rcases List.mem_cons.1 hc with rfl | hc
            · refine CallLive.of h1 (fun p hp => h2 p hp ?_)
              rcases h3 with h3 | ⟨r, h, h3, _⟩
              · exact h3 p hp
              · rw [h3] at hp hmem
                simp only [List.mem_singleton] at hp hmem
                rw [hp]
                rw [Prod.mk.injEq] at hmem
                rw [← hmem.2]
                exact g1
            · exact g3 c hc
      · have hall : ∀ q ∈ rs, s0.LiveTop q.1 ∧ ∀ c ∈ q.2, CallLive s0 c := by
          intro q hq; obtain ⟨_, _, h⟩ := hrs.mem_right hq; exact h
        refine Keeps.pure ⟨hm, ⟨⟨fun _ => lives_iff.2 (fun e he => ?_), nofun⟩, rfl⟩, fun c hc => ?_⟩
        · obtain ⟨q, hq, rfl⟩ := List.mem_map.1 he
          exact (hall q hq).1.1
        · obtain ⟨q, hq, hc⟩ := List.mem_flatMap.1 hc
          exact (hall q hq).2 c hc

include hw in
theorem ext_wrapOutput (cfg : Cfg) (hid : String) (v : Val) (ty : Ty) : Keeps (Ext s0) (wrapOutput cfg hid v ty)
    (fun p => s0.LiveTop p.1 ∧ ∀ c ∈ p.2, CallLive s0 c) (fun _ => True) := by
  have main : ty ≠ .atom → Keeps (Ext s0) (do let (start, _) ← construct cfg ty (.val v); destruct cfg ty (start.withHid hid))
      (fun p => s0.LiveTop p.1 ∧ ∀ c ∈ p.2, CallLive s0 c) (fun _ => True) := by
    intro _
    refine Keeps.bind (ext_construct hw cfg ty (.val v) (by simp [ArgLive])) (fun p hp => ?_)
    have ht := hp.2.1 (fun r h => by cases h)
    refine (ext_destruct hw cfg ty (p.1.withHid hid) (fun _ => Live.withHid hp.1 ht hid)).mono (fun q hq => hq.2) (fun _ _ => trivial)
  unfold wrapOutput
  cases ty with
  | atom => exact Keeps.pure ⟨live_wrapAtom s0 cfg v _, fun c hc => by simp at hc⟩
  | unsupported => exact main nofun
  | coll k ty => exact main nofun

include hw in
theorem ext_wrapInputs (cfg : Cfg) {args : List BArg} (ha : ∀ a ∈ args, ArgLive s0 a.arg) : Keeps (Ext s0) (wrapInputs cfg args)
    (fun p => (∀ q ∈ p.1, s0.Live q.2) ∧ ∀ c ∈ p.2, CallLive s0 c) (fun _ => True) := by
  unfold wrapInputs
  refine Keeps.bind (Keeps.mapM' (R := fun _ q => s0.Live q.2.1 ∧ ∀ c ∈ q.2.2, CallLive s0 c) _ (fun a hm => ?_)) (fun rs hrs => ?_)
  · refine Keeps.bind (ext_construct hw cfg a.ty a.arg (ha a (List.mem_filter.1 hm).1)) (fun p hp => Keeps.pure ⟨hp.1, hp.2.2⟩)
  · have hall : ∀ q ∈ rs, s0.Live q.2.1 ∧ ∀ c ∈ q.2.2, CallLive s0 c := by
      intro q hq; obtain ⟨_, _, h⟩ := hrs.mem_right hq; exact h
    refine Keeps.pure ⟨fun q hq => ?_, fun c hc => ?_⟩
    · obtain ⟨p, hp, rfl⟩ := List.mem_map.1 hq
      exact (hall p hp).1
    · obtain ⟨q, hq, hc⟩ := List.mem_flatMap.1 hc
      exact (hall q hq).2 c hc

include hw in
theorem ext_callInternal (cfg : Cfg) (d : OpDef) {args : List BArg} (ha : ∀ a ∈ args, ArgLive s0 a.arg) :
    Keeps (Ext s0) (callInternal cfg d args)
      (fun p => CallLive s0 p.1 ∧ (∀ q ∈ p.1.outputs, s0.LiveTop q.2) ∧ ∀ c ∈ p.2, CallLive s0 c) (fun _ => True) := by
  unfold callInternal
  refine Keeps.bind (ext_wrapInputs hw cfg ha) (fun p hp => ?_)
  obtain ⟨inputs, cs⟩ := p
  refine Keeps.bind (ext_lookupCall hw cfg _ _ _ _) (fun o ho => ?_)
  cases o with
  | some c =>
    obtain ⟨h1, h2⟩ := ho c rfl
    exact Keeps.pure ⟨CallLive.of (fun p hp => (h1 p hp).1) (fun p hp => (h2 p hp).1), h2, hp.2⟩
  | none =>
    refine Keeps.bind Keeps.readAny (fun b _ => Keeps.ite (fun _ => ?_) (fun _ => Keeps.raise trivial))
    refine Keeps.bind (keeps_ext (Pres.mapM' (Ext.unwraps s0).ord _ (fun a _ =>
      Pres.bind (Ext.unwraps s0).ord (pres_bodyArg (Ext.unwraps s0) cfg _) (fun _ => Pres.pure (Ext.unwraps s0).ord _)))) (fun vals _ => ?_)
    refine Keeps.bind (keeps_ext ((Ext.unwraps s0).log _ _)) (fun _ _ => ?_)
    refine Keeps.bind (q := fun _ => True) (Keeps.lift (fun _ _ => trivial) (fun _ _ => trivial)) (fun ret _ => ?_)
    refine Keeps.bind (q := fun _ => True) (Keeps.lift (fun _ _ => trivial) (fun _ _ => trivial)) (fun outs _ => ?_)
    refine Keeps.bind (Keeps.mapM' (R := fun _ q => s0.LiveTop q.2.1 ∧ ∀ c ∈ q.2.2, CallLive s0 c) outs (fun p _ => ?_)) (fun rs hrs => ?_)
    · exact Keeps.bind (ext_wrapOutput hw cfg _ _ _) (fun q hq => Keeps.pure hq)
    · have hall : ∀ q ∈ rs, s0.LiveTop q.2.1 ∧ ∀ c ∈ q.2.2, CallLive s0 c := by
        intro q hq; obtain ⟨_, _, h⟩ := hrs.mem_right hq; exact h
      have hout : ∀ q ∈ rs.map (fun p => (p.1, p.2.1)), s0.LiveTop q.2 := by
        intro q hq
        obtain ⟨p, hp, rfl⟩ := List.mem_map.1 hq
        exact (hall p hp).1
      refine Keeps.pure ⟨CallLive.of hp.1 (fun q hq => (hout q hq).1), hout, fun c hc => ?_⟩
      simp only [List.mem_append, List.mem_flatMap] at hc
      rcases hc with hc | ⟨q, hq, hc⟩
      · exact hp.2 c hc
      · exact (hall q hq).2 c hc

end

/-! ### saving -/

/-- `s'` has the records of `s`, at least its values and ops, and the same calls. -/
structure Sub (s s' : St) : Prop where
  shapes : ∀ k r, (s.shapes.get k).1 = .ok r → (s'.shapes.get k).1 = .ok r
  atoms : ∀ c, Has s.atoms c → Has s'.atoms c
  ops : ∀ n, Has s.ops n → Has s'.ops n

theorem Sub.refl (s : St) : Sub s s := ⟨fun _ _ h => h, fun _ h => h, fun _ h => h⟩
theorem Sub.trans {s s' s'' : St} (h : Sub s s') (h' : Sub s' s'') : Sub s s'' :=
  ⟨fun k r hr => h'.shapes k r (h.shapes k r hr), fun c hc => h'.atoms c (h.atoms c hc), fun n hn => h'.ops n (h.ops n hn)⟩
theorem Sub.has {s s' : St} (h : Sub s s') {k : String} (hk : Has s.shapes k) : Has s'.shapes k := by
  obtain ⟨r, hr⟩ := hk; exact ⟨r, h.shapes k r hr⟩
theorem Sub.live {s s' : St} (h : Sub s s') {r : Ref} (hr : s.Live r) : s'.Live r :=
  Live.mono h.atoms (fun _ => h.has) r hr
theorem Ext.sub {s s' : St} (h : Ext s s') : Sub s s' :=
  ⟨fun k r hr => by rw [h.shapes]; exact hr, h.atoms, fun n ⟨v, hv⟩ => ⟨v, by rw [h.ops]; exact hv⟩⟩

/-- Writing a new record. -/
theorem Whole.newShape {K : List String} {s s' : St} {h : String} {r : Ref} (hw : Whole K s) (hn : ¬ Has s.shapes h)
    (hs : s'.shapes = s.shapes.set h r) (ha : ∀ c, Has s.atoms c → Has s'.atoms c) (ho : s'.ops = s.ops) (hc : s'.calls = s.calls)
    (hra : ∀ c h' o, r = .atom c h' o → Has s'.atoms c)
    (hrc : ∀ k c h' m ks es, r = .coll k c h' m ks es → m = true ∧ h ∈ K) : Whole K s' ∧ Sub s s' ∧ Has s'.shapes h := by
  have hget : ∀ k, (s'.shapes.get k).1 = if h = k then .ok r else (s.shapes.get k).1 := by
    intro k; rw [hs, CachedDict.set_get]
  have hsub : Sub s s' := by
    refine ⟨fun k x hx => ?_, ha, fun n hn => by rw [ho]; exact hn⟩
    rw [hget, if_neg]
    · exact hx
    · rintro rfl; exact hn ⟨x, hx⟩
  refine ⟨⟨fun k c h' o hk => ?_, fun k kd c h' m ks es hk => ?_, fun x hx => ?_⟩, hsub, ⟨r, by rw [hget, if_pos rfl]⟩⟩
  · rw [hget] at hk
    split at hk
    · cases hk; exact hra _ _ _ rfl
    · exact ha _ (hw.atoms k c h' o hk)
  · rw [hget] at hk
    split at hk
    · rename_i he
      subst he
      cases hk
      obtain ⟨h1, h2⟩ := hrc _ _ _ _ _ _ rfl
      exact ⟨h1, fun h3 => absurd h2 h3⟩
    · obtain ⟨h1, h2⟩ := hw.colls k kd c h' m ks es hk
      refine ⟨h1, fun h3 e he => ?_⟩
      obtain ⟨h4, h5⟩ := h2 h3 e he
      exact ⟨hsub.has h4, hsub.live h5⟩
  · rw [hc] at hx
    obtain ⟨h1, h2⟩ := hw.rows x hx
    exact ⟨hsub.has h1, hsub.ops _ h2⟩

theorem Whole.weaken {K : List String} {s : St} (hw : Whole K s) (h : String) : Whole (h :: K) s :=
  ⟨hw.atoms, fun k kd c h' m ks es hk => ⟨(hw.colls k kd c h' m ks es hk).1, fun h3 =>
    (hw.colls k kd c h' m ks es hk).2 (fun h4 => h3 (List.mem_cons_of_mem _ h4))⟩, hw.rows⟩

section
variable {W : World}

/-- A ref with a record: what a detached copy needs is there. -/
theorem live_detached (hW : W.Good) {K : List String} {s : St} (hi : Inv W s) (hw : Whole K s) {r : Ref} {t : TVal} (hr : RefOK W r t)
    (hh : Has s.shapes r.hid) : s.Live r.detached := by
  cases r with
  | coll k c h m ks es => exact ⟨fun h => (nomatch h), fun _ => hh⟩
  | atom c h o =>
    intro _
    obtain ⟨x, hx⟩ := hh
    obtain ⟨h1, t', h2⟩ := (hi.shapes.get h).2 x hx
    have h3 := h2.ofDet hW (show Prov W x.hid t by rw [h1]; exact hr.prov)
    simp only [RefOK] at hr
    obtain ⟨_, v, rfl, hc, _⟩ := hr
    cases x with
    | atom c' h' o' =>
      simp only [RefOK] at h3
      obtain ⟨_, v', hv', hc', _⟩ := h3
      cases hv'
      have := hw.atoms h c' h' o' hx
      rw [hc', ← hc] at this
      exact this
    | coll k c' h' m ks es =>
      simp only [RefOK] at h3
      obtain ⟨_, _, _, hv', _⟩ := h3
      cases hv'

theorem saveRef_state {m : M Unit} {q : Err → Prop} (hk : Keeps (Inv W) m (fun _ => True) q) {s s' : St} (hi : Inv W s) (hm : m s = (.ok (), s')) :
    Inv W s' := by
  have := hk s hi
  rw [hm] at this
  exact this.1

mutual
/-- Saving a ref does not fail if what it needs is there; afterwards it has a record. -/
theorem whole_saveRef (hW : W.Good) : ∀ (r : Ref) (t : TVal), RefOK W r t → ∀ (K : List String) (s : St), Inv W s → Whole K s → s.Live r →
    ∃ s', saveRef r s = (.ok (), s') ∧ Whole K s' ∧ Sub s s' ∧ s'.calls = s.calls ∧ Has s'.shapes r.hid
  | .atom c h o, t, hr, K, s, hi, hw, hl => by
    cases hex : s.shapes.exists_ h with
    | true =>
      refine ⟨s, ?_, hw, .refl s, rfl, exists_iff_has.1 hex⟩
      unfold saveRef
      show M.bind _ _ s = _
      unfold M.bind
      simp only [M.read, hex, if_true]
      rfl
    | false =>
      have hn : ¬ Has s.shapes h := by rw [← exists_iff_has, hex]; nofun
      cases o with
      | none =>
        refine ⟨(shapesSet h (.atom c h none) s).2, ?_, ?_⟩
        · unfold saveRef
          show M.bind _ _ s = _
          unfold M.bind
          simp only [M.read, hex]
          rfl
        · obtain ⟨h1, h2, h3⟩ := hw.newShape (s' := (shapesSet h (.atom c h none) s).2) hn rfl (fun _ h => h) rfl rfl
            (fun c' h' o' he => by cases he; exact hl rfl) nofun
          exact ⟨h1, h2, rfl, h3⟩
      | some v =>
        refine ⟨(shapesSet h (.atom c h none) (atomsSet c v s).2).2, ?_, ?_⟩
        · unfold saveRef
          show M.bind _ _ s = _
          unfold M.bind
          simp only [M.read, hex]
          rfl
        · obtain ⟨h1, h2, h3⟩ := hw.newShape (s' := (shapesSet h (.atom c h none) (atomsSet c v s).2).2) hn rfl
            (fun _ h => h.set c v) rfl rfl
            (fun c' h' o' he => by cases he; exact Has.set_self _ _ _) nofun
          exact ⟨h1, h2, rfl, h3⟩
  | .coll k c h m keys elts, t, hr, K, s, hi, hw, hl => by
    cases hex : s.shapes.exists_ h with
    | true =>
      refine ⟨s, ?_, hw, .refl s, rfl, exists_iff_has.1 hex⟩
      unfold saveRef
      show M.bind _ _ s = _
      unfold M.bind
      simp only [M.read, hex, if_true]
      rfl
    | false =>
      have hn : ¬ Has s.shapes h := by rw [← exists_iff_has, hex]; nofun
      have hm : m = true := by
        cases m with
        | true => rfl
        | false => exact absurd (hl.2 rfl) hn
      subst hm
      have hr0 := hr
      simp only [RefOK] at hr
      obtain ⟨hp, ks, ts, ht, hc, hin⟩ := hr
      obtain ⟨hk, hrs⟩ := hin trivial
      obtain ⟨h1, h2, h3⟩ := (hw.weaken h).newShape (s' := (shapesSet h (shapeOf k c h keys elts) s).2) hn rfl (fun _ h => h) rfl rfl nofun
        (fun k' c' h' m' ks' es' he => by cases he; exact ⟨rfl, by simp⟩)
      have hi1 : Inv W (shapesSet h (shapeOf k c h keys elts) s).2 := by
        refine saveRef_state (keeps_shapesSet (W := W) (h := h) (r := shapeOf k c h keys elts) ⟨rfl, t, ?_⟩) hi rfl
        simp only [shapeOf, RefOK]
        exact ⟨hp, ks, ts, ht, hc, fun _ => ⟨hk, hrs.detached⟩⟩
      have hle : ∀ e ∈ elts, s.Live e := lives_iff.1 (hl.1 rfl)
      obtain ⟨s', g1, g2, g3, g4, g5⟩ := whole_saveRefs hW elts ts hrs (h :: K) _ hi1 h1 (fun e he => h2.live (hle e he))
      have hi' : Inv W s' := saveRef_state (keeps_saveRefs elts ts hrs) hi1 g1
      have hsh : (s'.shapes.get h).1 = .ok (shapeOf k c h keys elts) := by
        refine g3.shapes h _ ?_
        simp only [shapesSet]
        rw [CachedDict.set_get, if_pos rfl]
      refine ⟨s', ?_, ⟨g2.atoms, fun k' kd c' h' m' ks' es' hk' => ?_, g2.rows⟩, h2.trans g3, g4.trans rfl, ⟨_, hsh⟩⟩
      · unfold saveRef
        show M.bind _ _ s = _
        unfold M.bind
        simp only [M.read, hex]
        show M.bind (shapesSet h (shapeOf k c h keys elts)) (fun _ => saveRefs elts) s = _
        unfold M.bind
        exact g1
      · obtain ⟨e1, e2⟩ := g2.colls k' kd c' h' m' ks' es' hk'
        refine ⟨e1, fun hK e he => ?_⟩
        by_cases hkh : k' = h
        · subst hkh
          rw [hsh] at hk'
          cases hk'
          obtain ⟨e0, he0, rfl⟩ := List.mem_map.1 he
          have : Has s'.shapes e0.hid := g5 e0 he0
          obtain ⟨i, hlt, hi0⟩ := List.mem_iff_getElem.1 he0
          obtain ⟨t0, _, ht0⟩ := (refsOK_iff.1 hrs).mem_left he0
          refine ⟨by cases e0 <;> exact this, live_detached hW hi' g2 ht0 this⟩
        · exact e2 (by simp [hkh, hK]) e he
/-- pointwise -/
theorem whole_saveRefs (hW : W.Good) : ∀ (rs : List Ref) (ts : List TVal), RefsOK W rs ts → ∀ (K : List String) (s : St), Inv W s → Whole K s →
    (∀ r ∈ rs, s.Live r) → ∃ s', saveRefs rs s = (.ok (), s') ∧ Whole K s' ∧ Sub s s' ∧ s'.calls = s.calls ∧ ∀ r ∈ rs, Has s'.shapes r.hid
  | [], _, _, K, s, hi, hw, hl => ⟨s, by unfold saveRefs; rfl, hw, .refl s, rfl, fun r hr => by simp at hr⟩
  | r :: rs, [], h, _, _, _, _, _ => by simp [RefsOK] at h
  | r :: rs, t :: ts, h, K, s, hi, hw, hl => by
    simp only [RefsOK] at h
    obtain ⟨s1, h1, h2, h3, h4, h5⟩ := whole_saveRef hW r t h.1 K s hi hw (hl r (by simp))
    have hi1 : Inv W s1 := saveRef_state (keeps_saveRef r t h.1) hi h1
    obtain ⟨s2, g1, g2, g3, g4, g5⟩ := whole_saveRefs hW rs ts h.2 K s1 hi1 h2 (fun x hx => h3.live (hl x (by simp [hx])))
    refine ⟨s2, ?_, g2, h3.trans g3, g4.trans h4, ?_⟩
    · unfold saveRefs
      show M.bind _ _ s = _
      unfold M.bind
      rw [h1]
      exact g1
    · intro x hx
      rcases List.mem_cons.1 hx with rfl | hx
      · exact g3.has h5
      · exact g5 x hx
end

theorem rows_save {m : InMem} {c : CallObj} {x : Row} (h : x ∈ (m.save c.toRec).df) :
    x ∈ m.df ∨ (x.op = c.op ∧ x.callHid = c.hid ∧ ∃ r ∈ c.refs, x.refHid = r.hid ∧ x.refCid = r.cid) := by
  unfold InMem.save at h
  split at h
  · exact .inl h
  · dsimp only at h
    rcases mem_foldl_setRow h with h | h
    · right
      simp only [CallObj.toRec, List.map_map, List.mem_map] at h
      obtain ⟨p, hp, rfl⟩ := h
      exact ⟨rfl, rfl, p.2, by simp only [CallObj.refs, List.mem_append, List.mem_map]; exact .inr ⟨p, hp, rfl⟩, rfl, rfl⟩
    · rcases mem_foldl_setRow h with h | h
      · right
        simp only [CallObj.toRec, List.map_map, List.mem_map] at h
        obtain ⟨p, hp, rfl⟩ := h
        exact ⟨rfl, rfl, p.2, by simp only [CallObj.refs, List.mem_append, List.mem_map]; exact .inl ⟨p, hp, rfl⟩, rfl, rfl⟩
      · exact .inl h

theorem CallOK.refsOK {c : CallObj} (hc : CallOK W c) : ∃ ts, RefsOK W c.refs ts := by
  obtain ⟨cins, outs, hs, hin, hout, _⟩ := hc
  obtain ⟨ts, hts⟩ := exists_all2 (R := RefOK W) (l := c.refs) (fun r hr => by
    simp only [CallObj.refs, List.mem_append, List.mem_map] at hr
    rcases hr with ⟨p, hp, rfl⟩ | ⟨p, hp, rfl⟩
    · obtain ⟨t, _, h⟩ := hin p hp; exact ⟨t, h⟩
    · obtain ⟨t, _, _, h⟩ := hout.2.2 p hp; exact ⟨t, h⟩)
  exact ⟨ts, refsOK_iff.2 hts⟩

/-- Saving a call does not fail if what its refs need is there. -/
theorem whole_saveCall (hW : W.Good) {c : CallObj} (hc : CallOK W c) {s : St} (hi : Inv W s) (hw : Whole [] s) (hl : CallLive s c) :
    ∃ s', saveCall c s = (.ok (), s') ∧ Inv W s' ∧ Whole [] s' ∧ Sub s s' := by
  cases hex : s.calls.exists_ c.hid with
  | true =>
    refine ⟨s, ?_, hi, hw, .refl s⟩
    unfold saveCall
    show M.bind _ _ s = _
    unfold M.bind
    simp only [M.read, hex, if_true]
    rfl
  | false =>
    have hops : ∃ s1, (do if ← M.read (fun s => s.ops.exists_ c.op) then M.pure () else opsSet c.op : M Unit) s = (.ok (), s1) ∧
        Inv W s1 ∧ Whole [] s1 ∧ Sub s s1 ∧ Has s1.ops c.op := by
      cases ho : s.ops.exists_ c.op with
      | true =>
        refine ⟨s, ?_, hi, hw, .refl s, exists_iff_has.1 ho⟩
        show M.bind _ _ s = _
        unfold M.bind
        simp only [M.read, ho, if_true]
        rfl
      | false =>
        have hsub : Sub s (opsSet c.op s).2 := ⟨fun _ _ h => h, fun _ h => h, fun n h => h.set _ _⟩
        refine ⟨(opsSet c.op s).2, ?_, { hi with }, ⟨hw.atoms, hw.colls, fun r hr => ?_⟩, hsub, Has.set_self _ _ _⟩
        · show M.bind _ _ s = _
          unfold M.bind
          simp only [M.read, ho]
          rfl
        · obtain ⟨h1, h2⟩ := hw.rows r hr
          exact ⟨h1, h2.set _ _⟩
    obtain ⟨s1, e1, hi1, hw1, hs1, ho1⟩ := hops
    obtain ⟨ts, hts⟩ := hc.refsOK
    obtain ⟨s2, e2, hw2, hs2, hc2, hh2⟩ := whole_saveRefs hW c.refs ts hts [] s1 hi1 hw1 (fun r hr => hs1.live (hl r hr))
    have heq : saveCall c s = (.ok (), { s2 with calls := s2.calls.save c.toRec }) := by
      unfold saveCall
      show M.bind _ _ s = _
      unfold M.bind
      simp only [M.read, hex]
      show M.bind _ _ s = _
      unfold M.bind
      rw [e1]
      show M.bind _ _ s1 = _
      unfold M.bind
      rw [show c.inputs.map (·.2) ++ c.outputs.map (·.2) = c.refs from rfl, e2]
    refine ⟨_, heq, saveRef_state (keeps_saveCall hc) hi heq, ⟨hw2.atoms, hw2.colls, fun x hx => ?_⟩, hs1.trans ⟨hs2.shapes, hs2.atoms, hs2.ops⟩⟩
    rcases hx with hx | hx
    · rcases rows_save hx with hx | ⟨h1, _, r, hr, h2, _⟩
      · exact hw2.rows x (.inl hx)
      · exact ⟨by rw [h2]; exact hh2 r hr, by rw [h1]; exact hs2.ops _ ho1⟩
    · exact hw2.rows x (.inr hx)

theorem whole_saveCalls (hW : W.Good) : ∀ {cs : List CallObj}, (∀ c ∈ cs, CallOK W c) → ∀ {s : St}, Inv W s → Whole [] s → (∀ c ∈ cs, CallLive s c) →
    ∃ s', M.forM' saveCall cs s = (.ok (), s') ∧ Inv W s' ∧ Whole [] s' ∧ Sub s s'
  | [], _, s, hi, hw, _ => ⟨s, rfl, hi, hw, .refl s⟩
  | c :: cs, hc, s, hi, hw, hl => by
    obtain ⟨s1, h1, h2, h3, h4⟩ := whole_saveCall hW (hc c (by simp)) hi hw (hl c (by simp))
    obtain ⟨s2, g1, g2, g3, g4⟩ := whole_saveCalls hW (cs := cs) (fun x hx => hc x (List.mem_cons_of_mem _ hx)) h2 h3
      (fun x hx r hr => h4.live (hl x (List.mem_cons_of_mem _ hx) r hr))
    refine ⟨s2, ?_, g2, g3, h4.trans g4⟩
    show M.bind _ _ s = _
    unfold M.bind
    rw [h1]
    exact g1

theorem mem_set_val {K α : Type} [DecidableEq K] {d : Dict K α} {k : K} {v : α} {p : K × α} (h : p ∈ Dict.set d k v) :
    p.2 = v ∨ p ∈ d := by
  induction d with
  | nil => simp only [Dict.set, List.mem_singleton] at h; exact .inl (by rw [h])
  | cons a d ih =>
    obtain ⟨a1, a2⟩ := a
    simp only [Dict.set] at h
    split at h
    · rcases List.mem_cons.1 h with h | h
      · exact .inl (by rw [h])
      · exact .inr (List.mem_cons_of_mem _ h)
    · rcases List.mem_cons.1 h with h | h
      · exact .inr (h ▸ List.mem_cons_self)
      · exact (ih h).imp id (List.mem_cons_of_mem _)

theorem byInt_mem {α : Type} : ∀ {d : Dict String α} {acc m : Dict Nat α}, byInt d acc = .ok m → ∀ p ∈ m,
    (∃ n, (n, p.2) ∈ d) ∨ p ∈ acc
  | [], acc, m, h, p, hp => by cases h; exact .inr hp
  | (k, v) :: d, acc, m, h, p, hp => by
    simp only [byInt] at h
    split at h
    · cases h
    · rcases byInt_mem h p hp with ⟨n, hn⟩ | hp
      · exact .inl ⟨n, List.mem_cons_of_mem _ hn⟩
      · rcases mem_set_val hp with h | h
        · exact .inl ⟨k, by rw [h]; simp⟩
        · exact .inr h

theorem orderedOutputs_mem {α : Type} {names : Option (List String)} {d : Dict String α} {rs : List α}
    (h : orderedOutputs names d = .ok rs) : ∀ r ∈ rs, ∃ n, (n, r) ∈ d := by
  intro r hr
  unfold orderedOutputs at h
  split at h
  · split at h
    · cases h
    · rename_i m hm
      obtain ⟨i, _, hi⟩ := (mapE_ok h).mem_right hr
      split at hi
      · cases hi
        rename_i hg
        rcases byInt_mem hm _ (Dict.mem_of_get? hg) with h | h
        · exact h
        · simp at h
      · cases hi
  · obtain ⟨i, _, hi⟩ := (mapE_ok h).mem_right hr
    split at hi
    · cases hi
      rename_i hg
      exact ⟨_, Dict.mem_of_get? hg⟩
    · cases hi

/-- A call leaves nothing dangling, and fails only in `call_internal`. -/
theorem whole_call (hW : W.Good) {d : OpDef} (hd : OpOK W d) {args : List BArg} {ins : List In}
    (h : ArgsOK W args ins) (hn : (args.map (·.name)).Nodup)
    (hign : d.body (eraseIns (insVals ins)) = d.body (plainIns args ins)) {s : St} (hi : Inv W s) (hw : Whole [] s)
    (ha : ∀ a ∈ args, ArgLive s a.arg) :
    Whole [] (call W.cfg d args s).2 ∧ Sub s (call W.cfg d args s).2 ∧
    (∀ rs, (call W.cfg d args s).1 = .ok rs → ∀ r ∈ rs, (call W.cfg d args s).2.LiveTop r) ∧
    (∀ e, (call W.cfg d args s).1 = .error e → (callInternal W.cfg d args s).1 = .error e) := by
  have h1 := keeps_callInternal hW hd h hn hign s hi
  have h2 := ext_callInternal hw W.cfg d ha s (.refl s)
  unfold call
  cases hm : callInternal W.cfg d args s with
  | mk x s1 =>
    rw [hm] at h1 h2
    cases x with
    | error e =>
      have : (do let (main, calls) ← callInternal W.cfg d args; saveCall main; M.forM' saveCall calls; M.lift (orderedOutputs d.outNames main.outputs) : M (List Ref)) s =
          (.error e, s1) := by
        show M.bind _ _ s = _
        unfold M.bind
        rw [hm]
      rw [this]
      exact ⟨h2.1.whole hw, h2.1.sub, nofun, fun _ h => by cases h; rfl⟩
    | ok p =>
      obtain ⟨main, calls⟩ := p
      obtain ⟨hi1, hat, hcs⟩ := h1
      obtain ⟨hext, hl, hlo, hlc⟩ := h2
      obtain ⟨s2, e2, hi2, hw2, hs2⟩ := whole_saveCall hW hat.callOK hi1 (hext.whole hw) (fun r hr => hext.live (hl r hr))
      obtain ⟨s3, e3, hi3, hw3, hs3⟩ := whole_saveCalls hW hcs hi2 hw2 (fun c hc r hr => hs2.live (hext.live (hlc c hc r hr)))
      have : (do let (main, calls) ← callInternal W.cfg d args; saveCall main; M.forM' saveCall calls; M.lift (orderedOutputs d.outNames main.outputs) : M (List Ref)) s =
          (orderedOutputs d.outNames main.outputs, s3) := by
        show M.bind _ _ s = _
        unfold M.bind
        rw [hm]
        show M.bind _ _ s1 = _
        unfold M.bind
        dsimp only at e2
        rw [e2]
        show M.bind _ _ s2 = _
        unfold M.bind
        rw [e3]
        rfl
      rw [this]
      have hsub := (hext.sub.trans hs2).trans hs3
      obtain ⟨rs, hrs, _⟩ := resOK_of_callAt hW hd hat
      refine ⟨hw3, hsub, fun rs hrs r hr => ?_, fun e he => ?_⟩
      · obtain ⟨n, hn⟩ := orderedOutputs_mem hrs r hr
        obtain ⟨a, b⟩ := hlo _ hn
        exact ⟨hsub.live a, b⟩
      · simp only at he hrs
        rw [hrs] at he; cases he
end
end Verif
