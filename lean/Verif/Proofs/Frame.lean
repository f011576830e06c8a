import Verif.Proofs.StorageCall
/-!
What the storage operations leave alone: the log of executed bodies, and the recorded calls.
-/
namespace Verif

/-- `m` relates the storage before and after by `R`, whether or not it raises. -/
def Pres {α : Type} (R : St → St → Prop) (m : M α) : Prop := ∀ s, R s (m s).2

/-- reflexive and transitive -/
structure PreOrd (R : St → St → Prop) : Prop where
  refl : ∀ s, R s s
  trans : ∀ {a b c}, R a b → R b c → R a c

namespace Pres
variable {α β : Type} {R : St → St → Prop}

theorem pure (hR : PreOrd R) (a : α) : Pres R (M.pure a) := fun s => hR.refl s
theorem raise (hR : PreOrd R) (e : Err) : Pres R (M.raise e : M α) := fun s => hR.refl s
theorem lift (hR : PreOrd R) (x : Except Err α) : Pres R (M.lift x) := fun s => hR.refl s
theorem read (hR : PreOrd R) (f : St → α) : Pres R (M.read f) := fun s => hR.refl s

theorem bind (hR : PreOrd R) {m : M α} {f : α → M β} (hm : Pres R m) (hf : ∀ a, Pres R (f a)) : Pres R (m >>= f) := by
  intro s
  have h := hm s
  show R s (M.bind m f s).2
  unfold M.bind
  cases hms : m s with
  | mk x s' =>
    rw [hms] at h
    cases x with
    | ok a => exact hR.trans h (hf a s')
    | error e => exact h

theorem ite {c : Prop} [Decidable c] {m m' : M α} (h : c → Pres R m) (h' : ¬c → Pres R m') :
    Pres R (if c then m else m') := by
  split
  · exact h ‹_›
  · exact h' ‹_›

theorem mapM' (hR : PreOrd R) {f : β → M α} (l : List β) (h : ∀ b ∈ l, Pres R (f b)) : Pres R (M.mapM' f l) := by
  induction l with
  | nil => exact pure hR _
  | cons b l ih =>
    exact bind hR (h b (by simp)) (fun _ => bind hR (ih (fun b' hb' => h b' (List.mem_cons_of_mem _ hb'))) (fun _ => pure hR _))

theorem forM' (hR : PreOrd R) {f : β → M Unit} (l : List β) (h : ∀ b ∈ l, Pres R (f b)) : Pres R (M.forM' f l) := by
  induction l with
  | nil => exact pure hR _
  | cons b l ih => exact bind hR (h b (by simp)) (fun _ => ih (fun b' hb' => h b' (List.mem_cons_of_mem _ hb')))

theorem mono {R' : St → St → Prop} {m : M α} (h : Pres R m) (hi : ∀ s s', R s s' → R' s s') : Pres R' m :=
  fun s => hi _ _ (h s)

end Pres

/-- No call is recorded and no function body runs, and nothing is written to the database. -/
structure Quiet (s s' : St) : Prop where
  calls : s'.calls = s.calls
  stale : s'.stale = s.stale
  log : s'.log = s.log
  allowNew : s'.allowNew = s.allowNew
  atoms : s'.atoms.pers = s.atoms.pers
  shapes : s'.shapes.pers = s.shapes.pers
  ops : s'.ops.pers = s.ops.pers

theorem Quiet.ord : PreOrd Quiet :=
  ⟨fun _ => ⟨rfl, rfl, rfl, rfl, rfl, rfl, rfl⟩, fun h1 h2 => ⟨h2.calls.trans h1.calls, h2.stale.trans h1.stale, h2.log.trans h1.log,
    h2.allowNew.trans h1.allowNew, h2.atoms.trans h1.atoms, h2.shapes.trans h1.shapes, h2.ops.trans h1.ops⟩⟩

theorem CachedDict.get_pers {V : Type} (d : CachedDict V) (k : String) : (d.get k).2.pers = d.pers := by
  unfold CachedDict.get
  split
  · rfl
  · split <;> rfl

theorem quiet_shapesGet (h : String) : Pres Quiet (shapesGet h) :=
  fun _ => ⟨rfl, rfl, rfl, rfl, rfl, CachedDict.get_pers _ _, rfl⟩
theorem quiet_atomsGet (h : String) : Pres Quiet (atomsGet h) :=
  fun _ => ⟨rfl, rfl, rfl, rfl, CachedDict.get_pers _ _, rfl, rfl⟩
theorem quiet_opsGet (h : String) : Pres Quiet (opsGet h) :=
  fun _ => ⟨rfl, rfl, rfl, rfl, rfl, rfl, CachedDict.get_pers _ _⟩
theorem quiet_shapesSet (h : String) (r : Ref) : Pres Quiet (shapesSet h r) := fun _ => ⟨rfl, rfl, rfl, rfl, rfl, rfl, rfl⟩
theorem quiet_atomsSet (h : String) (v : Val) : Pres Quiet (atomsSet h v) := fun _ => ⟨rfl, rfl, rfl, rfl, rfl, rfl, rfl⟩
theorem quiet_opsSet (h : String) : Pres Quiet (opsSet h) := fun _ => ⟨rfl, rfl, rfl, rfl, rfl, rfl, rfl⟩

/-- `R` is a preorder that holds between the storages before and after a read. -/
structure Reads (R : St → St → Prop) : Prop where
  ord : PreOrd R
  shapesGet : ∀ h, Pres R (shapesGet h)
  atomsGet : ∀ c, Pres R (atomsGet c)
  opsGet : ∀ n, Pres R (opsGet n)

theorem pres_loadRef {R : St → St → Prop} (hR : Reads R) : ∀ (n : Nat) (h : String) (b : Bool), Pres R (loadRef n h b)
  | 0, _, _ => Pres.raise hR.ord _
  | n + 1, h, b => by
    refine Pres.bind hR.ord (hR.shapesGet h) (fun r => ?_)
    cases r with
    | atom c h' o =>
      exact Pres.ite (fun _ => Pres.pure hR.ord _) (fun _ => Pres.bind hR.ord (hR.atomsGet c) (fun _ => Pres.pure hR.ord _))
    | coll k c h' m keys elts =>
      refine Pres.ite (fun _ => ?_) (fun _ => Pres.raise hR.ord _)
      refine Pres.bind hR.ord (Pres.mapM' hR.ord _ (fun e _ => pres_loadRef hR n _ _)) (fun es => ?_)
      cases k <;> exact Pres.pure hR.ord _

section
variable {R : St → St → Prop} (hR : Reads R) (cfg : Cfg)
include hR

theorem pres_getCallFromData (d : CallData) : Pres R (getCallFromData cfg d) := by
  unfold getCallFromData
  refine Pres.bind hR.ord (hR.opsGet _) (fun _ => ?_)
  refine Pres.bind hR.ord (Pres.mapM' hR.ord _ (fun e _ => Pres.bind hR.ord (pres_loadRef hR _ _ _) (fun _ => Pres.pure hR.ord _))) (fun _ => ?_)
  exact Pres.bind hR.ord (Pres.mapM' hR.ord _ (fun e _ => Pres.bind hR.ord (pres_loadRef hR _ _ _) (fun _ => Pres.pure hR.ord _)))
    (fun _ => Pres.pure hR.ord _)

theorem pres_lookupCall (op : String) (v : Int) (ns : Option (List String)) (inputs : List (String × Ref)) :
    Pres R (lookupCall cfg op v ns inputs) := by
  unfold lookupCall
  refine Pres.bind hR.ord (Pres.read hR.ord _) (fun _ => Pres.ite (fun _ => ?_) (fun _ => ?_))
  · exact Pres.bind hR.ord (fun s => hR.ord.refl s) (fun _ => Pres.bind hR.ord (pres_getCallFromData hR cfg _) (fun _ => Pres.pure hR.ord _))
  · refine Pres.bind hR.ord (Pres.read hR.ord _) (fun _ => Pres.ite (fun _ => ?_) (fun _ => Pres.pure hR.ord _))
    refine Pres.bind hR.ord (fun s => hR.ord.refl s) (fun _ => Pres.bind hR.ord (pres_getCallFromData hR cfg _) (fun _ => ?_))
    exact Pres.bind hR.ord (Pres.lift hR.ord _) (fun _ => Pres.bind hR.ord (Pres.lift hR.ord _) (fun _ => Pres.pure hR.ord _))

theorem pres_structCall (op out : String) (inputs : List (String × Ref)) (x : Except Err Ref) :
    Pres R (structCall cfg op out inputs x) := by
  unfold structCall
  refine Pres.bind hR.ord (pres_lookupCall hR cfg _ _ _ _) (fun o => ?_)
  cases o with
  | some c => exact Pres.pure hR.ord _
  | none =>
    refine Pres.bind hR.ord (Pres.read hR.ord _) (fun _ => Pres.ite (fun _ => ?_) (fun _ => Pres.raise hR.ord _))
    exact Pres.bind hR.ord (Pres.lift hR.ord _) (fun _ => Pres.pure hR.ord _)

theorem pres_construct : ∀ (ty : Ty) (a : Arg), Pres R (construct cfg ty a) := by
  intro ty
  induction ty with
  | atom => intro a; cases a <;> (rw [construct]; try first | exact Pres.pure hR.ord _ | exact Pres.raise hR.ord _) <;> (intros; rename_i hh; cases hh)
  | unsupported => intro a; cases a <;> (rw [construct]; try first | exact Pres.pure hR.ord _ | exact Pres.raise hR.ord _) <;> (intros; rename_i hh; cases hh)
  | coll k t ih =>
    intro a
    by_cases h : ∃ r, a = .ref r
    · obtain ⟨r, rfl⟩ := h
      rw [construct]; exact Pres.pure hR.ord _
    · rw [construct]
      · refine Pres.bind hR.ord (Pres.lift hR.ord _) (fun p => ?_)
        obtain ⟨keys, items⟩ := p
        refine Pres.bind hR.ord (Pres.mapM' hR.ord _ (fun x _ => ih x)) (fun rs => ?_)
        refine Pres.bind hR.ord (pres_structCall hR cfg _ _ _ _) (fun c => ?_)
        split
        · exact Pres.raise hR.ord _
        · exact Pres.pure hR.ord _
      · intro r hr; exact h ⟨r, hr⟩

theorem pres_destruct : ∀ (ty : Ty) (r : Ref), Pres R (destruct cfg ty r) := by
  intro ty
  induction ty with
  | atom => intro r; cases r <;> rw [destruct] <;> first | exact Pres.pure hR.ord _ | exact Pres.raise hR.ord _ | (intros; rename_i hh; cases hh)
  | unsupported => intro r; cases r <;> rw [destruct] <;> first | exact Pres.pure hR.ord _ | exact Pres.raise hR.ord _ | (intros; rename_i hh; cases hh)
  | coll k t ih =>
    intro r
    cases r with
    | atom => rw [destruct]; exact Pres.pure hR.ord _
    | coll k' c h m keys elts =>
      rw [destruct]
      refine Pres.ite (fun _ => Pres.ite (fun _ => ?_) (fun _ => Pres.raise hR.ord _)) (fun _ => Pres.raise hR.ord _)
      refine Pres.bind hR.ord (Pres.mapM' hR.ord _ (fun x _ => ?_)) (fun rs => Pres.pure hR.ord _)
      refine Pres.bind hR.ord (pres_structCall hR cfg _ _ _ _) (fun c => ?_)
      dsimp only
      split
      · exact Pres.raise hR.ord _
      · exact Pres.bind hR.ord (ih _) (fun _ => Pres.pure hR.ord _)

theorem pres_wrapOutput (hid : String) (v : Val) (ty : Ty) : Pres R (wrapOutput cfg hid v ty) := by
  cases ty with
  | atom => exact Pres.pure hR.ord _
  | _ => exact Pres.bind hR.ord (pres_construct hR cfg _ _) (fun p => pres_destruct hR cfg _ _)

theorem pres_wrapInputs (args : List BArg) : Pres R (wrapInputs cfg args) := by
  unfold wrapInputs
  exact Pres.bind hR.ord (Pres.mapM' hR.ord _ (fun a _ => Pres.bind hR.ord (pres_construct hR cfg _ _) (fun _ => Pres.pure hR.ord _)))
    (fun _ => Pres.pure hR.ord _)

end

theorem Quiet.reads : Reads Quiet := ⟨Quiet.ord, quiet_shapesGet, quiet_atomsGet, quiet_opsGet⟩

theorem quiet_lookupCall (cfg : Cfg) (op : String) (v : Int) (ns : Option (List String)) (inputs : List (String × Ref)) :
    Pres Quiet (lookupCall cfg op v ns inputs) := pres_lookupCall Quiet.reads cfg op v ns inputs
theorem quiet_wrapInputs (cfg : Cfg) (args : List BArg) : Pres Quiet (wrapInputs cfg args) := pres_wrapInputs Quiet.reads cfg args
theorem quiet_wrapOutput (cfg : Cfg) (hid : String) (v : Val) (ty : Ty) : Pres Quiet (wrapOutput cfg hid v ty) :=
  pres_wrapOutput Quiet.reads cfg hid v ty

section
variable (cfg : Cfg)

mutual
theorem quiet_unwrapRef : ∀ (r : Ref), Pres Quiet (unwrapRef cfg r)
  | .atom _ _ (some v) => by rw [unwrapRef]; exact Pres.pure Quiet.ord _
  | .atom c h none => by
    rw [unwrapRef]
    refine Pres.bind Quiet.ord (pres_loadRef Quiet.reads _ _ _) (fun r => ?_)
    match r with
    | .atom _ _ (some v) => exact Pres.bind Quiet.ord (quiet_atomsSet _ _) (fun _ => Pres.pure Quiet.ord _)
    | .atom _ _ none => exact Pres.raise Quiet.ord _
    | .coll .. => exact Pres.raise Quiet.ord _
  | .coll k c h m keys elts => by
    rw [unwrapRef]
    refine Pres.ite (fun _ => ?_) (fun _ => Pres.raise Quiet.ord _)
    refine Pres.bind Quiet.ord (quiet_unwrapRefs elts) (fun es => ?_)
    cases k <;> exact Pres.pure Quiet.ord _
theorem quiet_unwrapRefs : ∀ (rs : List Ref), Pres Quiet (unwrapRefs cfg rs)
  | [] => by rw [unwrapRefs]; exact Pres.pure Quiet.ord _
  | r :: rs => by
    rw [unwrapRefs]
    exact Pres.bind Quiet.ord (quiet_unwrapRef r) (fun _ => Pres.bind Quiet.ord (quiet_unwrapRefs rs) (fun _ => Pres.pure Quiet.ord _))
end

mutual
theorem quiet_unwrapArg : ∀ (a : Arg), Pres Quiet (unwrapArg cfg a)
  | .ref r => by rw [unwrapArg]; exact quiet_unwrapRef cfg r
  | .val v => by rw [unwrapArg]; exact Pres.pure Quiet.ord _
  | .ptr _ _ => by rw [unwrapArg]; exact Pres.pure Quiet.ord _
  | .list xs => by rw [unwrapArg]; exact Pres.bind Quiet.ord (quiet_unwrapArgs xs) (fun _ => Pres.pure Quiet.ord _)
  | .dict ks xs => by rw [unwrapArg]; exact Pres.bind Quiet.ord (quiet_unwrapArgs xs) (fun _ => Pres.pure Quiet.ord _)
theorem quiet_unwrapArgs : ∀ (as : List Arg), Pres Quiet (unwrapArgs cfg as)
  | [] => by rw [unwrapArgs]; exact Pres.pure Quiet.ord _
  | r :: rs => by
    rw [unwrapArgs]
    exact Pres.bind Quiet.ord (quiet_unwrapArg r) (fun _ => Pres.bind Quiet.ord (quiet_unwrapArgs rs) (fun _ => Pres.pure Quiet.ord _))
end

theorem quiet_bodyArg (a : Arg) : Pres Quiet (bodyArg cfg a) := by
  cases a with
  | ptr _ _ => exact Pres.pure Quiet.ord _
  | _ => exact quiet_unwrapArg cfg _

end

mutual
theorem quiet_saveRef : ∀ (r : Ref), Pres Quiet (saveRef r)
  | .atom c h o => by
    unfold saveRef
    refine Pres.bind Quiet.ord (Pres.read Quiet.ord _) (fun _ => Pres.ite (fun _ => Pres.pure Quiet.ord _) (fun _ => ?_))
    refine Pres.bind Quiet.ord ?_ (fun _ => quiet_shapesSet _ _)
    cases o with
    | none => exact Pres.pure Quiet.ord _
    | some v => exact quiet_atomsSet _ _
  | .coll k c h m keys elts => by
    unfold saveRef
    refine Pres.bind Quiet.ord (Pres.read Quiet.ord _) (fun _ => Pres.ite (fun _ => Pres.pure Quiet.ord _) (fun _ => ?_))
    refine Pres.ite (fun _ => ?_) (fun _ => Pres.raise Quiet.ord _)
    exact Pres.bind Quiet.ord (quiet_shapesSet _ _) (fun _ => quiet_saveRefs elts)
theorem quiet_saveRefs : ∀ (rs : List Ref), Pres Quiet (saveRefs rs)
  | [] => by unfold saveRefs; exact Pres.pure Quiet.ord _
  | r :: rs => by unfold saveRefs; exact Pres.bind Quiet.ord (quiet_saveRef r) (fun _ => quiet_saveRefs rs)
end

/-! ### recorded calls stay recorded -/

/-- Every cached call is uncommitted or in the database. -/
def Coh (s : St) : Prop := ∀ h, s.calls.cache.exists_ h = true → h ∈ s.calls.dirty ∨ sqlExists s.calls.pers h = true

/-- Recorded calls stay recorded, persisted calls stay persisted. -/
def Grows (s s' : St) : Prop := Coh s → Coh s' ∧ (∀ h, s.calls.exists_ h = true → s'.calls.exists_ h = true) ∧
  ∀ h, sqlExists s.calls.pers h = true → sqlExists s'.calls.pers h = true

theorem Grows.ord : PreOrd Grows :=
  ⟨fun _ h => ⟨h, fun _ h => h, fun _ h => h⟩, fun h1 h2 hc => by
    obtain ⟨a1, a2, a3⟩ := h1 hc
    obtain ⟨b1, b2, b3⟩ := h2 a1
    exact ⟨b1, fun h hh => b2 h (a2 h hh), fun h hh => b3 h (a3 h hh)⟩⟩

theorem Grows.of_calls {s s' : St} (h : s'.calls = s.calls) : Grows s s' := by
  intro hc
  unfold Coh at *
  rw [h]
  exact ⟨hc, fun _ h => h, fun _ h => h⟩

theorem Quiet.grows {s s' : St} (h : Quiet s s') : Grows s s' := .of_calls h.calls

theorem Pres.grows {α : Type} {m : M α} (h : Pres Quiet m) : Pres Grows m := h.mono (fun _ _ h => h.grows)

theorem InMem.exists_save {m : InMem} {c : CallRec} {h : String} :
    (m.save c).exists_ h = true ↔ m.exists_ h = true ∨ h = c.hid := by
  unfold InMem.save InMem.exists_
  split
  · rename_i hm
    constructor
    · exact .inl
    · rintro (h | rfl)
      · exact h
      · simpa using hm
  · simp

theorem exists_iff {s : CachedCalls} {h : String} : s.exists_ h = true ↔ s.cache.exists_ h = true ∨ sqlExists s.pers h = true := by
  unfold CachedCalls.exists_
  split <;> simp_all

theorem grows_save {s : St} {c : CallRec} : Grows s { s with calls := s.calls.save c } ∧
    (s.calls.save c).exists_ c.hid = true := by
  refine ⟨fun hc => ⟨?_, ?_, fun _ h => h⟩, ?_⟩
  · intro h hh
    simp only [CachedCalls.save, InMem.exists_save] at hh ⊢
    rcases hh with hh | rfl
    · rcases hc h hh with h1 | h1
      · left; split <;> simp [h1]
      · exact .inr h1
    · left; split <;> simp_all
  · intro h hh
    rw [exists_iff] at hh ⊢
    rcases hh with hh | hh
    · left; simp only [CachedCalls.save, InMem.exists_save]; exact .inl hh
    · exact .inr hh
  · rw [exists_iff]; left
    simp [CachedCalls.save, InMem.exists_save]

theorem grows_saveCall (c : CallObj) : Pres Grows (saveCall c) := by
  unfold saveCall
  refine Pres.bind Grows.ord (Pres.read Grows.ord _) (fun _ => Pres.ite (fun _ => Pres.pure Grows.ord _) (fun _ => ?_))
  refine Pres.bind Grows.ord (Pres.bind Grows.ord (Pres.read Grows.ord _) (fun _ => Pres.ite (fun _ => Pres.pure Grows.ord _)
    (fun _ => (quiet_opsSet _).grows))) (fun _ => ?_)
  exact Pres.bind Grows.ord (quiet_saveRefs _).grows (fun _ s => grows_save.1)

/-- After a call has been saved it is recorded. -/
theorem saveCall_exists {c : CallObj} {s s' : St} (h : saveCall c s = (.ok (), s')) : s'.calls.exists_ c.hid = true := by
  have heq : saveCall c s = if s.calls.exists_ c.hid then (.ok (), s) else
      M.bind (do if ← M.read (fun s => s.ops.exists_ c.op) then M.pure () else opsSet c.op)
        (fun _ => M.bind (saveRefs (c.inputs.map (·.2) ++ c.outputs.map (·.2)))
          (fun _ s => (.ok (), { s with calls := s.calls.save c.toRec }))) s := by
    unfold saveCall
    show M.bind _ _ s = _
    unfold M.bind
    simp only [M.read]
    split <;> rfl
  rw [heq] at h
  split at h
  · cases h; assumption
  · unfold M.bind at h
    split at h
    · dsimp only at h
      split at h
      · cases h
        exact grows_save.2
      · cases h
    · cases h

theorem grows_callInternal (cfg : Cfg) (d : OpDef) (args : List BArg) : Pres Grows (callInternal cfg d args) := by
  unfold callInternal
  refine Pres.bind Grows.ord (quiet_wrapInputs cfg _).grows (fun p => ?_)
  refine Pres.bind Grows.ord (quiet_lookupCall cfg _ _ _ _).grows (fun o => ?_)
  cases o with
  | some c => exact Pres.pure Grows.ord _
  | none =>
    refine Pres.bind Grows.ord (Pres.read Grows.ord _) (fun _ => Pres.ite (fun _ => ?_) (fun _ => Pres.raise Grows.ord _))
    refine Pres.bind Grows.ord (Pres.mapM' Grows.ord _ (fun a _ => Pres.bind Grows.ord (quiet_bodyArg cfg _).grows (fun _ => Pres.pure Grows.ord _))) (fun _ => ?_)
    refine Pres.bind Grows.ord (fun s => .of_calls rfl) (fun _ => ?_)
    refine Pres.bind Grows.ord (Pres.lift Grows.ord _) (fun _ => Pres.bind Grows.ord (Pres.lift Grows.ord _) (fun _ => ?_))
    refine Pres.bind Grows.ord (Pres.mapM' Grows.ord _ (fun a _ => Pres.bind Grows.ord (quiet_wrapOutput cfg _ _ _).grows (fun _ => Pres.pure Grows.ord _))) (fun _ => ?_)
    exact Pres.pure Grows.ord _

theorem grows_call (cfg : Cfg) (d : OpDef) (args : List BArg) : Pres Grows (call cfg d args) := by
  unfold call
  refine Pres.bind Grows.ord (grows_callInternal cfg d args) (fun p => ?_)
  refine Pres.bind Grows.ord (grows_saveCall _) (fun _ => ?_)
  refine Pres.bind Grows.ord (Pres.forM' Grows.ord _ (fun c _ => grows_saveCall c)) (fun _ => ?_)
  exact Pres.lift Grows.ord _

theorem insertRows_sub : ∀ {rs rows rows' : List Row} {x : Except Err Unit}, insertRows rows rs = (x, rows') → ∀ r ∈ rows, r ∈ rows'
  | [], rows, rows', x, h => by simp only [insertRows, Prod.mk.injEq] at h; rw [← h.2]; exact fun _ h => h
  | r :: rs, rows, rows', x, h => by
    simp only [insertRows] at h
    cases hi : insertRow rows r with
    | error e => rw [hi] at h; simp only [Prod.mk.injEq] at h; rw [← h.2]; exact fun _ h => h
    | ok rows1 =>
      rw [hi] at h
      unfold insertRow at hi
      split at hi <;> cases hi
      intro q hq
      exact insertRows_sub h q (by simp [hq])

theorem insertRows_all : ∀ {rs rows rows' : List Row}, insertRows rows rs = (.ok (), rows') → ∀ r ∈ rs, r ∈ rows'
  | [], _, _, _ => by simp
  | r :: rs, rows, rows', h => by
    simp only [insertRows] at h
    cases hi : insertRow rows r with
    | error e => rw [hi] at h; simp at h
    | ok rows1 =>
      rw [hi] at h
      unfold insertRow at hi
      split at hi <;> cases hi
      intro q hq
      rcases List.mem_cons.1 hq with rfl | hq
      · exact insertRows_sub h q (by simp)
      · exact insertRows_all h q hq

theorem sqlExists_iff {rows : List Row} {h : String} : sqlExists rows h = true ↔ ∃ r ∈ rows, r.callHid = h := by
  simp [sqlExists]

theorem flush_sub {cache : InMem} : ∀ {hs : List String} {rows rows' : List Row} {x : Except Err Unit},
    CachedCalls.flush cache hs rows = (x, rows') → ∀ r ∈ rows, r ∈ rows'
  | [], rows, rows', x, h => by simp only [CachedCalls.flush, Prod.mk.injEq] at h; rw [← h.2]; exact fun _ h => h
  | h :: hs, rows, rows', x, hf => by
    simp only [CachedCalls.flush] at hf
    cases hg : cache.getData h with
    | error e => rw [hg] at hf; simp only [Prod.mk.injEq] at hf; rw [← hf.2]; exact fun _ h => h
    | ok d =>
      rw [hg] at hf
      simp only at hf
      cases hs' : sqlSave rows d with
      | mk y rows1 =>
        rw [hs'] at hf
        have h1 := insertRows_sub hs'
        cases y with
        | error e => simp only [Prod.mk.injEq] at hf; rw [← hf.2]; exact h1
        | ok _ =>
          intro r hr
          exact flush_sub hf r (h1 r hr)

theorem dict_set_ne_nil {α : Type} (d : Dict String α) (k : String) (v : α) : Dict.set d k v ≠ [] := by
  cases d with
  | nil => simp [Dict.set]
  | cons p d => simp only [Dict.set]; split <;> simp

theorem foldl_addRow_ne : ∀ (rs : List Row) (d : CallData), (d.inputHids ≠ [] ∨ d.outputHids ≠ []) →
    (rs.foldl CallData.addRow d).inputHids ≠ [] ∨ (rs.foldl CallData.addRow d).outputHids ≠ []
  | [], _, h => h
  | r :: rs, d, h => by
    refine foldl_addRow_ne rs _ ?_
    unfold CallData.addRow
    cases r.dir
    · exact .inl (dict_set_ne_nil _ _ _)
    · exact .inr (dict_set_ne_nil _ _ _)

theorem dataOfRows_ne {rows : List Row} {h : String} {d : CallData} (hd : dataOfRows (rowsOf rows h) = some d) :
    d.hid = h ∧ (d.inputHids ≠ [] ∨ d.outputHids ≠ []) := by
  unfold dataOfRows at hd
  split at hd
  · cases hd
  · rename_i r rs heq
    cases hd
    constructor
    · rw [(foldl_header _ _).1]
      have : r ∈ rowsOf rows h := by rw [heq]; simp
      exact (mem_rowsOf.1 this).2
    · simp only [List.foldl_cons]
      refine foldl_addRow_ne rs _ ?_
      unfold CallData.addRow
      cases r.dir
      · exact .inl (dict_set_ne_nil _ _ _)
      · exact .inr (dict_set_ne_nil _ _ _)

theorem getData_row {m : InMem} {h : String} {d : CallData} (hd : m.getData h = .ok d) :
    ∃ r ∈ d.toRows, r.callHid = h := by
  obtain ⟨h1, h2⟩ := dataOfRows_ne (getData_rows hd)
  unfold CallData.toRows
  rcases h2 with h2 | h2
  · obtain ⟨p, hp⟩ := List.exists_mem_of_ne_nil _ h2
    exact ⟨_, List.mem_append_left _ (List.mem_map_of_mem hp), h1⟩
  · obtain ⟨p, hp⟩ := List.exists_mem_of_ne_nil _ h2
    exact ⟨_, List.mem_append_right _ (List.mem_map_of_mem hp), h1⟩

theorem calls_flush_all {cache : InMem} : ∀ {hs : List String} {rows rows' : List Row},
    CachedCalls.flush cache hs rows = (.ok (), rows') → ∀ h ∈ hs, sqlExists rows' h = true
  | [], _, _, _ => by simp
  | h :: hs, rows, rows', hf => by
    simp only [CachedCalls.flush] at hf
    cases hg : cache.getData h with
    | error e => rw [hg] at hf; simp at hf
    | ok d =>
      rw [hg] at hf
      simp only at hf
      cases hs' : sqlSave rows d with
      | mk y rows1 =>
        rw [hs'] at hf
        cases y with
        | error e => simp at hf
        | ok _ =>
          have h1 := insertRows_all hs'
          intro k hk
          rcases List.mem_cons.1 hk with rfl | hk
          · have hd := getData_row hg
            rw [sqlExists_iff]
            obtain ⟨r, hr, hrh⟩ := hd
            exact ⟨r, flush_sub hf r (h1 r hr), hrh⟩
          · exact calls_flush_all hf k hk

/-- What `commit` does to the call table. -/
theorem commit_calls {cfg : Cfg} {s s' : St} {x : Except Err Unit} (h : commit cfg s = (x, s')) :
    s'.calls.cache = s.calls.cache ∧ ((∃ e, x = .error e) ∧ s'.calls.pers = s.calls.pers ∧ s'.calls.dirty = s.calls.dirty ∨
      x = .ok () ∧ s'.calls.dirty = [] ∧ CachedCalls.flush s.calls.cache s.calls.dirty s.calls.pers = (.ok (), s'.calls.pers)) := by
  unfold commit commitBody at h
  cases hac : s.atoms.commit cfg.sizeA with
  | mk xa a =>
    rw [hac] at h
    cases xa with
    | error e => cases h; exact ⟨rfl, .inl ⟨⟨e, rfl⟩, rfl, rfl⟩⟩
    | ok _ =>
      simp only at h
      cases hbc : s.shapes.commit cfg.sizeS with
      | mk xb b =>
        rw [hbc] at h
        cases xb with
        | error e => cases h; exact ⟨rfl, .inl ⟨⟨e, rfl⟩, rfl, rfl⟩⟩
        | ok _ =>
          simp only at h
          cases hoc : s.ops.commit cfg.sizeO with
          | mk xo o =>
            rw [hoc] at h
            cases xo with
            | error e => cases h; exact ⟨rfl, .inl ⟨⟨e, rfl⟩, rfl, rfl⟩⟩
            | ok _ =>
              simp only at h
              unfold CachedCalls.commit at h
              cases hcc : CachedCalls.flush s.calls.cache s.calls.dirty s.calls.pers with
              | mk xc c =>
                rw [hcc] at h
                cases xc with
                | error e => cases h; exact ⟨rfl, .inl ⟨⟨e, rfl⟩, rfl, rfl⟩⟩
                | ok _ => cases h; exact ⟨rfl, .inr ⟨rfl, rfl, rfl⟩⟩

theorem grows_commit (cfg : Cfg) : Pres Grows (commit cfg) := by
  intro s hc
  obtain ⟨h1, h2⟩ := commit_calls (x := (commit cfg s).1) (s' := (commit cfg s).2) rfl
  rcases h2 with ⟨_, h3, h4⟩ | ⟨_, h3, h4⟩
  · refine ⟨?_, ?_, ?_⟩
    · intro h hh; rw [h4, h3]; rw [h1] at hh; exact hc h hh
    · intro h hh; rw [exists_iff, h1, h3, ← exists_iff]; exact hh
    · intro h hh; rw [h3]; exact hh
  · have hs := flush_sub h4
    have hp : ∀ h, sqlExists s.calls.pers h = true → sqlExists (commit cfg s).2.calls.pers h = true := by
      intro h hh
      rw [sqlExists_iff] at hh ⊢
      obtain ⟨r, hr, hrh⟩ := hh
      exact ⟨r, hs r hr, hrh⟩
    refine ⟨?_, ?_, hp⟩
    · intro h hh
      rw [h1] at hh
      rcases hc h hh with h5 | h5
      · exact .inr (calls_flush_all h4 h h5)
      · exact .inr (hp h h5)
    · intro h hh
      rw [exists_iff] at hh ⊢
      rw [h1]
      rcases hh with hh | hh
      · exact .inl hh
      · exact .inr (hp h hh)

/-- A successful commit puts every recorded call into the database. -/
theorem commit_persists {cfg : Cfg} {s s' : St} (hc : Coh s) (h : commit cfg s = (.ok (), s')) {x : String}
    (hx : s.calls.exists_ x = true) : sqlExists s'.calls.pers x = true := by
  have hg := grows_commit cfg s hc
  rw [h] at hg
  obtain ⟨h1, h2⟩ := commit_calls h
  rcases h2 with ⟨⟨e, he⟩, _⟩ | ⟨_, h3, h4⟩
  · cases he
  · rw [exists_iff] at hx
    rcases hx with hx | hx
    · rcases hc x hx with h5 | h5
      · exact calls_flush_all h4 x h5
      · exact hg.2.2 x h5
    · exact hg.2.2 x hx

/-- What `clear_cache` does to the call table. -/
theorem clearCache_calls {b : Bool} {s s' : St} {x : Except Err Unit} (h : clearCache b s = (x, s')) :
    s'.calls = s.calls ∨ (b = true ∨ s.calls.dirty = []) ∧ s'.calls = { s.calls with cache := .empty, dirty := [] } := by
  unfold clearCache at h
  cases hac : s.atoms.clear b with
  | mk xa a =>
    rw [hac] at h
    cases xa with
    | error e => cases h; exact .inl rfl
    | ok _ =>
      simp only at h
      cases hbc : s.shapes.clear b with
      | mk xb b' =>
        rw [hbc] at h
        cases xb with
        | error e => cases h; exact .inl rfl
        | ok _ =>
          simp only at h
          cases hoc : s.ops.clear b with
          | mk xo o =>
            rw [hoc] at h
            cases xo with
            | error e => cases h; exact .inl rfl
            | ok _ =>
              simp only at h
              unfold CachedCalls.clear at h
              by_cases hd : (decide (s.calls.dirty.length > 0) && !b) = true
              · rw [if_pos hd] at h; cases h; exact .inl rfl
              · rw [if_neg hd] at h; cases h
                right
                refine ⟨?_, rfl⟩
                cases b with
                | true => exact .inl rfl
                | false =>
                  right
                  simp only [Bool.not_false, Bool.and_true, decide_eq_true_eq] at hd
                  exact List.eq_nil_of_length_eq_zero (by omega)

theorem grows_clearCache : Pres Grows (clearCache false) := by
  intro s hc
  rcases clearCache_calls (x := (clearCache false s).1) (s' := (clearCache false s).2) rfl with h | ⟨h1, h2⟩
  · exact Grows.of_calls h hc
  · refine ⟨?_, ?_, ?_⟩
    · intro h hh; rw [h2] at hh; simp [InMem.empty, InMem.exists_] at hh
    · intro h hh
      rw [exists_iff] at hh ⊢
      rw [h2]
      right
      rcases hh with hh | hh
      · rcases h1 with h1 | h1
        · cases h1
        · rcases hc h hh with h3 | h3
          · rw [h1] at h3; simp at h3
          · exact h3
      · exact hh
    · intro h hh; rw [h2]; exact hh

theorem grows_cleanupRefs : Pres Grows cleanupRefs := by
  unfold cleanupRefs
  refine Pres.bind Grows.ord (Pres.read Grows.ord _) (fun _ => ?_)
  refine Pres.bind Grows.ord (Pres.forM' Grows.ord _ (fun h _ => fun s => .of_calls rfl)) (fun _ => ?_)
  refine Pres.bind Grows.ord (Pres.read Grows.ord _) (fun _ => ?_)
  exact Pres.forM' Grows.ord _ (fun h _ => fun s => .of_calls rfl)

/-- Persisted calls stay persisted. -/
def GrowsP (s s' : St) : Prop := Coh s → Coh s' ∧ ∀ h, sqlExists s.calls.pers h = true → sqlExists s'.calls.pers h = true

theorem Grows.toP {s s' : St} (h : Grows s s') : GrowsP s s' := fun hc => ⟨(h hc).1, (h hc).2.2⟩

theorem growsP_clearCache (b : Bool) : Pres GrowsP (clearCache b) := by
  intro s hc
  rcases clearCache_calls (x := (clearCache b s).1) (s' := (clearCache b s).2) rfl with h | ⟨h1, h2⟩
  · exact (Grows.of_calls h).toP hc
  · refine ⟨?_, ?_⟩
    · intro h hh; rw [h2] at hh; simp [InMem.empty, InMem.exists_] at hh
    · intro h hh; rw [h2]; exact hh

theorem growsP_preload : Pres GrowsP preload := by
  intro s hc
  unfold preload St.setCallCache
  cases hs : s.stale with
  | none =>
    refine ⟨?_, fun h hh => hh⟩
    intro h hh
    right
    simp only [InMem.ofRows, InMem.exists_, decide_eq_true_eq, List.mem_map] at hh
    rw [sqlExists_iff]
    exact hh
  | some m => exact ⟨hc, fun h hh => hh⟩

theorem growsP_reopen : Pres GrowsP reopen := by
  intro s hc
  refine ⟨?_, fun h hh => hh⟩
  intro h hh
  simp [reopen, CachedCalls.open_, InMem.empty, InMem.exists_] at hh

end Verif
