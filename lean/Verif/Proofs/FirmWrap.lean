import Verif.Proofs.FirmLookup
/-!
Wrapping arguments and outputs does not fail.
-/
namespace Verif

theorem All2.flip {α β : Type} {R : α → β → Prop} {l : List α} {bs : List β} (h : All2 R l bs) : All2 (fun b a => R a b) bs l := by
  induction h with
  | nil => exact .nil
  | cons h1 _ ih => exact .cons h1 ih

theorem All2.map_eq {α β γ : Type} {R : α → β → Prop} {f : α → γ} {g : β → γ} (hR : ∀ a b, R a b → f a = g b) {l : List α} {bs : List β}
    (h : All2 R l bs) : l.map f = bs.map g := by
  induction h with
  | nil => rfl
  | cons h1 _ ih => simp only [List.map_cons, hR _ _ h1, ih]

theorem Keeps.mapM2 {α β γ : Type} {I : St → Prop} {e : Err → Prop} {R : α → β → Prop} {Q : α → β → γ → Prop} {f : α → M γ}
    {l : List α} {bs : List β} (h : All2 R l bs) (hf : ∀ a ∈ l, ∀ b ∈ bs, R a b → Keeps I (f a) (Q a b) e) :
    Keeps I (M.mapM' f l) (fun cs => All2 (fun a c => ∃ b ∈ bs, R a b ∧ Q a b c) l cs ∧
      All2 (fun b c => ∃ a ∈ l, R a b ∧ Q a b c) bs cs) e := by
  induction h with
  | nil => exact Keeps.pure ⟨.nil, .nil⟩
  | @cons a b l bs h1 h2 ih =>
    refine Keeps.bind (hf a (by simp) b (by simp) h1) (fun c hc => ?_)
    refine Keeps.bind (ih (fun a' ha b' hb => hf a' (List.mem_cons_of_mem _ ha) b' (List.mem_cons_of_mem _ hb))) (fun cs hcs => ?_)
    refine Keeps.pure ⟨.cons ⟨b, by simp, h1, hc⟩ (hcs.1.imp ?_), .cons ⟨a, by simp, h1, hc⟩ (hcs.2.imp ?_)⟩
    · rintro x y ⟨b', hb', hh⟩; exact ⟨b', List.mem_cons_of_mem _ hb', hh⟩
    · rintro x y ⟨b', hb', hh⟩; exact ⟨b', List.mem_cons_of_mem _ hb', hh⟩

/-- The call is on record or may be recorded. -/
def MayCall (s0 : St) (h : String) : Prop := s0.allowNew = true ∨ s0.calls.exists_ h = true

/-- What has a record, or gets one when these calls are saved. -/
def NewS (s0 : St) (calls : List CallObj) (h : String) : Prop :=
  Has s0.shapes h ∨ ∃ c ∈ calls, ∃ p ∈ c.outputs, p.2.hid = h

theorem NewS.mono {s0 : St} {calls calls' : List CallObj} (hs : ∀ c ∈ calls, c ∈ calls') {h : String} : NewS s0 calls h → NewS s0 calls' h := by
  rintro (h | ⟨c, hc, hp⟩)
  · exact .inl h
  · exact .inr ⟨c, hs c hc, hp⟩

section
variable {W : World} {s0 : St}

theorem FirmTop.firm_coll {S : String → Prop} {r : Ref} {k : Kind} {ks : List String} {ts : List TVal} (hr : RefOK W r (.coll k ks ts))
    (h : FirmTop S r) : Firm S r := by
  cases r with
  | atom c h o =>
    simp only [RefOK] at hr
    obtain ⟨_, v, hv, _⟩ := hr
    cases hv
  | coll => exact h

theorem lookOK_struct (hW : W.Good) {op out : String} {ins : List In} {t : TVal} (hsem : Sem W op 0 (canon (insVals ins)) [(out, t)])
    (hin : ∀ i ∈ ins, i.t.Fits W.cfg.fuel) (ht : t.Fits W.cfg.fuel) : LookOK W op 0 (some [out]) ins where
  fitsIn := hin
  outs := by
    intro outs hs
    have := sem_functional hW hs hsem rfl rfl rfl
    subst this
    refine ⟨fun p hp => ?_, fun _ => by simp, 1, ⟨by simp, rfl⟩, by simp [Dict.keys, outNamesOf, dumpOutputName]⟩
    simp only [List.mem_singleton] at hp
    subst hp
    exact ht

theorem firm_structCall (hW : W.Good) (hB : Base W s0) {op out : String} {inputs : List (String × Ref)} {ins : List In}
    {compute : Except Err Ref} {t : TVal} {P : Prop} (hi : InsOK W inputs ins) (hn : (Dict.keys inputs).Nodup)
    (hsem : Sem W op 0 (canon (insVals ins)) [(out, t)])
    (hc : ∀ r, compute = .ok r → ∀ h, Prov W h t → RefOK W (r.withHid h) t) (he : ∀ e, compute = .error e → SErr e)
    (hP : P → t.Flat) (hf : ∀ r, compute = .ok r → P → FirmTop (Has s0.shapes) r) :
    Keeps (During W s0) (structCall W.cfg op out inputs compute)
      (fun c => (CallOK W c ∧ c.hid = callId W.H op 0 (insHids ins) ∧ ∃ r, c.outputs = [(out, r)] ∧
          r.hid = outHid W.H (callId W.H op 0 (insHids ins)) out ∧ RefOK W r t) ∧
        (∀ p ∈ c.outputs, P → FirmTop (Has s0.shapes) p.2))
      (fun _ => ¬ ((∀ i ∈ ins, i.t.Fits W.cfg.fuel) ∧ t.Fits W.cfg.fuel ∧ MayCall s0 (callId W.H op 0 (insHids ins)) ∧ ∃ r, compute = .ok r)) := by
  have hk := during_reads (s0 := s0) (keeps_structCall hW hi hn hsem hc he) (fun hR => pres_structCall hR.toReads _ _ _ _ _)
  refine (hk.and (q' := fun c => ∀ p ∈ c.outputs, P → Prov W p.2.hid t → FirmTop (Has s0.shapes) p.2)
    (e' := fun _ => ¬ ((∀ i ∈ ins, i.t.Fits W.cfg.fuel) ∧ t.Fits W.cfg.fuel ∧ MayCall s0 (callId W.H op 0 (insHids ins)) ∧ ∃ r, compute = .ok r)) ?_).mono
    (fun c h => ⟨h.1, fun p hp ht => ?_⟩) (fun _ h => h.2)
  · unfold structCall
    refine Keeps.bind ((firm_lookupCall hW hB hi).mono (fun _ h => h) (fun _ hn hh => hn (lookOK_struct hW hsem hh.1 hh.2.1))) (fun o ho => ?_)
    cases o with
    | some c => exact Keeps.pure (fun p hp h ht => (ho.1 c rfl).2.1 p hp t ht (hP h))
    | none =>
      have hno := ho.2 rfl
      refine Keeps.bind (q := fun b => b = s0.allowNew) (Keeps.read (fun s hs => hs.allow)) (fun b hb => Keeps.ite (fun _ => ?_) (fun hbf => Keeps.raise ?_))
      · refine Keeps.bind (q := fun r => compute = .ok r) (Keeps.lift (fun r hr => hr) (fun e he hh => ?_)) (fun r hr => Keeps.pure ?_)
        · obtain ⟨_, _, _, r, hr⟩ := hh
          rw [he] at hr; cases hr
        · intro p hp h _
          simp only [List.mem_singleton] at hp
          subst hp
          exact FirmTop.withHid (hf r hr h) _
      · rintro ⟨_, _, hm, _⟩
        rcases hm with hm | hm
        · rw [hb] at hbf; exact hbf hm
        · rw [hno] at hm; cases hm
  · obtain ⟨_, _, r, ho, hh, hr⟩ := h.1
    refine h.2 p hp ht ?_
    rw [ho] at hp
    simp only [List.mem_singleton] at hp
    subst hp
    exact hr.prov

/-! ### arguments -/

/-- If the value survives a round trip, the ref can be unwrapped. -/
def EFirm (W : World) (S : String → Prop) (r : Ref) : Prop := ∀ t, RefOK W r t → t.Flat → Firm S r

mutual
/-- The refs in the argument can be unwrapped. -/
def ArgFirm (W : World) (S : String → Prop) : Arg → Prop
  | .ref r => EFirm W S r
  | .list xs => ArgsFirm W S xs
  | .dict _ xs => ArgsFirm W S xs
  | _ => True
/-- pointwise -/
def ArgsFirm (W : World) (S : String → Prop) : List Arg → Prop
  | [] => True
  | x :: xs => ArgFirm W S x ∧ ArgsFirm W S xs
end

theorem argsFirm_iff {S : String → Prop} : ∀ {xs : List Arg}, ArgsFirm W S xs ↔ ∀ x ∈ xs, ArgFirm W S x
  | [] => by simp [ArgsFirm]
  | x :: xs => by simp [ArgsFirm, argsFirm_iff (xs := xs)]

theorem ArgFirm.items {S : String → Prop} {k : Kind} {a : Arg} {keys : List String} {items : List Arg} (h : ArgFirm W S a)
    (hi : plainItems k a = some (keys, items)) : ∀ x ∈ items, ArgFirm W S x := by
  unfold plainItems at hi
  split at hi <;> simp only [Option.some.injEq, Prod.mk.injEq, reduceCtorEq] at hi
  all_goals obtain ⟨rfl, rfl⟩ := hi
  · intro x hx
    simp only [List.mem_map] at hx
    obtain ⟨v, _, rfl⟩ := hx
    simp [ArgFirm]
  · simp only [ArgFirm] at h; exact argsFirm_iff.1 h
  · intro x hx
    simp only [List.mem_map] at hx
    obtain ⟨v, _, rfl⟩ := hx
    simp [ArgFirm]
  · simp only [ArgFirm] at h; exact argsFirm_iff.1 h

theorem CallObj.refs_of_outputs {c : CallObj} {p : String × Ref} (h : c.outputs = [p]) : c.refs ≠ [] := by
  unfold CallObj.refs; rw [h]; simp

theorem firm_construct (hW : W.Good) (hB : Base W s0) : ∀ (ty : Ty) (a : Arg) (t : TVal), ArgT W ty a t → ArgFirm W (Has s0.shapes) a →
    Keeps (During W s0) (construct W.cfg ty a)
      (fun p => WrapOK W ty a t p ∧ (t.Flat → Firm (Has s0.shapes) p.1) ∧ ∀ c ∈ p.2, c.refs ≠ [])
      (fun _ => ¬ (t.Fits W.cfg.fuel ∧ ∀ h ∈ structHids W.H ty a, MayCall s0 h)) := by
  intro ty a t hat haf
  have hk := during_reads (s0 := s0) (keeps_construct hW ty a t hat) (fun hR => pres_construct hR.toReads _ _ _)
  refine (hk.and (q' := fun p => (t.Flat → Firm (Has s0.shapes) p.1) ∧ ∀ c ∈ p.2, c.refs ≠ [])
    (e' := fun _ => ¬ (t.Fits W.cfg.fuel ∧ ∀ h ∈ structHids W.H ty a, MayCall s0 h)) ?_).mono (fun _ h => h) (fun _ h => h.2)
  clear hk
  induction ty generalizing a t with
  | atom =>
    cases a <;> simp only [ArgT] at hat
    · unfold construct
      exact Keeps.pure ⟨fun hf => haf t hat hf, by simp⟩
    · unfold construct
      obtain ⟨rfl, hw⟩ := hat
      refine Keeps.pure ⟨fun _ => ?_, by simp⟩
      rename_i v _
      have hnp : wrapAtom W.cfg v none = .atom (W.H v) (rawHid W.H v) (some v) := by
        cases v <;> try rfl
        simp only [TVal.Wf] at hw
        exact absurd rfl (hw.1 _)
      rw [hnp]
      simp [Firm]
  | unsupported =>
    cases a <;> simp only [ArgT] at hat
    unfold construct; exact Keeps.pure ⟨fun hf => haf t hat hf, by simp⟩
  | coll k ty ih =>
    by_cases har : ∃ r, a = .ref r
    · obtain ⟨r, rfl⟩ := har
      simp only [ArgT] at hat
      unfold construct; exact Keeps.pure ⟨fun hf => haf t hat hf, by simp⟩
    have har' : ∀ r, a ≠ .ref r := fun r hr => har ⟨r, hr⟩
    have h' : ∃ keys items ts, plainItems k a = some (keys, items) ∧ t = .coll k keys ts ∧ t.Wf W ∧
        All2 (ArgT W ty) items ts := by
      cases a with
      | ref r => exact absurd rfl (har' r)
      | _ => simpa only [ArgT] using hat
    obtain ⟨keys, items, ts, hi, rfl, hw, hall⟩ := h'
    have hitems : construct W.cfg (.coll k ty) a = (do
        let (keys, items) ← M.lift (argItems k a)
        let rs ← M.mapM' (construct W.cfg ty) items
        let refs := rs.map (·.1)
        let main ← structCall W.cfg (builderName k) (builderOut k) ((structNames k keys refs.length).zip refs)
          (.ok (makeColl W.cfg k keys refs))
        match main.outputs with
        | [] => M.raise .indexError
        | (_, out) :: _ => M.pure (out, rs.flatMap (·.2) ++ [main])) := by
      cases a with
      | ref r => exact absurd rfl (har' r)
      | _ => rw [construct]; · rfl
             · intro r hr; cases hr
    rw [hitems, argItems_plain hi]
    refine Keeps.bind (q := fun p => p = (keys, items)) (Keeps.lift (fun p hp => by cases hp; rfl) (fun e he => by cases he))
      (fun p hp => ?_)
    subst hp
    have hsh := structHids_coll (W := W) (ty := ty) har' hi
    refine Keeps.bind (Keeps.mapM2 hall (Q := fun x t p => WrapOK W ty x t p ∧ (t.Flat → Firm (Has s0.shapes) p.1) ∧ ∀ c ∈ p.2, c.refs ≠ [])
      (fun x hx tx htx hxt => ?_)) (fun rs hrs => ?_)
    · have hk := during_reads (s0 := s0) (keeps_construct hW ty x tx hxt) (fun hR => pres_construct hR.toReads _ _ _)
      refine (hk.and (ih x tx hxt (haf.items hi x hx))).mono (fun _ h => h) (fun _ h hc => h.2 ⟨hc.1.elts tx htx, fun h' hh' => hc.2 h' ?_⟩)
      rw [hsh, List.mem_append, List.mem_flatMap]
      exact .inl ⟨x, hx, hh'⟩
    obtain ⟨hrs1, hrs2⟩ := hrs
    have hrefs : All2 (RefOK W) (rs.map (·.1)) ts := by
      rw [All2.map_left]
      exact hrs2.flip.imp (fun p t h => by obtain ⟨_, _, _, h2, _⟩ := h; exact h2.1)
    have hhids : rs.map (fun p => p.1.hid) = items.map (argHid W.H ty) :=
      (All2.map_eq (fun x p h => by obtain ⟨_, _, _, h2, _⟩ := h; exact h2.2.1.symm) hrs1).symm
    have hwf := hw
    simp only [TVal.Wf] at hw
    obtain ⟨hk, hemp, hwfs⟩ := hw
    have hlen : (rs.map (·.1)).length = ts.length := hrefs.length_eq
    have hk' : KeysOK k keys (rs.map (·.1)).length := by rw [hlen]; exact hk
    obtain ⟨hins, hvals, hhid⟩ := mkIns_ok (names := structNames k keys (rs.map (·.1)).length) hrefs (structNames_length hk')
    refine Keeps.bind ((firm_structCall hW hB (t := .coll k keys ts) (P := (TVal.coll k keys ts).Flat) hins ?_ ?_ ?_ (fun e he => by cases he) id ?_).mono (fun _ h => h)
      (fun _ hn hc => hn ⟨fun i hi' => ?_, hc.1, hc.2 _ ?_, _, rfl⟩)) (fun main hmain => ?_)
    · rw [zip_keys (structNames_length hk')]
      exact structNames_nodup hk'
    · rw [hvals, hlen]
      exact Sem.make hwf
    · intro r hr h hp
      cases hr
      simp only [makeColl, Ref.withHid, RefOK]
      refine ⟨hp, keys, ts, rfl, ?_, fun _ => ⟨rfl, refsOK_iff.2 hrefs⟩⟩
      have hcids : ∀ {rs : List Ref} {ts : List TVal}, All2 (RefOK W) rs ts → rs.map Ref.cid = TVal.cids W.H ts := by
        intro rs ts h
        induction h with
        | nil => rfl
        | cons h1 _ ih => simp only [List.map_cons, TVal.cids, h1.cid, ih]
      simp only [TVal.cid, hcids hrefs]
    · intro r hr hf
      cases hr
      refine ⟨rfl, firms_iff.2 (fun r hr => ?_)⟩
      simp only [List.mem_map] at hr
      obtain ⟨p, hp, rfl⟩ := hr
      obtain ⟨tx, htx, x, _, _, h2⟩ := hrs2.mem_right hp
      exact h2.2.1 (hf.elts tx htx)
    · have hm : (i.name, i.t) ∈ (structNames k keys (rs.map (·.1)).length).zip ts := by
        rw [← hvals]; exact List.mem_map.2 ⟨i, hi', rfl⟩
      exact hc.1.elts _ (List.of_mem_zip hm).2
    · rw [hsh, List.mem_append, List.mem_singleton]
      right
      rw [hhid]
      have : items.length = (rs.map (·.1)).length := by rw [List.length_map]; exact hrs1.length_eq
      rw [this, ← hhids, List.map_map]
      rfl
    · obtain ⟨⟨hok, hmh, r, hout, hrh, hr⟩, hfirm⟩ := hmain
      have hr1 := CallObj.refs_of_outputs hout
      rw [hout] at hfirm ⊢
      refine Keeps.pure ⟨fun hf => (hfirm (builderOut k, r) (by simp) hf).firm_coll hr, ?_⟩
      intro c hc
      simp only [List.mem_append, List.mem_singleton, List.mem_flatMap] at hc
      rcases hc with ⟨p, hp, hc⟩ | rfl
      · obtain ⟨tx, htx, x, _, _, h2⟩ := hrs2.mem_right hp
        exact h2.2.2 c hc
      · exact hr1

/-! ### outputs -/

theorem getItem_total {k : Kind} {keys : List String} {elts : List Ref} {ts : List TVal} {idx : Val} {t : TVal}
    (hr : All2 (RefOK W) elts ts) (ht : eltAt k keys ts idx = some t) : ∃ r, getItem k keys elts idx = .ok r := by
  cases k <;> cases idx <;> simp only [getItem, eltAt, reduceCtorEq] at ht ⊢
  · obtain ⟨r, hr', _⟩ := hr.get?_right _ ht
    rw [hr']; exact ⟨r, rfl⟩
  · obtain ⟨r, hr', _⟩ := get?_zip_rel hr.flip ht
    rw [hr']; exact ⟨r, rfl⟩

theorem firm_destruct (hW : W.Good) (hB : Base W s0) : ∀ (ty : Ty) (r : Ref) (t : TVal) (P : Prop), RefOK W r t →
    (P → t.Flat) → (P → FirmTop (Has s0.shapes) r) → Keeps (During W s0) (destruct W.cfg ty r)
      (fun p => (RefOK W p.1 t ∧ p.1.hid = r.hid ∧ ∀ c ∈ p.2, CallOK W c) ∧ (P → FirmTop (NewS s0 p.2) p.1) ∧ ∀ c ∈ p.2, c.refs ≠ [])
      (fun _ => ¬ (P ∧ t.Fits W.cfg.fuel ∧ s0.allowNew = true ∧ ∃ v, ValT ty v t)) := by
  intro ty r t P hrt hP hft
  have hk := during_reads (s0 := s0) (keeps_destruct hW ty r t hrt) (fun hR => pres_destruct hR.toReads _ _ _)
  refine (hk.and (q' := fun p => (P → FirmTop (NewS s0 p.2) p.1) ∧ ∀ c ∈ p.2, c.refs ≠ [])
    (e' := fun _ => ¬ (P ∧ t.Fits W.cfg.fuel ∧ s0.allowNew = true ∧ ∃ v, ValT ty v t)) ?_).mono (fun _ h => h) (fun _ h => h.2)
  clear hk
  induction ty generalizing r t with
  | atom =>
    cases r <;> unfold destruct
    · exact Keeps.pure ⟨fun _ => trivial, by simp⟩
    · refine Keeps.raise ?_
      rintro ⟨_, _, _, v, hv⟩
      simp only [ValT] at hv
      subst hv
      simp only [RefOK] at hrt
      obtain ⟨_, _, _, h, _⟩ := hrt
      cases h
  | unsupported =>
    cases r <;> unfold destruct
    · exact Keeps.pure ⟨fun _ => trivial, by simp⟩
    · refine Keeps.raise ?_
      rintro ⟨_, _, _, v, hv⟩
      simp only [ValT] at hv
  | coll k ty ih =>
    cases r with
    | atom c h' o => unfold destruct; exact Keeps.pure ⟨fun _ => trivial, by simp⟩
    | coll k' c hid inMem keys elts =>
      have h0 := hrt
      simp only [RefOK] at hrt
      obtain ⟨hp, keys', ts, rfl, hc, hin⟩ := hrt
      unfold destruct
      refine Keeps.ite (fun hkk => ?_) (fun hkk => Keeps.raise ?_)
      rotate_left
      · rintro ⟨_, _, _, v, hv⟩
        simp only [ValT] at hv
        obtain ⟨_, _, _, _, h, _⟩ := hv
        cases h
        exact hkk rfl
      subst hkk
      refine Keeps.ite (fun hm => ?_) (fun hm => Keeps.raise (fun hh => hm (hft hh.1).1))
      obtain ⟨rfl, hrs⟩ := hin hm
      rw [refsOK_iff] at hrs
      have hwf := hp.wf
      simp only [TVal.Wf] at hwf
      obtain ⟨hk, _, _⟩ := hwf
      have hidx := idxVals_elts (W := W) hk
      have hlen : elts.length = ts.length := hrs.length_eq
      rw [hlen]
      refine Keeps.bind (Keeps.mapM2 hidx (Q := fun idx t p => (P → Firm (NewS s0 p.2) p.1) ∧ ∀ c ∈ p.2, c.refs ≠ [])
        (fun idx hmem t htm ht => ?_)) (fun rs hrs' => Keeps.pure ?_)
      · obtain ⟨w1, w2⟩ := wrapVal_ok ht.2
        have hins : InsOK W [(getitemArg k, .coll k c hid inMem keys elts), (getitemIdx k, wrapAtom W.cfg idx none)]
            [⟨getitemArg k, hid, .coll k keys ts⟩, ⟨getitemIdx k, rawHid W.H idx, .atom idx⟩] :=
          .cons ⟨rfl, rfl, h0⟩ (.cons ⟨rfl, w2, w1⟩ .nil)
        refine Keeps.bind ((firm_structCall hW hB (t := t) (P := P) hins ?_ (Sem.getitem ht.1) ?_ (fun e he => getItem_err he) (fun h => (hP h).elts t htm) ?_).mono (fun _ h => h)
          (fun _ hn hh => hn ⟨?_, hh.2.1.elts t htm, .inl hh.2.2.1, getItem_total hrs ht.1⟩)) (fun call hcall => ?_)
        · simp [Dict.keys, getitem_names]
        · intro r hr h hp
          exact (getItem_ok hrs hr ht.1).withHid hp
        · intro r hr hf
          exact (firms_iff.1 (hft hf).2 r (getItem_mem hr)).firmTop
        · intro i hi
          simp only [List.mem_cons, List.not_mem_nil, or_false] at hi
          rcases hi with rfl | rfl
          · exact hh.2.1
          · exact TVal.Fits.atom hh.2.1.pos idx
        · obtain ⟨⟨hok, _, r, hout, hrh, hr⟩, hfirm⟩ := hcall
          have hr1 := CallObj.refs_of_outputs hout
          rw [hout] at hfirm
          have hout' := hout
          rw [hout]
          simp only [Dict.get?_cons, if_true]
          have hk2 := during_reads (s0 := s0) (keeps_destruct hW ty r t hr) (fun hR => pres_destruct hR.toReads _ _ _)
          refine Keeps.bind ((hk2.and (ih r t hr (fun h => (hP h).elts t htm) (fun hf => hfirm (getitemOut k, r) (by simp) hf))).mono (fun _ h => h) (fun _ h hh => h.2 ?_)) (fun p hp => Keeps.pure ?_)
          · refine ⟨hh.1, hh.2.1.elts t htm, hh.2.2.1, ?_⟩
            obtain ⟨_, _, _, v, hv⟩ := hh
            simp only [ValT] at hv
            obtain ⟨_, vs, ts', _, h1, _, h2⟩ := hv
            cases h1
            obtain ⟨v, _, hv⟩ := h2.mem_right htm
            exact ⟨v, hv⟩
          · refine ⟨fun hf => FirmTop.firm (FirmTop.mono (fun h => NewS.mono (fun c hc => List.mem_cons_of_mem _ hc)) (hp.2.1 hf)) ?_, ?_⟩
            · refine .inr ⟨call, by simp, (getitemOut k, r), by rw [hout']; simp, hp.1.2.1.symm⟩
            · intro c hc
              simp only [List.mem_cons] at hc
              rcases hc with rfl | hc
              · exact hr1
              · exact hp.2.2 c hc
      · refine ⟨fun hf => ⟨rfl, firms_iff.2 (fun r hr => ?_)⟩, ?_⟩
        · simp only [List.mem_map] at hr
          obtain ⟨p, hp', rfl⟩ := hr
          obtain ⟨tx, htx, idx, _, _, h2⟩ := hrs'.2.mem_right hp'
          exact Firm.mono (fun h => NewS.mono (fun c hc => List.mem_flatMap.2 ⟨p, hp', hc⟩)) _ (h2.1 hf)
        · intro c hc
          simp only [List.mem_flatMap] at hc
          obtain ⟨p, hp', hc⟩ := hc
          obtain ⟨tx, htx, idx, _, _, h2⟩ := hrs'.2.mem_right hp'
          exact h2.2 c hc

end
end Verif
