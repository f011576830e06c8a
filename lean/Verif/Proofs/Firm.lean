import Verif.Proofs.WholeProg
/-!
When nothing is missing, reading and calling do not fail: what has a record can be loaded, what is loaded can be
unwrapped.
-/
namespace Verif

/-! ### values that survive a round trip -/

mutual
/-- Every list holds atoms only (`load_ref` throws away the loaded elements of a list). -/
def TVal.Flat : TVal → Prop
  | .atom _ => True
  | .coll .list _ ts => ∀ t ∈ ts, ∃ v, t = .atom v
  | .coll .dict _ ts => TVal.Flats ts
/-- pointwise -/
def TVal.Flats : List TVal → Prop
  | [] => True
  | t :: ts => t.Flat ∧ TVal.Flats ts
end

theorem TVal.flats_iff : ∀ {ts : List TVal}, TVal.Flats ts ↔ ∀ t ∈ ts, t.Flat
  | [] => by simp [TVal.Flats]
  | t :: ts => by simp [TVal.Flats, TVal.flats_iff (ts := ts)]

theorem TVal.Flat.elts {k : Kind} {ks : List String} {ts : List TVal} (h : (TVal.coll k ks ts).Flat) : ∀ t ∈ ts, t.Flat := by
  intro t ht
  cases k with
  | list =>
    simp only [TVal.Flat] at h
    obtain ⟨v, rfl⟩ := h t ht
    simp [TVal.Flat]
  | dict =>
    simp only [TVal.Flat] at h
    exact TVal.flats_iff.1 h t ht

/-- The nesting is within the recursion limit. -/
def TVal.Fits : Nat → TVal → Prop
  | 0, _ => False
  | _ + 1, .atom _ => True
  | n + 1, .coll _ _ ts => ∀ t ∈ ts, TVal.Fits n t

theorem TVal.Fits.succ : ∀ {n : Nat} {t : TVal}, t.Fits n → t.Fits (n + 1)
  | 0, _, h => absurd h id
  | n + 1, .atom _, _ => by simp [TVal.Fits]
  | n + 1, .coll k ks ts, h => by
    simp only [TVal.Fits] at h
    show ∀ t ∈ ts, TVal.Fits (n + 1) t
    exact fun t ht => (h t ht).succ

theorem TVal.Fits.elts {n : Nat} {k : Kind} {ks : List String} {ts : List TVal} (h : (TVal.coll k ks ts).Fits n) :
    ∀ t ∈ ts, t.Fits n := by
  cases n with
  | zero => exact absurd h id
  | succ n => exact fun t ht => (show ∀ t ∈ ts, TVal.Fits n t from h) t ht |>.succ

theorem TVal.Fits.pos {n : Nat} {t : TVal} (h : t.Fits n) : 0 < n := by
  cases n with
  | zero => exact absurd h id
  | succ n => exact Nat.succ_pos n

theorem TVal.Fits.atom {n : Nat} (h : 0 < n) (v : Val) : (TVal.atom v).Fits n := by
  cases n with
  | zero => omega
  | succ n => simp [TVal.Fits]

/-! ### refs that can be unwrapped -/

mutual
/-- The ref can be unwrapped: atoms hold their value or have a record, collections are in memory. -/
def Firm (S : String → Prop) : Ref → Prop
  | .atom _ h o => o = none → S h
  | .coll _ _ _ m _ es => m = true ∧ Firms S es
/-- pointwise -/
def Firms (S : String → Prop) : List Ref → Prop
  | [] => True
  | r :: rs => Firm S r ∧ Firms S rs
end

theorem firms_iff {S : String → Prop} : ∀ {rs : List Ref}, Firms S rs ↔ ∀ r ∈ rs, Firm S r
  | [] => by simp [Firms]
  | r :: rs => by simp [Firms, firms_iff (rs := rs)]

mutual
theorem Firm.mono {S S' : String → Prop} (hS : ∀ h, S h → S' h) : ∀ (r : Ref), Firm S r → Firm S' r
  | .atom c h o, hh => by
    simp only [Firm] at hh ⊢
    exact fun ho => hS h (hh ho)
  | .coll _ _ _ m _ es, hh => by
    simp only [Firm] at hh ⊢
    exact ⟨hh.1, Firms.mono hS es hh.2⟩
theorem Firms.mono {S S' : String → Prop} (hS : ∀ h, S h → S' h) : ∀ (rs : List Ref), Firms S rs → Firms S' rs
  | [], _ => by simp [Firms]
  | r :: rs, h => by
    simp only [Firms] at h ⊢
    exact ⟨Firm.mono hS r h.1, Firms.mono hS rs h.2⟩
end

/-- As before, but nothing is said about the ref itself if it is an atom. -/
def FirmTop (S : String → Prop) : Ref → Prop
  | .atom .. => True
  | r => Firm S r

theorem Firm.firmTop {S : String → Prop} {r : Ref} (h : Firm S r) : FirmTop S r := by
  cases r
  · trivial
  · exact h

theorem FirmTop.withHid {S : String → Prop} {r : Ref} (h : FirmTop S r) (hid : String) : FirmTop S (r.withHid hid) := by
  cases r
  · trivial
  · exact h

theorem FirmTop.mono {S S' : String → Prop} (hS : ∀ h, S h → S' h) {r : Ref} (h : FirmTop S r) : FirmTop S' r := by
  cases r
  · trivial
  · exact Firm.mono hS _ h

theorem FirmTop.firm {S : String → Prop} {r : Ref} (h : FirmTop S r) (hs : S r.hid) : Firm S r := by
  cases r
  · exact fun _ => hs
  · exact h

/-! ### the state during a call -/

section
variable (W : World)

/-- Every call that is known has rows, unless it has neither inputs nor outputs. -/
def MemFull (m : InMem) : Prop := ∀ h ∈ m.callHids, (∃ r ∈ m.df, r.callHid = h) ∨ ∃ op cid, CallSem W op h cid [] []

/-- The storage when a statement begins. -/
structure Base (s0 : St) : Prop where
  inv : Inv W s0
  whole : Whole [] s0
  full : MemFull W s0.calls.cache

/-- The storage during a call that began in `s0`, before anything is saved. -/
structure During (s0 s : St) : Prop where
  inv : Inv W s
  ext : Ext s0 s
  allow : s.allowNew = s0.allowNew
end

theorem allow_unwraps : Unwraps (fun s s' : St => s'.allowNew = s.allowNew) where
  ord := ⟨fun _ => rfl, fun h1 h2 => h2.trans h1⟩
  shapesGet _ _ := rfl
  atomsGet _ _ := rfl
  opsGet _ _ := rfl
  atomsSet _ _ _ := rfl
  log _ _ _ := rfl

section
variable {W : World} {s0 : St}

theorem Base.refl (h : Base W s0) : During W s0 s0 := ⟨h.inv, .refl s0, rfl⟩

/-- Putting together what is known of a statement. -/
theorem during_of {α : Type} {m : M α} {q : α → Prop} {e : Err → Prop} (h1 : Keeps (Inv W) m q e)
    (h2 : Pres (fun s s' => Ext s0 s → Ext s0 s') m) (h3 : Pres (fun s s' : St => s'.allowNew = s.allowNew) m) :
    Keeps (During W s0) m q e := by
  intro s hs
  have g1 := h1 s hs.inv
  have g2 := h2 s hs.ext
  have g3 := h3 s
  cases hm : m s with
  | mk x s' =>
    rw [hm] at g1 g2 g3
    cases x with
    | ok a => exact ⟨⟨g1.1, g2, g3.trans hs.allow⟩, g1.2⟩
    | error e => exact ⟨⟨g1.1, g2, g3.trans hs.allow⟩, g1.2⟩

theorem during_reads {α : Type} {m : M α} {q : α → Prop} {e : Err → Prop} (h1 : Keeps (Inv W) m q e)
    (h2 : ∀ {R : St → St → Prop}, Unwraps R → Pres R m) : Keeps (During W s0) m q e :=
  during_of h1 (h2 (Ext.unwraps s0)) (h2 allow_unwraps)

theorem Keeps.and {α : Type} {I : St → Prop} {m : M α} {q q' : α → Prop} {e e' : Err → Prop} (h : Keeps I m q e) (h' : Keeps I m q' e') :
    Keeps I m (fun a => q a ∧ q' a) (fun x => e x ∧ e' x) := by
  intro s hs
  have g := h s hs
  have g' := h' s hs
  cases hm : m s with
  | mk x s' =>
    rw [hm] at g g'
    cases x with
    | ok a => exact ⟨g.1, g.2, g'.2⟩
    | error e => exact ⟨g.1, g.2, g'.2⟩

/-- A read of a table that does not fail if the key is there. -/
theorem during_shapesGet (h : String) : Keeps (During W s0) (shapesGet h)
    (fun r => ShapeOK W h r ∧ (s0.shapes.get h).1 = .ok r) (fun _ => ¬ Has s0.shapes h) := by
  intro s hs
  have h1 := during_reads (s0 := s0) (keeps_shapesGet (W := W) h) (fun hR => hR.shapesGet h) s hs
  have h2 := hs.ext.shapes h
  unfold shapesGet at h1 ⊢
  cases hg : (s.shapes.get h).1 with
  | ok r => rw [hg] at h1 h2; exact ⟨h1.1, h1.2, h2.symm⟩
  | error e =>
    rw [hg] at h1 h2
    refine ⟨h1.1, ?_⟩
    rintro ⟨v, hv⟩
    rw [← h2] at hv; cases hv

theorem during_atomsGet (c : String) : Keeps (During W s0) (atomsGet c) (fun v => c = W.H v) (fun _ => ¬ Has s0.atoms c) := by
  intro s hs
  have h1 := during_reads (s0 := s0) (keeps_atomsGet (W := W) c) (fun hR => hR.atomsGet c) s hs
  unfold atomsGet at h1 ⊢
  cases hg : (s.atoms.get c).1 with
  | ok r => rw [hg] at h1; exact ⟨h1.1, h1.2⟩
  | error e =>
    rw [hg] at h1
    refine ⟨h1.1, fun hh => ?_⟩
    obtain ⟨v, hv⟩ := hs.ext.atoms c hh
    rw [hg] at hv; cases hv

theorem during_opsGet (n : String) : Keeps (During W s0) (opsGet n) (fun _ => True) (fun _ => ¬ Has s0.ops n) := by
  intro s hs
  have h1 := during_reads (s0 := s0) (keeps_opsGet (W := W) n) (fun hR => hR.opsGet n) s hs
  have h2 := hs.ext.ops n
  unfold opsGet at h1 ⊢
  cases hg : (s.ops.get n).1 with
  | ok r => rw [hg] at h1; exact ⟨h1.1, h1.2⟩
  | error e =>
    rw [hg] at h1 h2
    refine ⟨h1.1, ?_⟩
    rintro ⟨v, hv⟩
    rw [← h2] at hv; cases hv

/-! ### loading and unwrapping -/

/-- Loading does not fail if there is a record; the result can be unwrapped. -/
theorem firm_loadRef (hW : W.Good) (hB : Base W s0) : ∀ (n : Nat) (h : String) (b : Bool), Keeps (During W s0) (loadRef n h b)
    (fun r => LoadOK W h b r ∧ ∀ t, Prov W h t → t.Flat → Firm (Has s0.shapes) r)
    (fun _ => ¬ (Has s0.shapes h ∧ ∀ t, Prov W h t → t.Fits n)) := by
  intro n h b
  refine (Keeps.and (during_reads (keeps_loadRef hW n h b) (fun hR => pres_loadRef hR.toReads _ _ _)) (q' := fun r => ∀ t, Prov W h t → t.Flat → Firm (Has s0.shapes) r)
    (e' := fun _ => ¬ (Has s0.shapes h ∧ ∀ t, Prov W h t → t.Fits n)) ?_).mono (fun _ h => h) (fun _ h => h.2)
  induction n generalizing h b with
  | zero =>
    unfold loadRef
    intro s hs
    refine ⟨hs, ?_⟩
    rintro ⟨⟨r, hr⟩, h2⟩
    obtain ⟨h1, t, ht⟩ := (hB.inv.shapes.get h).2 r hr
    exact h2 t (h1 ▸ ht.prov)
  | succ n ih =>
    unfold loadRef
    refine Keeps.bind ((during_shapesGet h).mono (fun _ h => h) (fun _ hh hc => hh hc.1)) (fun r hr => ?_)
    obtain ⟨⟨hh, t0, ht0⟩, hget⟩ := hr
    have hdet : ∀ t, Prov W h t → t = t0 := fun t ht => ht.det hW (hh ▸ ht0.prov)
    have hp0 : Prov W h t0 := hh ▸ ht0.prov
    cases r with
    | atom c h' o =>
      have hh' : h' = h := hh
      refine Keeps.ite (fun _ => Keeps.pure ?_) (fun _ => ?_)
      · intro t _ _ _
        rw [hh']
        exact ⟨_, hget⟩
      · refine Keeps.bind ((during_atomsGet c).mono (fun _ h => h) (fun _ hn _ => hn (hB.whole.atoms h c h' o hget))) (fun v _ => Keeps.pure ?_)
        exact fun _ _ _ ho => (nomatch ho)
    | coll k c h' m keys elts =>
      obtain ⟨hm, hels⟩ := hB.whole.colls h k c h' m keys elts hget
      subst hm
      have hels := hels (by simp)
      refine Keeps.ite (fun _ => ?_) (fun hf => absurd rfl hf)
      simp only [RefOK] at ht0
      obtain ⟨_, keys', ts, ht, _, hin⟩ := ht0
      obtain ⟨_, hrs⟩ := hin trivial
      rw [refsOK_iff] at hrs
      refine Keeps.bind (Keeps.mapM' (R := fun e r => ∀ t, Prov W (Ref.hid e) t → t.Flat → Firm (Has s0.shapes) r) elts
        (fun e he => (ih e.hid b).mono (fun _ h => h) (fun _ hn hc => hn ⟨(hels e he).1, fun t' ht' => ?_⟩))) (fun es hes => ?_)
      · obtain ⟨t1, h1, h2⟩ := hrs.mem_left he
        rw [ht'.det hW h2.prov]
        have := hc.2 t0 hp0
        rw [ht] at this
        exact this t1 h1
      · cases k with
        | list =>
          refine Keeps.pure (fun t hp hf => ⟨rfl, firms_iff.2 (fun e he => ?_)⟩)
          rw [hdet t hp, ht] at hf
          simp only [TVal.Flat] at hf
          obtain ⟨t1, h1, h2⟩ := hrs.mem_left he
          obtain ⟨v, rfl⟩ := hf t1 h1
          have hh := (hels e he).1
          cases e with
          | atom c h o => exact fun _ => hh
          | coll k c h m ks es =>
            simp only [RefOK] at h2
            obtain ⟨_, _, _, h3, _⟩ := h2
            cases h3
        | dict =>
          refine Keeps.pure (fun t hp hf => ⟨rfl, firms_iff.2 (fun r hr => ?_)⟩)
          rw [hdet t hp, ht] at hf
          obtain ⟨e, he, h1⟩ := hes.mem_right hr
          obtain ⟨t1, h2, h3⟩ := hrs.mem_left he
          exact h1 t1 h3.prov (hf.elts t1 h2)

mutual
/-- Unwrapping does not fail if the ref is firm. -/
theorem firm_unwrapRef (hW : W.Good) (hB : Base W s0) : ∀ (r : Ref) (t : TVal), RefOK W r t → Keeps (During W s0) (unwrapRef W.cfg r)
    (fun v => v = t.erase) (fun _ => ¬ (0 < W.cfg.fuel ∧ Firm (Has s0.shapes) r))
  | .atom c h (some v), t, hr => by
    have hk := during_reads (s0 := s0) (keeps_unwrapRef hW _ t hr) (fun hR => pres_unwrapRef hR _ _)
    refine (hk.and (q' := fun _ => True) (e' := fun _ => False) ?_).mono (fun _ h => h.1) (fun _ h => absurd h.2 id)
    unfold unwrapRef; exact Keeps.pure trivial
  | .atom c h none, t, hr => by
    have hk := during_reads (s0 := s0) (keeps_unwrapRef hW _ t hr) (fun hR => pres_unwrapRef hR _ _)
    refine (hk.and (q' := fun _ => True) (e' := fun _ => ¬ (0 < W.cfg.fuel ∧ Firm (Has s0.shapes) (.atom c h none))) ?_).mono (fun _ h => h.1) (fun _ h => h.2)
    unfold unwrapRef
    refine Keeps.bind ((firm_loadRef hW hB _ h false).mono (fun _ h => h) (fun _ hn hc => hn ⟨hc.2 rfl, fun t' ht' => ?_⟩)) (fun r hl => ?_)
    · rw [ht'.det hW hr.prov]
      simp only [RefOK] at hr
      obtain ⟨_, v, rfl, _⟩ := hr
      exact TVal.Fits.atom hc.1 v
    · obtain ⟨⟨⟨hh, t', hr'⟩, hsome⟩, _⟩ := hl
      simp only [RefOK] at hr
      obtain ⟨hp, v, rfl, hc, _⟩ := hr
      have hr'' := hr'.ofDet hW (hh ▸ hp)
      cases r with
      | atom c' h' o =>
        cases o with
        | none => have := hsome rfl _ _ _ rfl; simp at this
        | some x =>
          simp only [RefOK] at hr''
          obtain ⟨_, v', hv', _, ho⟩ := hr''
          cases hv'
          rcases ho with ho | ho
          · cases ho
          · cases ho
            have hset : Keeps (During W s0) (atomsSet c v) (fun _ => True) (fun _ => False) := fun s hs =>
              ⟨(during_reads (s0 := s0) (keeps_atomsSet hc) (fun hR => hR.atomsSet _ _) s hs).1, trivial⟩
            exact Keeps.bind (hset.mono (fun _ h => h) (fun _ h => absurd h id)) (fun _ _ => Keeps.pure trivial)
      | coll k c' h' m ks es =>
        simp only [RefOK] at hr''
        obtain ⟨_, _, _, hv', _⟩ := hr''
        cases hv'
  | .coll k c h m keys elts, t, hr => by
    have hk := during_reads (s0 := s0) (keeps_unwrapRef hW _ t hr) (fun hR => pres_unwrapRef hR _ _)
    refine (hk.and (q' := fun _ => True) (e' := fun _ => ¬ (0 < W.cfg.fuel ∧ Firm (Has s0.shapes) (.coll k c h m keys elts))) ?_).mono (fun _ h => h.1) (fun _ h => h.2)
    unfold unwrapRef
    refine Keeps.ite (fun hm => ?_) (fun hm => Keeps.raise (fun hc => hm hc.2.1))
    simp only [RefOK] at hr
    obtain ⟨hp, ks, ts, rfl, hc, hin⟩ := hr
    obtain ⟨_, hrs⟩ := hin hm
    refine Keeps.bind ((firm_unwrapRefs hW hB elts ts hrs).mono (fun _ h => h) (fun _ hn hc => hn ⟨hc.1, hc.2.2⟩)) (fun vs _ => ?_)
    cases k <;> exact Keeps.pure trivial
theorem firm_unwrapRefs (hW : W.Good) (hB : Base W s0) : ∀ (rs : List Ref) (ts : List TVal), RefsOK W rs ts →
    Keeps (During W s0) (unwrapRefs W.cfg rs) (fun _ => True) (fun _ => ¬ (0 < W.cfg.fuel ∧ Firms (Has s0.shapes) rs))
  | [], _, _ => by unfold unwrapRefs; exact Keeps.pure trivial
  | _ :: _, [], h => by simp [RefsOK] at h
  | r :: rs, t :: ts, h => by
    unfold unwrapRefs
    simp only [RefsOK] at h
    refine Keeps.bind ((firm_unwrapRef hW hB r t h.1).mono (fun _ h => h) (fun _ hn hc => hn ⟨hc.1, hc.2.1⟩)) (fun v _ => ?_)
    exact Keeps.bind ((firm_unwrapRefs hW hB rs ts h.2).mono (fun _ h => h) (fun _ hn hc => hn ⟨hc.1, hc.2.2⟩)) (fun vs _ => Keeps.pure trivial)
end

end
end Verif
