import Verif.Spec.Attach
import Verif.Proofs.Upkeep
/-!
Attaching values to refs.
-/
namespace Verif

theorem OnlyRead.refl (s : St) : OnlyRead s s := ⟨rfl, rfl, s.atoms, rfl⟩
theorem OnlyRead.trans {a b c : St} (h : OnlyRead a b) (g : OnlyRead b c) : OnlyRead a c := by
  obtain ⟨x, rfl⟩ := h.rest
  obtain ⟨y, rfl⟩ := g.rest
  exact ⟨g.1.trans h.1, g.2.trans h.2, y, rfl⟩

section
variable {W : World}

mutual
/-- What attaching needs: whatever is not in memory has a value; collections are in memory. -/
def CanAttach (A : String → Prop) : Ref → Prop
  | .atom c _ o => o = none → A c
  | .coll _ _ _ m _ es => m = true ∧ CanAttaches A es
/-- pointwise -/
def CanAttaches (A : String → Prop) : List Ref → Prop
  | [] => True
  | r :: rs => CanAttach A r ∧ CanAttaches A rs
end

mutual
theorem CanAttach.mono {A A' : String → Prop} (hA : ∀ c, A c → A' c) : ∀ (r : Ref), CanAttach A r → CanAttach A' r
  | .atom c h o, h1 => by simp only [CanAttach] at h1 ⊢; exact fun ho => hA _ (h1 ho)
  | .coll k c h m ks es, h1 => by simp only [CanAttach] at h1 ⊢; exact ⟨h1.1, CanAttaches.mono hA es h1.2⟩
theorem CanAttaches.mono {A A' : String → Prop} (hA : ∀ c, A c → A' c) : ∀ (rs : List Ref), CanAttaches A rs → CanAttaches A' rs
  | [], _ => by simp only [CanAttaches]
  | r :: rs, h1 => by simp only [CanAttaches] at h1 ⊢; exact ⟨CanAttach.mono hA r h1.1, CanAttaches.mono hA rs h1.2⟩
end

mutual
theorem canAttach_of {A S S' : String → Prop} : ∀ (r : Ref), Live A S r → Firm S' r → CanAttach A r
  | .atom c h o, h1, _ => by simp only [Live] at h1; simpa only [CanAttach] using h1
  | .coll k c h m ks es, h1, h2 => by
    simp only [Live] at h1
    simp only [Firm] at h2
    simp only [CanAttach]
    exact ⟨h2.1, canAttaches_of es (h1.1 h2.1) h2.2⟩
theorem canAttaches_of {A S S' : String → Prop} : ∀ (rs : List Ref), Lives A S rs → Firms S' rs → CanAttaches A rs
  | [], _, _ => by simp only [CanAttaches]
  | r :: rs, h1, h2 => by
    simp only [Lives] at h1
    simp only [Firms] at h2
    simp only [CanAttaches]
    exact ⟨canAttach_of r h1.1 h2.1, canAttaches_of rs h1.2 h2.2⟩
end

/-- One step of `attach`: the storage afterwards has the same values. -/
structure Peeked (W : World) (s s' : St) : Prop where
  only : OnlyRead s s'
  inv : Inv W s'
  atoms : ∀ c, Has s.atoms c → Has s'.atoms c

theorem Peeked.refl {s : St} (h : Inv W s) : Peeked W s s := ⟨.refl s, h, fun _ h => h⟩
theorem Peeked.trans {a b c : St} (h : Peeked W a b) (g : Peeked W b c) : Peeked W a c :=
  ⟨h.only.trans g.only, g.inv, fun x hx => g.atoms x (h.atoms x hx)⟩

theorem attachedObj_ok (hW : W.Good) {s : St} (hi : Inv W s) {c h : String} {o : Option Val} {t : TVal} (hr : RefOK W (.atom c h o) t)
    (hA : o = none → Has s.atoms c) : ∃ v s', attachedObj c o s = (.ok v, s') ∧ t = .atom v ∧ Peeked W s s' := by
  simp only [RefOK] at hr
  obtain ⟨_, v, rfl, hc, ho⟩ := hr
  cases o with
  | some x =>
    have : x = v := by rcases ho with ho | ho <;> cases ho; rfl
    subst this
    exact ⟨x, s, rfl, rfl, .refl hi⟩
  | none =>
    obtain ⟨x, hx⟩ := hA rfl
    have hk := keeps_atomsGet (W := W) c s hi
    have he : atomsGet c s = (.ok x, { s with atoms := (s.atoms.get c).2 }) := by unfold atomsGet; rw [hx]
    rw [he] at hk
    have hxv : x = v := hW.inj _ _ (hk.2.symm.trans hc)
    subst hxv
    have hg : (s.atoms.get c).2.pers = s.atoms.pers ∧ (s.atoms.get c).2.dirty = s.atoms.dirty := by
      unfold CachedDict.get; repeat (first | exact ⟨rfl, rfl⟩ | split)
    exact ⟨x, _, he, rfl, ⟨⟨hg.1, hg.2, _, rfl⟩, hk.1, fun k hk => has_get.2 hk⟩⟩

mutual
/-- `attach` -/
theorem attachRef_ok (hW : W.Good) : ∀ (r : Ref) (t : TVal), RefOK W r t → ∀ {s : St}, Inv W s → CanAttach (Has s.atoms) r →
    ∃ a s', attachRef r s = (.ok a, s') ∧ a.held = some t.erase ∧ a.atomIds = r.atomIds ∧ Peeked W s s'
  | .atom c h o, t, hr, s, hi, hl => by
    simp only [CanAttach] at hl
    obtain ⟨v, s', h1, rfl, h3⟩ := attachedObj_ok hW hi hr hl
    refine ⟨.ref (.atom c h (some v)), s', ?_, by simp [Att.held, Ref.held, TVal.erase], by simp [Att.atomIds, Ref.atomIds], h3⟩
    unfold attachRef
    change M.bind _ _ s = _
    unfold M.bind
    rw [h1]
    rfl
  | .coll k c h m ks es, t, hr, s, hi, hl => by
    simp only [CanAttach] at hl
    obtain ⟨rfl, hl⟩ := hl
    simp only [RefOK] at hr
    obtain ⟨_, ks', ts, rfl, _, h1⟩ := hr
    obtain ⟨rfl, h2⟩ := h1 trivial
    obtain ⟨xs, s', g1, g2, g3, g4⟩ := attachRefs_ok hW es ts h2 hi hl
    unfold attachRef
    rw [if_pos rfl]
    change ∃ a s', M.bind _ _ s = _ ∧ _
    unfold M.bind
    rw [g1]
    cases k with
    | list => exact ⟨.list xs, s', rfl, by simp [Att.held, g2, TVal.erase, mkVal], by simpa [Att.atomIds, Ref.atomIds] using g3, g4⟩
    | dict => exact ⟨.dict ks xs, s', rfl, by simp [Att.held, g2, TVal.erase, mkVal], by simpa [Att.atomIds, Ref.atomIds] using g3, g4⟩
theorem attachRefs_ok (hW : W.Good) : ∀ (rs : List Ref) (ts : List TVal), RefsOK W rs ts → ∀ {s : St}, Inv W s → CanAttaches (Has s.atoms) rs →
    ∃ as s', attachRefs rs s = (.ok as, s') ∧ Att.helds as = some (TVal.erases ts) ∧ Att.atomIdss as = Ref.atomIdss rs ∧ Peeked W s s'
  | [], [], _, s, hi, _ => ⟨[], s, rfl, by simp [Att.helds, TVal.erases], by simp [Att.atomIdss, Ref.atomIdss], .refl hi⟩
  | [], _ :: _, h, _, _, _ => by simp [RefsOK] at h
  | _ :: _, [], h, _, _, _ => by simp [RefsOK] at h
  | r :: rs, t :: ts, h, s, hi, hl => by
    simp only [RefsOK] at h
    simp only [CanAttaches] at hl
    obtain ⟨a, s1, h1, h2, h3, h4⟩ := attachRef_ok hW r t h.1 hi hl.1
    obtain ⟨as, s2, g1, g2, g3, g4⟩ := attachRefs_ok hW rs ts h.2 h4.inv (CanAttaches.mono h4.atoms rs hl.2)
    refine ⟨a :: as, s2, ?_, by simp [Att.helds, h2, g2, TVal.erases], by simp [Att.atomIdss, Ref.atomIdss, h3, g3], h4.trans g4⟩
    unfold attachRefs
    change M.bind _ _ s = _
    unfold M.bind
    rw [h1]
    change M.bind _ _ s1 = _
    unfold M.bind
    rw [g1]
    rfl
end

mutual
/-- `attach` in place -/
theorem attachIn_ok (hW : W.Good) : ∀ (r : Ref) (t : TVal), RefOK W r t → ∀ {s : St}, Inv W s → CanAttach (Has s.atoms) r →
    ∃ r' s', attachIn r s = (.ok r', s') ∧ r'.held = some t.erase ∧ r.SameIds r' ∧ Peeked W s s'
  | .atom c h o, t, hr, s, hi, hl => by
    simp only [CanAttach] at hl
    obtain ⟨v, s', h1, rfl, h3⟩ := attachedObj_ok hW hi hr hl
    refine ⟨.atom c h (some v), s', ?_, by simp [Ref.held, TVal.erase], ⟨rfl, rfl, by simp [Ref.atomIds]⟩, h3⟩
    unfold attachIn
    change M.bind _ _ s = _
    unfold M.bind
    rw [h1]
    rfl
  | .coll k c h m ks es, t, hr, s, hi, hl => by
    simp only [CanAttach] at hl
    obtain ⟨rfl, hl⟩ := hl
    simp only [RefOK] at hr
    obtain ⟨_, ks', ts, rfl, _, h1⟩ := hr
    obtain ⟨rfl, h2⟩ := h1 trivial
    obtain ⟨xs, s', g1, g2, g3, g4⟩ := attachIns_ok hW es ts h2 hi hl
    refine ⟨.coll k c h true ks xs, s', ?_, by simp [Ref.held, g2, TVal.erase], ⟨rfl, rfl, by simpa [Ref.atomIds] using g3⟩, g4⟩
    unfold attachIn
    rw [if_pos rfl]
    change M.bind _ _ s = _
    unfold M.bind
    rw [g1]
    rfl
theorem attachIns_ok (hW : W.Good) : ∀ (rs : List Ref) (ts : List TVal), RefsOK W rs ts → ∀ {s : St}, Inv W s → CanAttaches (Has s.atoms) rs →
    ∃ rs' s', attachIns rs s = (.ok rs', s') ∧ Ref.helds rs' = some (TVal.erases ts) ∧ Ref.atomIdss rs' = Ref.atomIdss rs ∧ Peeked W s s'
  | [], [], _, s, hi, _ => ⟨[], s, rfl, by simp [Ref.helds, TVal.erases], rfl, .refl hi⟩
  | [], _ :: _, h, _, _, _ => by simp [RefsOK] at h
  | _ :: _, [], h, _, _, _ => by simp [RefsOK] at h
  | r :: rs, t :: ts, h, s, hi, hl => by
    simp only [RefsOK] at h
    simp only [CanAttaches] at hl
    obtain ⟨a, s1, h1, h2, h3, h4⟩ := attachIn_ok hW r t h.1 hi hl.1
    obtain ⟨as, s2, g1, g2, g3, g4⟩ := attachIns_ok hW rs ts h.2 h4.inv (CanAttaches.mono h4.atoms rs hl.2)
    refine ⟨a :: as, s2, ?_, by simp [Ref.helds, h2, g2, TVal.erases], by simp [Ref.atomIdss, h3.2.2, g3], h4.trans g4⟩
    unfold attachIns
    change M.bind _ _ s = _
    unfold M.bind
    rw [h1]
    change M.bind _ _ s1 = _
    unfold M.bind
    rw [g1]
    rfl
end

mutual
/-- A ref that is in memory is unwrapped without the storage. -/
theorem unwrap_held : ∀ (r : Ref) (v : Val), r.held = some v → ∀ s, unwrapRef W.cfg r s = (.ok v, s)
  | .atom c h o, v, hv, s => by
    simp only [Ref.held] at hv
    subst hv
    rfl
  | .coll k c h m ks es, v, hv, s => by
    simp only [Ref.held] at hv
    split at hv
    · rename_i hm
      cases hh : Ref.helds es with
      | none => rw [hh] at hv; cases hv
      | some vs =>
        rw [hh] at hv
        cases hv
        have := unwraps_held es vs hh s
        unfold unwrapRef
        rw [if_pos hm]
        change M.bind _ _ s = _
        unfold M.bind
        rw [this]
        cases k <;> rfl
    · cases hv
theorem unwraps_held : ∀ (rs : List Ref) (vs : List Val), Ref.helds rs = some vs → ∀ s, unwrapRefs W.cfg rs s = (.ok vs, s)
  | [], vs, hv, s => by simp only [Ref.helds, Option.some.injEq] at hv; subst hv; rfl
  | r :: rs, vs, hv, s => by
    simp only [Ref.helds] at hv
    split at hv
    · rename_i v vs' h1 h2
      cases hv
      unfold unwrapRefs
      change M.bind _ _ s = _
      unfold M.bind
      rw [unwrap_held r v h1 s]
      change M.bind _ _ s = _
      unfold M.bind
      rw [unwraps_held rs vs' h2 s]
      rfl
    · cases hv
end
end
end Verif
