import Verif.Spec.View
import Verif.Proofs.Recorded
/-!
Reading does not change what is recorded; a recorded call that is run again is only read.
-/
namespace Verif

variable {W : World}

theorem SameView.ord : PreOrd SameView :=
  ⟨fun _ => ⟨rfl, fun _ => rfl, fun _ => rfl, fun _ => rfl, rfl, rfl, rfl⟩,
   fun h1 h2 => ⟨h2.calls.trans h1.calls, fun k => (h2.atoms k).trans (h1.atoms k), fun k => (h2.shapes k).trans (h1.shapes k),
     fun k => (h2.ops k).trans (h1.ops k), h2.dbAtoms.trans h1.dbAtoms, h2.dbShapes.trans h1.dbShapes, h2.dbOps.trans h1.dbOps⟩⟩

/-- Reading one key does not change what any key holds. -/
theorem CachedDict.get_get {V : Type} (d : CachedDict V) (k k' : String) : ((d.get k).2.get k').1 = (d.get k').1 := by
  unfold CachedDict.get
  cases hc : Dict.get? d.cache k with
  | some v => rfl
  | none =>
    cases hp : d.pers.get k with
    | error e => rfl
    | ok v =>
      simp only
      by_cases hk : k' = k
      · subst hk
        rw [Dict.get?_set_self, hc, hp]
      · rw [Dict.get?_set_ne _ _ (fun h => hk h.symm)]
        cases Dict.get? d.cache k' with
        | some v => rfl
        | none => cases d.pers.get k' <;> rfl

theorem SameView.reads : Reads SameView where
  ord := SameView.ord
  shapesGet _ _ := ⟨rfl, fun _ => rfl, fun _ => CachedDict.get_get _ _ _, fun _ => rfl, rfl, CachedDict.get_pers _ _, rfl⟩
  atomsGet _ _ := ⟨rfl, fun _ => CachedDict.get_get _ _ _, fun _ => rfl, fun _ => rfl, CachedDict.get_pers _ _, rfl, rfl⟩
  opsGet _ _ := ⟨rfl, fun _ => rfl, fun _ => rfl, fun _ => CachedDict.get_get _ _ _, rfl, rfl, CachedDict.get_pers _ _⟩

/-- Saving a recorded call does nothing. -/
theorem saveCall_recorded {c : CallObj} {s : St} (h : s.calls.exists_ c.hid = true) : saveCall c s = (.ok (), s) := by
  unfold saveCall
  rw [bind_eq (a := true) (s1 := s) (by simp [M.read, h])]
  rfl

theorem saveCalls_recorded : ∀ {cs : List CallObj} {s : St}, (∀ c ∈ cs, s.calls.exists_ c.hid = true) →
    M.forM' saveCall cs s = (.ok (), s)
  | [], _, _ => rfl
  | c :: cs, s, h => by
    unfold M.forM'
    rw [bind_eq (saveCall_recorded (h c (by simp)))]
    exact saveCalls_recorded (fun c' hc' => h c' (List.mem_cons_of_mem _ hc'))

/-- The history ids of the calls building the collections among the arguments. -/
def structHidsOf (W : World) (args : List BArg) : List String :=
  (args.filter fun a => !a.ignored).flatMap fun a => structHids W.H a.ty a.arg

/-- A call whose history id is recorded is found: nothing but reading happens. -/
theorem callInternal_view (hW : W.Good) {d : OpDef} {args : List BArg} {ins : List In} (h : ArgsOK W args ins)
    {s : St} (hs : Inv W s) (hex : s.calls.exists_ (callHidOf W d args) = true) :
    SameView s (callInternal W.cfg d args s).2 ∧ ∀ p, (callInternal W.cfg d args s).1 = .ok p →
      p.1.hid = callHidOf W d args ∧ p.2.map CallObj.hid = structHidsOf W args := by
  unfold callInternal
  have hq1 := pres_wrapInputs SameView.reads W.cfg args s
  have hk := keeps_wrapInputs hW h s hs
  cases hw : wrapInputs W.cfg args s with
  | mk x s1 =>
    rw [hw] at hq1 hk
    cases x with
    | error e => rw [bind_err hw]; exact ⟨hq1, fun _ h => by cases h⟩
    | ok p =>
      obtain ⟨inputs, calls⟩ := p
      rw [bind_eq hw]
      obtain ⟨hinv1, hins, hkeys, _, hst⟩ := hk
      have hid : callId W.H d.name d.version (idsOf Ref.hid inputs) = callHidOf W d args := by
        rw [callHidOf, ← insHids_storedIns h]
        have := hins.hids
        rw [this]
      have hex1 : s1.calls.exists_ (callId W.H d.name d.version (idsOf Ref.hid inputs)) = true := by
        rw [hid, hq1.calls]; exact hex
      dsimp only
      have hq2 := pres_lookupCall SameView.reads W.cfg d.name d.version d.outNames inputs s1
      have hk2 := keeps_lookupCall (op := d.name) (ver := d.version) (outNames := d.outNames) hW hins s1 hinv1
      have hnone : ∀ s2, lookupCall W.cfg d.name d.version d.outNames inputs s1 ≠ (.ok none, s2) := by
        intro s2 hl
        unfold lookupCall at hl
        obtain ⟨b, s3, h1, h2⟩ := bind_ok hl
        simp only [M.read, Prod.mk.injEq, Except.ok.injEq] at h1
        obtain ⟨rfl, rfl⟩ := h1
        rw [if_pos hex1] at h2
        obtain ⟨_, _, _, h3⟩ := bind_ok h2
        obtain ⟨_, _, _, h4⟩ := bind_ok h3
        cases h4
      cases hl : lookupCall W.cfg d.name d.version d.outNames inputs s1 with
      | mk y s2 =>
        rw [hl] at hq2 hk2
        cases y with
        | error e => rw [bind_err hl]; exact ⟨SameView.ord.trans hq1 hq2, fun _ h => by cases h⟩
        | ok o =>
          rw [bind_eq hl]
          cases o with
          | none => exact absurd hl (hnone s2)
          | some c =>
            refine ⟨SameView.ord.trans hq1 hq2, fun p hp => ?_⟩
            cases hp
            refine ⟨?_, hst⟩
            rw [(hk2.2 c rfl).2.1, ← hins.hids]
            exact hid

/-- Running a call again that is recorded, together with the calls building its collection arguments, changes
nothing. -/
theorem call_view (hW : W.Good) {d : OpDef} {args : List BArg} {ins : List In} (h : ArgsOK W args ins)
    {s : St} (hs : Inv W s) (hex : s.calls.exists_ (callHidOf W d args) = true)
    (hst : ∀ x ∈ structHidsOf W args, s.calls.exists_ x = true) : SameView s (call W.cfg d args s).2 := by
  have hq := callInternal_view (d := d) hW h hs hex
  unfold call
  cases hi : callInternal W.cfg d args s with
  | mk x s1 =>
    rw [hi] at hq
    cases x with
    | error e => rw [bind_err hi]; exact hq.1
    | ok p =>
      obtain ⟨main, calls⟩ := p
      rw [bind_eq hi]
      obtain ⟨hv, hp⟩ := hq
      obtain ⟨h1, h2⟩ := hp _ rfl
      dsimp only at h1 h2 hv ⊢
      have hmain : s1.calls.exists_ main.hid = true := by rw [h1, hv.calls]; exact hex
      rw [bind_eq (saveCall_recorded hmain), bind_eq (saveCalls_recorded (cs := calls) (s := s1) ?_)]
      · exact hv
      · intro c hc
        rw [hv.calls]
        apply hst
        rw [← h2]
        exact List.mem_map_of_mem hc

/-- After a successful call, the calls building its collection arguments are recorded. -/
theorem call_struct_recorded (hW : W.Good) {d : OpDef} {args : List BArg} {ins : List In} (h : ArgsOK W args ins)
    {s s' : St} (hs : Inv W s) (hc : Coh s) {rs : List Ref} (hcall : call W.cfg d args s = (.ok rs, s')) :
    ∀ x ∈ structHidsOf W args, s'.calls.exists_ x = true := by
  unfold call at hcall
  obtain ⟨⟨main, calls⟩, s1, h1, h2⟩ := bind_ok hcall
  obtain ⟨_, s2, h3, h4⟩ := bind_ok h2
  obtain ⟨_, s3, h5, h6⟩ := bind_ok h4
  have hsub : ∀ x ∈ structHidsOf W args, x ∈ calls.map CallObj.hid := by
    have hk := keeps_wrapInputs hW h s hs
    unfold callInternal at h1
    obtain ⟨⟨inputs, ics⟩, t1, g1, g2⟩ := bind_ok h1
    rw [g1] at hk
    obtain ⟨_, _, _, _, hst⟩ := hk
    dsimp only at g2
    obtain ⟨o, t2, g3, g4⟩ := bind_ok g2
    unfold structHidsOf
    rw [← hst]
    cases o with
    | some c => cases g4; exact fun x hx => hx
    | none =>
      dsimp only at g4
      obtain ⟨b, t3, g5, g6⟩ := bind_ok g4
      split at g6
      · obtain ⟨_, _, _, g7⟩ := bind_ok g6
        obtain ⟨_, _, _, g8⟩ := bind_ok g7
        obtain ⟨_, _, _, g9⟩ := bind_ok g8
        obtain ⟨_, _, _, g10⟩ := bind_ok g9
        obtain ⟨_, _, _, g11⟩ := bind_ok g10
        cases g11
        intro x hx
        rw [List.map_append]
        exact List.mem_append_left _ hx
      · cases g6
  have g1 := grows_callInternal W.cfg d args s hc
  rw [h1] at g1
  have g2 := grows_saveCall main s1 g1.1
  rw [h3] at g2
  have key : ∀ (cs : List CallObj) {s s' : St}, Coh s → M.forM' saveCall cs s = (.ok (), s') →
      ∀ c ∈ cs, s'.calls.exists_ c.hid = true := by
    intro cs
    induction cs with
    | nil => intro _ _ _ _ c hc; cases hc
    | cons c cs ih =>
      intro s s' hco hf x hx
      unfold M.forM' at hf
      obtain ⟨_, s1, f1, f2⟩ := bind_ok hf
      have e1 := grows_saveCall c s hco
      rw [f1] at e1
      rcases List.mem_cons.1 hx with rfl | hx
      · exact (Pres.forM_mono Grows.ord (fun c _ => grows_saveCall c) f2 e1.1).2.1 _ (saveCall_exists f1)
      · exact ih e1.1 f2 x hx
  intro x hx
  obtain ⟨c, hc', rfl⟩ := List.mem_map.1 (hsub x hx)
  simp only [M.lift, Prod.mk.injEq] at h6
  rw [← h6.2]
  exact key calls g2.1 h5 c hc'

end Verif
