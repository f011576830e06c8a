import Verif.Proofs.Recorded
import Verif.Proofs.NoNew
/-!
A call whose content id is in the cache does not run its function.
-/
namespace Verif

variable {W : World}

theorem argT_cid : ∀ (ty : Ty) (a : Arg) (t : TVal), ArgT W ty a t → argCid W.H ty a = t.cid W.H
  | .atom, a, t, h => by
    cases a <;> simp only [ArgT] at h
    · exact h.cid
    · obtain ⟨rfl, _⟩ := h; rfl
  | .unsupported, a, t, h => by
    cases a <;> simp only [ArgT] at h
    exact h.cid
  | .coll k ty, a, t, h => by
    by_cases har : ∃ r, a = .ref r
    · obtain ⟨r, rfl⟩ := har
      simp only [ArgT] at h
      exact h.cid
    have har' : ∀ r, a ≠ .ref r := fun r hr => har ⟨r, hr⟩
    have h' : ∃ keys items ts, plainItems k a = some (keys, items) ∧ t = .coll k keys ts ∧ t.Wf W ∧
        All2 (ArgT W ty) items ts := by
      cases a with
      | ref r => exact absurd rfl (har' r)
      | _ => simpa only [ArgT] using h
    obtain ⟨keys, items, ts, hi, rfl, hwf, hall⟩ := h'
    have e1 : argCid W.H (.coll k ty) a = W.H (collPre k keys (items.map (argCid W.H ty))) := by
      cases a with
      | ref r => exact absurd rfl (har' r)
      | _ => simp only [argCid, hi]
    have e2 : items.map (argCid W.H ty) = TVal.cids W.H ts := by
      clear hi e1 h hwf
      rw [TVal.cids_eq]
      have ih := argT_cid ty
      induction hall with
      | nil => rfl
      | cons h1 _ ih' => simp only [List.map_cons]; rw [ih _ _ h1, ih']
    rw [e1, e2]
    rfl

/-- The content id of a call with these (bound) arguments. -/
def callCidOf (W : World) (d : OpDef) (args : List BArg) : String :=
  callId W.H d.name d.version ((args.filter fun a => !a.ignored).map fun a => (a.name, argCid W.H a.ty a.arg))

theorem insCids_storedIns {args : List BArg} {ins : List In} (h : ArgsOK W args ins) :
    insCids W (storedIns args ins) = (args.filter fun a => !a.ignored).map fun a => (a.name, argCid W.H a.ty a.arg) := by
  induction h with
  | nil => rfl
  | @cons a i as is h1 h2 ih =>
    simp only [storedIns, List.filter_cons]
    cases a.ignored with
    | true => simpa using ih
    | false =>
      simp only [insCids] at ih ⊢
      simp [ih, h1.1, argT_cid _ _ _ h1.2.2]

/-- Recorded under its history id, or under its content id in the cache: then the function is not run. -/
theorem callInternal_content (hW : W.Good) {d : OpDef} {args : List BArg} {ins : List In} (h : ArgsOK W args ins)
    {s : St} (hs : Inv W s) (hex : s.calls.exists_ (callHidOf W d args) = true ∨ s.calls.cache.existsContent (callCidOf W d args) = true) :
    Quiet s (callInternal W.cfg d args s).2 := by
  unfold callInternal
  have hq1 := quiet_wrapInputs W.cfg args s
  have hk := keeps_wrapInputs hW h s hs
  cases hw : wrapInputs W.cfg args s with
  | mk x s1 =>
    rw [hw] at hq1 hk
    cases x with
    | error e => rw [bind_err hw]; exact hq1
    | ok p =>
      obtain ⟨inputs, calls⟩ := p
      rw [bind_eq hw]
      have hid : callId W.H d.name d.version (idsOf Ref.hid inputs) = callHidOf W d args := by
        rw [callHidOf, ← insHids_storedIns h]
        have := hk.2.1.hids
        rw [this]
      have hcid : callId W.H d.name d.version (idsOf Ref.cid inputs) = callCidOf W d args := by
        rw [callCidOf, ← insCids_storedIns h]
        have := hk.2.1.cids
        rw [this]
      have hex1 : s1.calls.exists_ (callId W.H d.name d.version (idsOf Ref.hid inputs)) = true ∨
          s1.calls.existsContent (callId W.H d.name d.version (idsOf Ref.cid inputs)) = true := by
        rw [hid, hcid, hq1.calls]
        rcases hex with hex | hex
        · exact .inl hex
        · right; unfold CachedCalls.existsContent; rw [hex]; rfl
      dsimp only
      have hq2 := quiet_lookupCall W.cfg d.name d.version d.outNames inputs s1
      have hnone : ∀ s2, lookupCall W.cfg d.name d.version d.outNames inputs s1 ≠ (.ok none, s2) := by
        intro s2 hl
        unfold lookupCall at hl
        obtain ⟨b, s3, h1, h2⟩ := bind_ok hl
        simp only [M.read, Prod.mk.injEq, Except.ok.injEq] at h1
        obtain ⟨rfl, rfl⟩ := h1
        split at h2
        · obtain ⟨_, _, _, h3⟩ := bind_ok h2
          obtain ⟨_, _, _, h4⟩ := bind_ok h3
          cases h4
        · rename_i hne
          obtain ⟨b, s3, h1, h2⟩ := bind_ok h2
          simp only [M.read, Prod.mk.injEq, Except.ok.injEq] at h1
          obtain ⟨rfl, rfl⟩ := h1
          rw [if_pos (hex1.resolve_left (fun hh => hne hh))] at h2
          obtain ⟨_, _, _, h3⟩ := bind_ok h2
          obtain ⟨_, _, _, h4⟩ := bind_ok h3
          obtain ⟨_, _, _, h5⟩ := bind_ok h4
          obtain ⟨_, _, _, h6⟩ := bind_ok h5
          cases h6
      cases hl : lookupCall W.cfg d.name d.version d.outNames inputs s1 with
      | mk y s2 =>
        rw [hl] at hq2
        cases y with
        | error e => rw [bind_err hl]; exact Quiet.ord.trans hq1 hq2
        | ok o =>
          rw [bind_eq hl]
          cases o with
          | none => exact absurd hl (hnone s2)
          | some c => exact Quiet.ord.trans hq1 hq2

theorem call_content (hW : W.Good) {d : OpDef} {args : List BArg} {ins : List In} (h : ArgsOK W args ins)
    {s : St} (hs : Inv W s)
    (hex : s.calls.exists_ (callHidOf W d args) = true ∨ s.calls.cache.existsContent (callCidOf W d args) = true) :
    (call W.cfg d args s).2.log = s.log := by
  have hq := callInternal_content (d := d) hW h hs hex
  unfold call
  cases hi : callInternal W.cfg d args s with
  | mk x s1 =>
    rw [hi] at hq
    cases x with
    | error e => rw [bind_err hi]; exact hq.log
    | ok p =>
      rw [bind_eq hi]
      refine Eq.trans ?_ hq.log
      exact Pres.bind SameLog.ord (log_saveCall _) (fun _ => Pres.bind SameLog.ord (Pres.forM' SameLog.ord _ (fun c _ => log_saveCall c))
        (fun _ => Pres.lift SameLog.ord _)) s1

/-! ### the cache keeps content ids -/

/-- Rows of the cache belong to calls known to the cache; known calls and content ids stay. -/
def Warmer (s s' : St) : Prop := (∀ r ∈ s.calls.cache.df, r.callHid ∈ s.calls.cache.callHids) →
  (∀ r ∈ s'.calls.cache.df, r.callHid ∈ s'.calls.cache.callHids) ∧
  (∀ h, s.calls.cache.exists_ h = true → s'.calls.cache.exists_ h = true) ∧
  ∀ r ∈ s.calls.cache.df, r ∈ s'.calls.cache.df

theorem Warmer.ord : PreOrd Warmer :=
  ⟨fun _ h => ⟨h, fun _ h => h, fun _ h => h⟩,
   fun h1 h2 h => ⟨(h2 (h1 h).1).1, fun x hx => (h2 (h1 h).1).2.1 x ((h1 h).2.1 x hx), fun x hx => (h2 (h1 h).1).2.2 x ((h1 h).2.2 x hx)⟩⟩

theorem Warmer.of_cache {s s' : St} (h : s'.calls.cache = s.calls.cache) : Warmer s s' := by
  intro h'
  rw [h]
  exact ⟨h', fun _ h => h, fun _ h => h⟩

theorem Quiet.warmer {s s' : St} (h : Quiet s s') : Warmer s s' := .of_cache (by rw [h.calls])

theorem InMem.save_new {m : InMem} {c : CallRec} (hm : ∀ r ∈ m.df, r.callHid ∈ m.callHids) :
    (∀ r ∈ (m.save c).df, r.callHid ∈ (m.save c).callHids) ∧ ∀ r ∈ m.df, r ∈ (m.save c).df := by
  by_cases hex : c.hid ∈ m.callHids
  · unfold InMem.save; rw [if_pos hex]; exact ⟨hm, fun _ h => h⟩
  · constructor
    · intro r hr
      rcases save_rows hr with h | ⟨h, _⟩
      · unfold InMem.save; rw [if_neg hex]; simp [hm r h]
      · unfold InMem.save; rw [if_neg hex]; simp [h]
    · intro r hr
      have hne : r.callHid ≠ c.hid := fun he => hex (he ▸ hm r hr)
      unfold InMem.save
      rw [if_neg hex]
      refine mem_foldl_setRow_of_ne (mem_foldl_setRow_of_ne hr ?_) ?_
      all_goals
        intro x hx
        obtain ⟨p, _, rfl⟩ := List.mem_map.1 hx
        exact fun h => hne h.1

theorem warmer_saveCall (c : CallObj) : Pres Warmer (saveCall c) := by
  intro s
  cases h : saveCall c s with
  | mk x s' =>
    rcases saveCall_adds h with h1 | ⟨_, h1⟩
    · exact .of_cache (by rw [h1])
    · intro hm
      dsimp only
      rw [h1]
      have := InMem.save_new (c := c.toRec) hm
      exact ⟨this.1, fun x hx => InMem.exists_save.2 (.inl hx), this.2⟩

theorem warmer_callInternal (cfg : Cfg) (d : OpDef) (args : List BArg) : Pres Warmer (callInternal cfg d args) := by
  have hq : ∀ {α : Type} {m : M α}, Pres Quiet m → Pres Warmer m := fun h => h.mono (fun _ _ h => h.warmer)
  unfold callInternal
  refine Pres.bind Warmer.ord (hq (quiet_wrapInputs cfg args)) (fun p => ?_)
  dsimp only
  refine Pres.bind Warmer.ord (hq (quiet_lookupCall cfg _ _ _ _)) (fun o => ?_)
  cases o with
  | some c => exact Pres.pure Warmer.ord _
  | none =>
    refine Pres.bind Warmer.ord (Pres.read Warmer.ord _) (fun _ => Pres.ite (fun _ => ?_) (fun _ => Pres.raise Warmer.ord _))
    refine Pres.bind Warmer.ord (hq (Pres.mapM' Quiet.ord _ (fun a _ => Pres.bind Quiet.ord (quiet_bodyArg cfg _) (fun _ => Pres.pure Quiet.ord _)))) (fun _ => ?_)
    refine Pres.bind Warmer.ord (fun s => .of_cache rfl) (fun _ => ?_)
    refine Pres.bind Warmer.ord (Pres.lift Warmer.ord _) (fun _ => ?_)
    refine Pres.bind Warmer.ord (Pres.lift Warmer.ord _) (fun _ => ?_)
    exact Pres.bind Warmer.ord (hq (Pres.mapM' Quiet.ord _ (fun a _ => Pres.bind Quiet.ord (quiet_wrapOutput cfg _ _ _) (fun _ => Pres.pure Quiet.ord _))))
      (fun _ => Pres.pure Warmer.ord _)

theorem warmer_call (cfg : Cfg) (d : OpDef) (args : List BArg) : Pres Warmer (call cfg d args) := by
  unfold call
  refine Pres.bind Warmer.ord (warmer_callInternal cfg d args) (fun p => ?_)
  exact Pres.bind Warmer.ord (warmer_saveCall _) (fun _ => Pres.bind Warmer.ord (Pres.forM' Warmer.ord _ (fun c _ => warmer_saveCall c))
    (fun _ => Pres.lift Warmer.ord _))

/-- Statements that keep the cache of calls. -/
def Cmd.Warm : Cmd → Prop
  | .call .. | .unwrap .. | .commit | .cleanupRefs | .allowNew .. => True
  | _ => False

theorem warmer_commit (cfg : Cfg) : Pres Warmer (commit cfg) := by
  intro s
  cases h : commit cfg s with
  | mk x s' =>
    refine .of_cache ?_
    exact (commit_calls h).1

theorem warmer_cleanupRefs : Pres Warmer cleanupRefs := by
  unfold cleanupRefs
  exact Pres.bind Warmer.ord (Pres.read Warmer.ord _) (fun _ => Pres.bind Warmer.ord (Pres.forM' Warmer.ord _ (fun _ _ _ => .of_cache rfl))
    (fun _ => Pres.bind Warmer.ord (Pres.read Warmer.ord _) (fun _ => Pres.forM' Warmer.ord _ (fun _ _ _ => .of_cache rfl))))

theorem warmer_cmd (cfg : Cfg) (env : List Ref) (s : St) {c : Cmd} (hc : c.Warm) : Warmer s (c.run cfg env s).2.2 := by
  cases c with
  | call d args =>
    simp only [Cmd.run]
    cases bindArgs env args with
    | none => exact Warmer.ord.refl s
    | some bargs =>
      have := warmer_call cfg d bargs s
      cases h : call cfg d bargs s with
      | mk x s' => rw [h] at this; simp only [h]; cases x <;> exact this
  | unwrap x =>
    simp only [Cmd.run]
    cases env[x]? with
    | none => exact Warmer.ord.refl s
    | some r =>
      have := (quiet_unwrapRef cfg r s).warmer
      cases h : unwrapRef cfg r s with
      | mk x s' => rw [h] at this; simp only [h]; cases x <;> exact this
  | commit => exact Pres.admin (warmer_commit cfg) env s
  | cleanupRefs => exact Pres.admin warmer_cleanupRefs env s
  | allowNew b => exact .of_cache rfl
  | _ => exact hc.elim

theorem warmer_prog (cfg : Cfg) : ∀ (cs : List Cmd) (env : List Ref) (s : St), (∀ c ∈ cs, c.Warm) →
    Warmer s (runProg cfg env s cs).2.2
  | [], _, s, _ => Warmer.ord.refl s
  | c :: cs, env, s, h => by
    simp only [runProg]
    exact Warmer.ord.trans (warmer_cmd cfg env s (h c (by simp))) (warmer_prog cfg cs _ _ (fun c' hc' => h c' (List.mem_cons_of_mem _ hc')))

/-! ### an executed call is in the cache -/

theorem foldl_setRow_cid {c : String} : ∀ {rs rows : List Row}, (∀ r ∈ rs, r.callCid = c) →
    ((∃ r ∈ rows, r.callCid = c) ∨ rs ≠ []) → ∃ r ∈ rs.foldl setRow rows, r.callCid = c
  | [], _, _, h => h.resolve_right (fun h => h rfl)
  | r :: rs, rows, hr, _ => by
    simp only [List.foldl_cons]
    exact foldl_setRow_cid (fun x hx => hr x (List.mem_cons_of_mem _ hx)) (.inl ⟨r, self_mem_setRow rows r, hr r (by simp)⟩)

/-- If a call has run its function and returned, its content id is in the cache (unless it has no stored arguments). -/
theorem call_warms (hW : W.Good) {d : OpDef} {args : List BArg} {ins : List In} (h : ArgsOK W args ins)
    {s s' : St} (hs : Inv W s) {rs : List Ref} (hcall : call W.cfg d args s = (.ok rs, s')) (hlog : s'.log ≠ s.log) :
    s'.calls.cache.exists_ (callHidOf W d args) = true ∧
    ((args.filter fun a => !a.ignored) = [] ∨ ∃ r ∈ s'.calls.cache.df, r.callCid = callCidOf W d args) := by
  have hm0 : ∀ r ∈ s.calls.cache.df, r.callHid ∈ s.calls.cache.callHids := hs.cache.2
  unfold call at hcall
  obtain ⟨⟨main, calls⟩, s1, h1, h2⟩ := bind_ok hcall
  obtain ⟨_, s2, h3, h4⟩ := bind_ok h2
  obtain ⟨_, s3, h5, h6⟩ := bind_ok h4
  have hw1 := warmer_callInternal W.cfg d args s
  rw [h1] at hw1
  have hw2 := warmer_saveCall main s1
  rw [h3] at hw2
  have hw3 := Pres.forM_mono Warmer.ord (fun c _ => warmer_saveCall c) h5
  simp only [M.lift, Prod.mk.injEq] at h6
  have hl1 : s1.log = s'.log := by
    have e1 := log_saveCall main s1
    rw [h3] at e1
    have e2 := Pres.forM_mono SameLog.ord (fun c _ => log_saveCall c) h5
    rw [← h6.2]
    exact (Eq.trans e2 e1).symm
  have hk := keeps_wrapInputs hW h s hs
  unfold callInternal at h1
  obtain ⟨⟨inputs, ics⟩, t1, g1, g2⟩ := bind_ok h1
  have q1 := quiet_wrapInputs W.cfg args s
  rw [g1] at hk q1
  obtain ⟨_, hins, hkeys, _, _⟩ := hk
  dsimp only at g2
  obtain ⟨o, t2, g3, g4⟩ := bind_ok g2
  have q2 := quiet_lookupCall W.cfg d.name d.version d.outNames inputs t1
  rw [g3] at q2
  cases o with
  | some c =>
    cases g4
    exfalso
    apply hlog
    rw [← hl1]
    exact q2.log.trans q1.log
  | none =>
    dsimp only at g4
    obtain ⟨b, t3, g5, g6⟩ := bind_ok g4
    simp only [M.read, Prod.mk.injEq] at g5
    obtain ⟨_, rfl⟩ := g5
    split at g6
    · obtain ⟨vals, t4, k1, g7⟩ := bind_ok g6
      obtain ⟨_, t5, k2, g8⟩ := bind_ok g7
      obtain ⟨ret, t6, k3, g9⟩ := bind_ok g8
      obtain ⟨outs, t7, k4, g10⟩ := bind_ok g9
      obtain ⟨wr, t8, k5, g11⟩ := bind_ok g10
      have e1 := Pres.mapM' Quiet.ord args (fun (a : BArg) _ => Pres.bind Quiet.ord (quiet_bodyArg W.cfg a.arg)
        (fun v => Pres.pure Quiet.ord (a.name, v))) t2
      have e2 := Pres.mapM' Quiet.ord outs (fun (p : String × Val × Ty) _ => Pres.bind Quiet.ord
        (quiet_wrapOutput W.cfg (outHid W.cfg.H (callId W.cfg.H d.name d.version (idsOf Ref.hid inputs)) p.1) p.2.1 p.2.2)
        (fun q => Pres.pure Quiet.ord (p.1, q.1, q.2))) t7
      have e1' : t4.calls = t2.calls := by
        have := e1.calls
        have k1' := congrArg Prod.snd k1
        exact (congrArg St.calls k1').symm.trans this
      have e2' : t8.calls = t7.calls := by
        have := e2.calls
        have k5' := congrArg Prod.snd k5
        exact (congrArg St.calls k5').symm.trans this
      cases k2
      simp only [M.lift, Prod.mk.injEq] at k3 k4
      obtain ⟨_, rfl⟩ := k3
      obtain ⟨_, rfl⟩ := k4
      cases g11
      have hcalls : s1.calls = s.calls := by
        rw [e2']
        show t4.calls = _
        rw [e1', q2.calls, q1.calls]
      -- the call is new
      have hnew : s1.calls.exists_ (callId W.H d.name d.version (idsOf Ref.hid inputs)) = false := by
        cases hex : s1.calls.exists_ (callId W.H d.name d.version (idsOf Ref.hid inputs)) with
        | false => rfl
        | true =>
          exfalso
          unfold lookupCall at g3
          obtain ⟨b, s3, j1, j2⟩ := bind_ok g3
          simp only [M.read, Prod.mk.injEq, Except.ok.injEq] at j1
          obtain ⟨rfl, rfl⟩ := j1
          rw [hcalls, ← q1.calls] at hex
          rw [if_pos hex] at j2
          obtain ⟨_, _, _, j3⟩ := bind_ok j2
          obtain ⟨_, _, _, j4⟩ := bind_ok j3
          cases j4
      have hhid : callId W.H d.name d.version (idsOf Ref.hid inputs) = callHidOf W d args := by
        rw [callHidOf, ← insHids_storedIns h, hins.hids]
      have hrow : s2.calls.cache.exists_ (callHidOf W d args) = true ∧
          ((args.filter fun a => !a.ignored) = [] ∨ ∃ r ∈ s2.calls.cache.df, r.callCid = callCidOf W d args) := by
        rcases saveCall_adds h3 with h7 | ⟨_, h7⟩
        · exfalso
          have := saveCall_exists h3
          rw [h7] at this
          rw [hnew] at this
          cases this
        · rw [h7]
          have hnc : callId W.H d.name d.version (idsOf Ref.hid inputs) ∉ s1.calls.cache.callHids := by
            intro hm
            have : s1.calls.exists_ (callId W.H d.name d.version (idsOf Ref.hid inputs)) = true := by
              unfold CachedCalls.exists_ InMem.exists_
              simp [hm]
            rw [hnew] at this
            cases this
          have hcid : callId W.H d.name d.version (idsOf Ref.cid inputs) = callCidOf W d args := by
            rw [callCidOf, ← insCids_storedIns h, hins.cids]
          refine ⟨InMem.exists_save.2 (.inr hhid.symm), ?_⟩
          by_cases hemp : (args.filter fun a => !a.ignored) = []
          · exact .inl hemp
          right
          unfold CachedCalls.save InMem.save CallObj.toRec
          simp only
          rw [if_neg hnc]
          refine foldl_setRow_cid ?_ (.inl (foldl_setRow_cid ?_ (.inr ?_)))
          · intro r hr
            simp only [List.map_map, List.mem_map, Function.comp_apply] at hr
            obtain ⟨p, _, rfl⟩ := hr
            exact hcid
          · intro r hr
            simp only [List.map_map, List.mem_map, Function.comp_apply] at hr
            obtain ⟨p, _, rfl⟩ := hr
            exact hcid
          · intro hnil
            apply hemp
            simp only [List.map_eq_nil_iff] at hnil
            rw [hnil] at hkeys
            exact List.map_eq_nil_iff.1 hkeys.symm
      rw [← h6.2]
      have hw := hw3 (hw2 (hw1 hm0).1).1
      refine ⟨hw.2.1 _ hrow.1, hrow.2.imp (fun h => h) ?_⟩
      rintro ⟨r, hr, hc⟩
      exact ⟨r, hw.2.2 r hr, hc⟩
    · cases g6

end Verif
