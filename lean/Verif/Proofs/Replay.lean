import Verif.Proofs.FirmRun
import Verif.Proofs.View
import Verif.Spec.Replay
/-!
A finished program, run again with new calls forbidden.
-/
namespace Verif
section
variable {W : World}

/-! ### ids depend on the ids of earlier results only -/

theorem sameHid_get {env env' : List Ref} (h : env.map Ref.hid = env'.map Ref.hid) (i : Nat) :
    (env[i]? = none ∧ env'[i]? = none) ∨ ∃ r r', env[i]? = some r ∧ env'[i]? = some r' ∧ r.hid = r'.hid := by
  have h1 : (env.map Ref.hid)[i]? = (env'.map Ref.hid)[i]? := by rw [h]
  simp only [List.getElem?_map] at h1
  cases hr : env[i]? <;> cases hr' : env'[i]? <;> rw [hr, hr'] at h1 <;> simp at h1
  · exact .inl ⟨rfl, rfl⟩
  · exact .inr ⟨_, _, rfl, rfl, h1⟩

mutual
/-- The same argument up to what refs hold in memory. -/
def SameArg : Arg → Arg → Prop
  | .ref r, a => ∃ r', a = .ref r' ∧ r.hid = r'.hid
  | .list xs, a => ∃ ys, a = .list ys ∧ SameArgs xs ys
  | .dict ks xs, a => ∃ ys, a = .dict ks ys ∧ SameArgs xs ys
  | a, b => a = b
/-- pointwise -/
def SameArgs : List Arg → List Arg → Prop
  | [], ys => ys = []
  | x :: xs, ys => ∃ y ys', ys = y :: ys' ∧ SameArg x y ∧ SameArgs xs ys'
end

mutual
theorem sameArg_toArg {env env' : List Ref} (h : env.map Ref.hid = env'.map Ref.hid) : ∀ (x : PExpr),
    (x.toArg env = none ∧ x.toArg env' = none) ∨ ∃ a a', x.toArg env = some a ∧ x.toArg env' = some a' ∧ SameArg a a'
  | .raw v => .inr ⟨.val v, .val v, by simp only [PExpr.toArg], by simp only [PExpr.toArg], by simp only [SameArg]⟩
  | .var i => by
    simp only [PExpr.toArg]
    rcases sameHid_get h i with ⟨h1, h2⟩ | ⟨r, r', h1, h2, h3⟩
    · rw [h1, h2]; exact .inl ⟨rfl, rfl⟩
    · rw [h1, h2]
      exact .inr ⟨_, _, rfl, rfl, by simp only [SameArg]; exact ⟨r', rfl, h3⟩⟩
  | .list xs => by
    simp only [PExpr.toArg]
    rcases sameArgs_toArgs h xs with ⟨h1, h2⟩ | ⟨as, as', h1, h2, h3⟩
    · rw [h1, h2]; exact .inl ⟨rfl, rfl⟩
    · rw [h1, h2]
      exact .inr ⟨_, _, rfl, rfl, by simp only [SameArg]; exact ⟨as', rfl, h3⟩⟩
  | .dict ks xs => by
    simp only [PExpr.toArg]
    rcases sameArgs_toArgs h xs with ⟨h1, h2⟩ | ⟨as, as', h1, h2, h3⟩
    · rw [h1, h2]; exact .inl ⟨rfl, rfl⟩
    · rw [h1, h2]
      exact .inr ⟨_, _, rfl, rfl, by simp only [SameArg]; exact ⟨as', rfl, h3⟩⟩
theorem sameArgs_toArgs {env env' : List Ref} (h : env.map Ref.hid = env'.map Ref.hid) : ∀ (xs : List PExpr),
    (PExpr.toArgs env xs = none ∧ PExpr.toArgs env' xs = none) ∨
    ∃ as as', PExpr.toArgs env xs = some as ∧ PExpr.toArgs env' xs = some as' ∧ SameArgs as as'
  | [] => .inr ⟨[], [], by simp only [PExpr.toArgs], by simp only [PExpr.toArgs], by simp only [SameArgs]⟩
  | x :: xs => by
    simp only [PExpr.toArgs]
    rcases sameArg_toArg h x with ⟨h1, h2⟩ | ⟨a, a', h1, h2, h3⟩
    · rw [h1, h2]; exact .inl ⟨rfl, rfl⟩
    · rw [h1, h2]
      rcases sameArgs_toArgs h xs with ⟨g1, g2⟩ | ⟨as, as', g1, g2, g3⟩
      · rw [g1, g2]; exact .inl ⟨rfl, rfl⟩
      · rw [g1, g2]
        exact .inr ⟨_, _, rfl, rfl, by simp only [SameArgs]; exact ⟨a', as', rfl, h3, g3⟩⟩
end

theorem SameArgs.all2 : ∀ {xs ys : List Arg}, SameArgs xs ys → All2 SameArg xs ys
  | [], ys, h => by simp only [SameArgs] at h; rw [h]; exact .nil
  | x :: xs, ys, h => by
    simp only [SameArgs] at h
    obtain ⟨y, ys', rfl, h1, h2⟩ := h
    exact .cons h1 h2.all2

theorem SameArg.items {k : Kind} {a a' : Arg} (h : SameArg a a') (hr : ∀ r, a ≠ .ref r) :
    (plainItems k a = none ∧ plainItems k a' = none) ∨
    ∃ ks xs ys, plainItems k a = some (ks, xs) ∧ plainItems k a' = some (ks, ys) ∧ All2 SameArg xs ys := by
  cases a with
  | ref r => exact absurd rfl (hr r)
  | list xs =>
    simp only [SameArg] at h
    obtain ⟨ys, rfl, h⟩ := h
    cases k
    · exact .inr ⟨[], xs, ys, rfl, rfl, h.all2⟩
    · exact .inl ⟨rfl, rfl⟩
  | dict ks xs =>
    simp only [SameArg] at h
    obtain ⟨ys, rfl, h⟩ := h
    cases k
    · exact .inl ⟨rfl, rfl⟩
    · exact .inr ⟨ks, xs, ys, rfl, rfl, h.all2⟩
  | val v =>
    simp only [SameArg] at h
    subst h
    have hall : ∀ vs : List Val, All2 SameArg (vs.map .val) (vs.map .val) := by
      intro vs
      induction vs with
      | nil => exact .nil
      | cons v vs ih => exact .cons (by simp only [SameArg]) ih
    cases hp : plainItems k (.val v) with
    | none => exact .inl ⟨rfl, rfl⟩
    | some p =>
      refine .inr ⟨p.1, p.2, p.2, rfl, rfl, ?_⟩
      cases k <;> cases v <;> simp only [plainItems, Option.some.injEq] at hp <;> first | (cases hp; exact hall _) | cases hp
  | ptr i v =>
    simp only [SameArg] at h
    subst h
    left
    cases k <;> exact ⟨rfl, rfl⟩

theorem sameArg_ids (H : Val → String) : ∀ (ty : Ty) {a a' : Arg}, SameArg a a' → argHid H ty a = argHid H ty a' ∧ structHids H ty a = structHids H ty a' := by
  intro ty
  induction ty with
  | atom =>
    intro a a' h
    cases a <;> simp only [SameArg] at h
    · obtain ⟨r', rfl, h⟩ := h
      simp only [argHid, structHids]; exact ⟨h, trivial⟩
    all_goals try (obtain ⟨_, rfl, _⟩ := h; simp only [argHid, structHids]; exact ⟨trivial, trivial⟩)
  | unsupported =>
    intro a a' h
    cases a <;> simp only [SameArg] at h
    · obtain ⟨r', rfl, h⟩ := h
      simp only [argHid, structHids]; exact ⟨h, trivial⟩
    all_goals try (obtain ⟨_, rfl, _⟩ := h; simp only [argHid, structHids]; exact ⟨trivial, trivial⟩)
  | coll k ty ih =>
    intro a a' h
    by_cases hr : ∃ r, a = .ref r
    · obtain ⟨r, rfl⟩ := hr
      simp only [SameArg] at h
      obtain ⟨r', rfl, h⟩ := h
      simp only [argHid, structHids]; exact ⟨h, trivial⟩
    · have hr : ∀ r, a ≠ .ref r := fun r hh => hr ⟨r, hh⟩
      have hr' : ∀ r, a' ≠ .ref r := by
        rintro r rfl
        cases a <;> simp only [SameArg] at h
        · exact hr _ rfl
        all_goals first | (obtain ⟨_, h, _⟩ := h; cases h) | cases h
      have e1 : ∀ {b : Arg}, (∀ r, b ≠ .ref r) → argHid H (.coll k ty) b = (match plainItems k b with
          | some (keys, items) => outHid H (callId H (builderName k) 0 ((structNames k keys items.length).zip (items.map (argHid H ty)))) (builderOut k)
          | none => "") := by
        intro b hb
        cases b with
        | ref r => exact absurd rfl (hb r)
        | _ => rw [argHid]; rfl; exact hb
      have e2 : ∀ {b : Arg}, (∀ r, b ≠ .ref r) → structHids H (.coll k ty) b = (match plainItems k b with
          | some (keys, items) => items.flatMap (structHids H ty) ++
              [callId H (builderName k) 0 ((structNames k keys items.length).zip (items.map (argHid H ty)))]
          | none => []) := by
        intro b hb
        cases b with
        | ref r => exact absurd rfl (hb r)
        | _ => rw [structHids]; rfl; exact hb
      rw [e1 hr, e1 hr', e2 hr, e2 hr']
      rcases h.items (k := k) hr with ⟨h1, h2⟩ | ⟨ks, xs, ys, h1, h2, h3⟩
      · rw [h1, h2]; exact ⟨rfl, rfl⟩
      · rw [h1, h2]
        have h4 : xs.map (argHid H ty) = ys.map (argHid H ty) ∧ xs.flatMap (structHids H ty) = ys.flatMap (structHids H ty) ∧ xs.length = ys.length := by
          clear h1 h2
          induction h3 with
          | nil => exact ⟨rfl, rfl, rfl⟩
          | cons hx _ ih' => simp only [List.map_cons, List.flatMap_cons, List.length_cons, (ih hx).1, (ih hx).2, ih'.1, ih'.2.1, ih'.2.2]; exact ⟨trivial, trivial, trivial⟩
        simp only [h4.1, h4.2.1, h4.2.2]
        exact ⟨trivial, trivial⟩

theorem sameArg_bind {env env' : List Ref} (h : env.map Ref.hid = env'.map Ref.hid) (d : OpDef) : ∀ (args : List PArg),
    (bindArgs env args = none ∧ bindArgs env' args = none) ∨ ∃ bs bs', bindArgs env args = some bs ∧ bindArgs env' args = some bs' ∧
      (bs.filter fun a => !a.ignored).map (fun a => (a.name, argHid W.H a.ty a.arg)) =
        (bs'.filter fun a => !a.ignored).map (fun a => (a.name, argHid W.H a.ty a.arg)) ∧ structHidsOf W bs = structHidsOf W bs'
  | [] => .inr ⟨[], [], rfl, rfl, rfl, rfl⟩
  | p :: ps => by
    simp only [bindArgs]
    rcases sameArg_toArg h p.expr with ⟨h1, h2⟩ | ⟨a, a', h1, h2, h3⟩
    · rw [h1, h2]; exact .inl ⟨rfl, rfl⟩
    · rw [h1, h2]
      rcases sameArg_bind h d ps with ⟨g1, g2⟩ | ⟨bs, bs', g1, g2, g3, g4⟩
      · rw [g1, g2]; exact .inl ⟨rfl, rfl⟩
      · rw [g1, g2]
        refine .inr ⟨_, _, rfl, rfl, ?_, ?_⟩
        · obtain ⟨k1, _⟩ := sameArg_ids W.H p.ty h3
          simp only [List.filter_cons]
          cases p.ignored
          · simp only [Bool.not_false, ite_true, List.map_cons, g3, k1]
          · simpa using g3
        · obtain ⟨_, k2⟩ := sameArg_ids W.H p.ty h3
          simp only [structHidsOf, List.filter_cons] at g4 ⊢
          cases p.ignored
          · simp only [Bool.not_false, ite_true, List.flatMap_cons, g4, k2]
          · simpa using g4

theorem sameArg_call {env env' : List Ref} (h : env.map Ref.hid = env'.map Ref.hid) (d : OpDef) {args : List PArg} {bs bs' : List BArg}
    (h1 : bindArgs env args = some bs) (h2 : bindArgs env' args = some bs') :
    callHidOf W d bs = callHidOf W d bs' ∧ structHidsOf W bs = structHidsOf W bs' := by
  rcases sameArg_bind (W := W) h d args with ⟨g1, _⟩ | ⟨cs, cs', g1, g2, g3, g4⟩
  · rw [g1] at h1; cases h1
  · rw [g1] at h1; rw [g2] at h2
    cases h1; cases h2
    exact ⟨by unfold callHidOf; rw [g3], g4⟩

/-! ### what a finished program leaves on record -/

/-- The call and the calls building its arguments have ids in `T`. -/
def Cmd.Rec (W : World) (T : String → Prop) (env : List Ref) : Cmd → Prop
  | .call d args => ∀ bargs, bindArgs env args = some bargs → ∀ x ∈ callHidOf W d bargs :: structHidsOf W bargs, T x
  | _ => True

/-- for all statements of a program -/
def Recs (W : World) (T : String → Prop) : List Ref → St → List Cmd → Prop
  | _, _, [] => True
  | env, s, c :: cs => c.Rec W T env ∧ Recs W T (c.run W.cfg env s).2.1 (c.run W.cfg env s).2.2 cs

theorem Recs.mono {T T' : String → Prop} (hT : ∀ x, T x → T' x) : ∀ (cs : List Cmd) {env : List Ref} {s : St}, Recs W T env s cs → Recs W T' env s cs
  | [], _, _, _ => trivial
  | c :: cs, env, s, h => by
    refine ⟨?_, Recs.mono hT cs h.2⟩
    have h1 := h.1
    cases c with
    | call d args => exact fun b hb x hx => hT x (h1 b hb x hx)
    | _ => trivial

theorem safe_of {c : Cmd} (h1 : c.InSession) (h2 : c.NoDrop) : c.Safe := by
  cases c <;> first | exact h1 | exact h2

theorem recs_of (hW : W.Good) : ∀ (cs : List Cmd), (∀ c ∈ cs, CmdOK W c ∧ c.Safe) → ∀ {env : List Ref} {penv : List Val} {s : St}, EnvOK W env penv →
    Inv W s → Coh s → callsReturned cs (runProg W.cfg env s cs).1 →
    Recs W (fun x => (runProg W.cfg env s cs).2.2.calls.exists_ x = true) env s cs
  | [], _, _, _, _, _, _, _, _ => trivial
  | c :: cs, hok, env, penv, s, he, hi, hcoh, hr => by
    have hc := (hok c (by simp)).1
    have hrest : ∀ c ∈ cs, CmdOK W c ∧ c.Safe := fun c hc => hok c (List.mem_cons_of_mem _ hc)
    obtain ⟨hi1, hstep⟩ := step_ok hW hc he hi (o := (c.run W.cfg env s).1) (env' := (c.run W.cfg env s).2.1)
      (s' := (c.run W.cfg env s).2.2) rfl
    have hg1 := grows_cmd W.cfg env s (hok c (by simp)).2 hcoh
    have hg2 := grows_prog W.cfg cs (c.run W.cfg env s).2.1 (c.run W.cfg env s).2.2 (fun c hc => (hrest c hc).2) hg1.1
    have hr' : callsReturned cs (runProg W.cfg (c.run W.cfg env s).2.1 (c.run W.cfg env s).2.2 cs).1 := by
      cases c with
      | call d args => exact hr.2
      | _ => exact hr
    obtain ⟨penv', he'⟩ : ∃ penv', EnvOK W (c.run W.cfg env s).2.1 penv' := by
      rcases hstep with h | ⟨_, _, _, h⟩
      · exact ⟨_, h.2⟩
      · exact ⟨penv, by rw [h]; exact he⟩
    simp only [runProg]
    refine ⟨?_, recs_of hW cs hrest he' hi1 hg1.1 hr'⟩
    cases c with
    | call d args =>
      intro bargs hb x hx
      refine hg2.2.1 x ?_
      obtain ⟨n, hn⟩ := hr.1
      rcases call_facts hc he with ⟨h1, _⟩ | ⟨bargs', ins, vals, h1, _, h3, h4, _, h6⟩
      · rw [h1] at hb; cases hb
      · rw [hb] at h1; cases h1
        simp only [Cmd.run, hb] at hn ⊢
        cases hcall : call W.cfg d bargs s with
        | mk y s' =>
          rw [hcall] at hn
          cases y with
          | error e => cases hn
          | ok rs =>
            rcases List.mem_cons.1 hx with rfl | hx
            · exact call_recorded hW hc.1 h3 h4 h6 hi hcoh hcall
            · exact call_struct_recorded hW h3 hi hcoh hcall x hx
    | _ => trivial

/-! ### replay -/

theorem returned_hids (hW : W.Good) {d : OpDef} {args : List PArg} (hc : CmdOK W (.call d args)) {env : List Ref} {penv : List Val} (he : EnvOK W env penv)
    {s : St} (hi : Inv W s) {n : Nat} (hn : ((Cmd.call d args).run W.cfg env s).1 = .returned n) :
    ∃ bargs, bindArgs env args = some bargs ∧ ∃ rs, rs.length = n ∧ ((Cmd.call d args).run W.cfg env s).2.1 = env ++ rs ∧
      rs.map Ref.hid = (outNamesOf d.outNames n).map (outHid W.H (callHidOf W d bargs)) := by
  rcases call_facts hc he with ⟨h1, _⟩ | ⟨bargs, ins, vals, h1, _, h3, h4, _, h6⟩
  · simp only [Cmd.run, h1] at hn; cases hn
  · have hk := keeps_call hW hc.1 h3 h4 h6 s hi
    simp only [Cmd.run, h1] at hn ⊢
    cases hcall : call W.cfg d bargs s with
    | mk y s' =>
      rw [hcall] at hn hk
      cases y with
      | error e => cases hn
      | ok rs =>
        cases hn
        refine ⟨bargs, rfl, rs, rfl, rfl, ?_⟩
        rw [hk.2.2, callHidOf, insHids_storedIns h3]

theorem replay (hW : W.Good) {T : String → Prop} (hfu : 0 < W.cfg.fuel) : ∀ (cs : List Cmd), (∀ c ∈ cs, CmdOK W c ∧ c.InSession) →
    (∀ d args, Cmd.call d args ∈ cs → OutsFlat d) → ∀ {env1 env2 : List Ref} {penv : List Val} {s1 s2 : St} {orig : List OpDef},
    EnvOK W env1 penv → EnvOK W env2 penv → env1.map Ref.hid = env2.map Ref.hid → Inv W s1 → FSess W s2 env2 orig → (∀ d ∈ orig, OutsFlat d) →
    Recs W T env1 s1 cs → callsReturned cs (runProg W.cfg env1 s1 cs).1 → SizedProg W.cfg.fuel penv cs → Coh s2 →
    (∀ x, T x → sqlExists s2.calls.pers x = true) →
    (runProg W.cfg env2 s2 (cs.filter Cmd.isQuery)).1 = plainRun penv (cs.filter Cmd.isQuery)
  | [], _, _, _, _, _, _, _, _, _, _, _, _, _, _, _, _, _, _, _ => rfl
  | c :: cs, hok, hfl, env1, env2, penv, s1, s2, orig, he1, he2, hh, hi, hf, ho, hrec, hret, hsz, hcoh, hT => by
    have hc := (hok c (by simp)).1
    have hrest : ∀ c ∈ cs, CmdOK W c ∧ c.InSession := fun c hc => hok c (List.mem_cons_of_mem _ hc)
    have hflr : ∀ d args, Cmd.call d args ∈ cs → OutsFlat d := fun d args h => hfl d args (List.mem_cons_of_mem _ h)
    obtain ⟨hi1, hstep⟩ := step_ok hW hc he1 hi (o := (c.run W.cfg env1 s1).1) (env' := (c.run W.cfg env1 s1).2.1)
      (s' := (c.run W.cfg env1 s1).2.2) rfl
    have hadm : ∀ (m : M Unit) (env : List Ref) (s : St), (Cmd.run.admin env s m).2.1 = env := by
      intro m env s; unfold Cmd.run.admin; cases m s with | mk x s' => cases x <;> rfl
    have hgp : ∀ {env : List Ref}, c.NoDrop → Coh (c.run W.cfg env s2).2.2 ∧ ∀ x, sqlExists s2.calls.pers x = true → sqlExists (c.run W.cfg env s2).2.2.calls.pers x = true :=
      fun h => growsP_cmd W.cfg _ s2 h hcoh
    have hskip : (c.plain penv).2 = penv → (c.run W.cfg env1 s1).2.1 = env1 → callsReturned cs (runProg W.cfg (c.run W.cfg env1 s1).2.1 (c.run W.cfg env1 s1).2.2 cs).1 →
        ∀ {s2'}, FSess W s2' env2 orig → Coh s2' → (∀ x, T x → sqlExists s2'.calls.pers x = true) →
        (runProg W.cfg env2 s2' (cs.filter Cmd.isQuery)).1 = plainRun penv (cs.filter Cmd.isQuery) := by
      intro h1 h2 h3 s2' h4 h5 h6
      have h7 := hrec.2
      have h8 := hsz.2
      rw [h1] at h8
      rw [h2] at h3 h7
      exact replay hW hfu cs hrest hflr he1 he2 hh hi1 h4 ho h7 h3 h8 h5 h6
    cases c with
    | call d args =>
      have hn' : ∃ n, ((Cmd.call d args).run W.cfg env1 s1).1 = .returned n := hret.1
      have hret' : callsReturned cs (runProg W.cfg ((Cmd.call d args).run W.cfg env1 s1).2.1 ((Cmd.call d args).run W.cfg env1 s1).2.2 cs).1 := hret.2
      obtain ⟨n, hn⟩ := hn'
      have hs1 : ((Cmd.call d args).run W.cfg env1 s1).1 = ((Cmd.call d args).plain penv).1 ∧
          EnvOK W ((Cmd.call d args).run W.cfg env1 s1).2.1 ((Cmd.call d args).plain penv).2 := by
        rcases hstep with h | ⟨e, h, _⟩
        · exact h
        · rw [hn] at h; cases h
      obtain ⟨h1, h2⟩ := fsess_call hW hf he2 hc
      obtain ⟨b1, g1, rs1, g2, g3, g4⟩ := returned_hids hW hc he1 hi hn
      obtain ⟨h3, h4⟩ := h2 (fun bargs ins vals k1 k2 k3 k4 k5 => by
        obtain ⟨m1, m2⟩ := sameArg_call (W := W) hh d g1 k1
        have hx : ∀ x ∈ callHidOf W d bargs :: structHidsOf W bargs, s2.calls.exists_ x = true := fun x hx => by
          rw [exists_iff]
          right
          exact hT x (hrec.1 b1 g1 x (by rw [m1, m2]; exact hx))
        refine ⟨lookOK_of hW hc.1 k1 k2 k3 k4 k5 hsz.1, fun a ha x hx' => .inr (hx x (List.mem_cons_of_mem _ ?_)), .inl ?_⟩
        · exact List.mem_flatMap.2 ⟨a, ha, hx'⟩
        · rw [insHids_storedIns k3]
          exact hx _ (List.mem_cons_self ..))
      have hn2 : ((Cmd.call d args).run W.cfg env2 s2).1 = .returned n := by rw [h3, ← hs1.1, hn]
      obtain ⟨b2, k1, rs2, k2, k3, k4⟩ := returned_hids hW hc he2 hf.sess.inv hn2
      obtain ⟨m1, _⟩ := sameArg_call (W := W) hh d g1 k1
      have hgp' := hgp (env := env2) trivial
      simp only [List.filter_cons, Cmd.isQuery, ite_true, runProg, plainRun]
      rw [h3]
      congr 1
      refine replay hW hfu cs hrest hflr hs1.2 h4 ?_ hi1 h1 ?_ hrec.2 hret' hsz.2 hgp'.1 (fun x hx => hgp'.2 x (hT x hx))
      · rw [g3, k3, List.map_append, List.map_append, hh, g4, k4, m1]
      · intro d' hd'
        simp only [Cmd.origins] at hd'
        rcases List.mem_append.1 hd' with hd' | hd'
        · exact ho d' hd'
        · rw [List.eq_of_mem_replicate hd']; exact hfl d args (by simp)
    | unwrap x =>
      obtain ⟨h1, h2⟩ := fsess_unwrap hW hf he2 x
      obtain ⟨h3, h4⟩ := h2 ⟨hfu, fun d hd => ho d (List.mem_of_getElem? hd)⟩
      have hp : ((Cmd.unwrap x).plain penv).2 = penv := by
        simp only [Cmd.plain]; split <;> rfl
      have hu : ∀ (env : List Ref) (s : St), ((Cmd.unwrap x).run W.cfg env s).2.1 = env := by
        intro env s
        simp only [Cmd.run]
        split
        · rfl
        · split <;> rfl
      have hgp' := hgp (env := env2) trivial
      simp only [List.filter_cons, Cmd.isQuery, ite_true, runProg, plainRun]
      rw [h3, hp]
      rw [hu] at h1 ⊢
      congr 1
      exact hskip hp (hu _ _) hret h1 hgp'.1 (fun x hx => hgp'.2 x (hT x hx))
    | commit => exact hskip rfl (by simp only [Cmd.run, hadm]) hret hf hcoh hT
    | clearCache b => exact hskip rfl (by simp only [Cmd.run, hadm]) hret hf hcoh hT
    | dropCalls hs b => exact hskip rfl (by simp only [Cmd.run, hadm]) hret hf hcoh hT
    | cleanupRefs => exact hskip rfl (by simp only [Cmd.run, hadm]) hret hf hcoh hT
    | preload => exact hskip rfl (by simp only [Cmd.run, hadm]) hret hf hcoh hT
    | reopen => exact hskip rfl (by simp only [Cmd.run, hadm]) hret hf hcoh hT
    | allowNew b => exact hskip rfl rfl hret hf hcoh hT
end
end Verif
