import Verif.Proofs.Annotation
import Verif.Props.Upkeep
/-!
C77: annotations decide how values are taken apart, and do not get in the way.
-/
namespace Verif.Props

open Verif

/-- C77: whatever a function with annotations returns, if it is what the annotations say, is parsed without error, and its outputs are taken apart exactly along
`MList` and `MDict`. Partial: not for `MSet` and `MTuple`, several outputs only without annotation or with `Tuple[...]` (`C77_refuted_tuple`, `C77_refuted_set`),
and a number of outputs only for functions returning tuples (`C77_refuted_nout`). -/
theorem C77_taken_apart_partial (W : World) (isA : String → Val → Prop) (a : Ann) (d : OpDef) (h : AnnotatedOp W isA a d) (ins : List (String × Val)) (ret : Val)
    (hb : d.body ins = .ok ret) :
    ∃ outs, parseReturns d.nout d.outNames d.ann ret = .ok outs ∧ All2 (fun o t => ValT o.2.2 o.2.1 t) outs (a.outForms ret) := by
  obtain ⟨outs, h1, h2, _⟩ := parse_annotated h hb
  exact ⟨outs, h1, h2⟩

/-- C77: at any point of any process, calling such an op on values that are what the annotations of its parameters say shows what the function itself does.
Partial: as above, and no `MList` of collections (`C07_refuted`). -/
theorem C77_annotated_calls_partial (W : World) (hW : W.Good) (isA : String → Val → Prop) (o : Option (Joblib Val)) (thr : Nat) (ho : ∀ j, o = some j → j = [])
    (ps : List (List Cmd × End)) (p : List Cmd) (h : KeptOK W (.fresh o thr) ps p)
    (a : Ann) (d : OpDef) (hd : AnnotatedOp W isA a d) (hfl : a.FlatOuts)
    (args : List AnnArg) (hn : (args.map (·.name)).Nodup) (hi : IgnoreOK d (args.map AnnArg.bound)) (ha : ∀ x ∈ args, x.OK W isA)
    (hda : ∀ x ∈ args, x.val.height < W.cfg.fuel) (hfu : 0 < W.cfg.fuel) (hdr : ∀ ins ret, d.body ins = .ok ret → ∀ v ∈ plainResults ret, v.height < W.cfg.fuel)
    (hne : args ≠ []) :
    (runLast W.cfg (.fresh o thr) ps (p ++ [.allowNew true, .call d (args.map AnnArg.bound)])).1.getLast? =
      some (match d.body (args.map fun x => (x.name, x.val)) with
        | .ok ret => .returned (plainResults ret).length
        | .error e => .raised e) := by
  have hk : KeptOK W (.fresh o thr) ps (p ++ [.allowNew true, .call d (args.map AnnArg.bound)]) :=
    ⟨h.before, orderly_append _ _ h.stmts ⟨trivial, trivial, nofun, annotated_cmdOK hd hn hi ha, trivial, nofun, trivial⟩⟩
  obtain ⟨os1, os2, b, env, orig, h1, _, h2⟩ := answers_append _ _ (C61_answered_with_upkeep_partial W hW o thr ho ps _ hk)
  rw [h1]
  cases h2 with
  | failed h3 => exact absurd trivial h3
  | same h3 h4 =>
    have hm : ∀ (env : List Val) (orig : List OpDef), MustAnswer W.cfg.fuel true env orig (.call d (args.map AnnArg.bound)) := by
      intro env orig
      refine ⟨rfl, ⟨⟨?_, hfu, ?_⟩, ?_, annotated_flat hd hfl⟩⟩
      · intro vals hv q hq
        rw [plainArgs_raw] at hv
        cases hv
        obtain ⟨x, hx, rfl⟩ := List.mem_map.1 hq
        exact hda x hx
      · intro vals ret _ hr
        obtain ⟨outs, h5, _⟩ := parse_annotated hd hr
        refine ⟨⟨outs, h5⟩, hdr _ _ hr, Or.inl ?_⟩
        cases args with
        | nil => exact absurd rfl hne
        | cons x xs => exact ⟨x.bound, by simp, rfl⟩
      · intro q hq
        obtain ⟨x, hx, rfl⟩ := List.mem_map.1 hq
        exact flat_ty x.ann (ha x hx).supported (ha x hx).flat
    cases h4 with
    | failed h5 => exact absurd (hm _ _) h5
    | same h5 h6 =>
      cases h6
      rw [List.getLast?_append]
      simp only [List.getLast?_cons_cons, List.getLast?_singleton, Option.some_or, Option.some.injEq]
      have h7 := congrArg Prod.fst h5
      simp only [Cmd.plain, plainArgs_raw] at h7
      rw [← h7]
      cases d.body (args.map fun x => (x.name, x.val)) <;> rfl

/-- `int` -/
def isInt : String → Val → Prop := fun _ v => ∃ n, v = .int n

theorem upto_returns (ins : List (String × Val)) (ret : Val) (h : Ex.upto.body ins = .ok ret) :
    ∃ n : Int, ret = .list ((List.range n.toNat).map fun (i : Nat) => .int i) := by
  simp only [Ex.upto] at h
  split at h
  · cases h; exact ⟨_, rfl⟩
  · cases h

theorem upto_low (ins : List (String × Val)) (ret : Val) (h : Ex.upto.body ins = .ok ret) (v : Val) (hv : v ∈ plainResults ret) : v.height < Ex.W.cfg.fuel := by
  obtain ⟨n, rfl⟩ := upto_returns _ _ h
  simp only [plainResults, List.mem_singleton] at hv
  subst hv
  have : ∀ l : List Nat, Val.heights (l.map fun (i : Nat) => .int i) = 0 := by
    intro l
    induction l with
    | nil => rfl
    | cons i l ih => simp [Val.heights, Val.height, ih]
  simp only [Val.height, this]
  decide

/-- `def upto(x: int) -> MList[int]` -/
theorem upto_annotated : AnnotatedOp Ex.W isInt (.mlist (.other "int")) Ex.upto := by
  have hret := @upto_returns
  refine ⟨Or.inr (Or.inr (Or.inl rfl)), rfl, ?_, ?_, ?_, ?_, ?_⟩
  · intro ins ret h
    obtain ⟨n, rfl⟩ := hret _ _ h
    refine ⟨_, rfl, fun x hx => ?_⟩
    obtain ⟨i, _, rfl⟩ := List.mem_map.1 hx
    exact ⟨i, rfl⟩
  · intro ins ret h
    obtain ⟨n, rfl⟩ := hret _ _ h
    exact ⟨trivial, nofun⟩
  · intro ins ret _; exact trivial
  · intro ins ret _; exact trivial
  · intro ins ret h t ht
    obtain ⟨n, rfl⟩ := hret _ _ h
    simp only [Ann.outForms, Ann.form, List.mem_singleton] at ht
    subst ht
    refine ⟨rfl, fun _ => rfl, ?_⟩
    generalize List.range n.toNat = l
    induction l with
    | nil => exact trivial
    | cons i l ih => exact ⟨Ex.wf_int _, ih⟩

/-- `upto(3)` in the second process, after refs have been deleted and loaded -/
example : (runLast Ex.W.cfg (.fresh (some []) 100) firstDay (nextDay ++ [.allowNew true, .call Ex.upto ([⟨"x", .other "int", .int 3⟩].map AnnArg.bound)])).1.getLast? =
    some (.returned 1) :=
  C77_annotated_calls_partial Ex.W Ex.good isInt (some []) 100 (fun j h => by cases h; rfl) _ _ nextDay_ok _ _ upto_annotated (fun h => h)
    [⟨"x", .other "int", .int 3⟩] (by decide) (Ex.call1_ok Ex.upto_ok (Ex.wf_raw_int 3)).2.2.1
    (fun x hx => by
      simp only [List.mem_singleton] at hx
      subst hx
      exact ⟨⟨3, rfl⟩, trivial, trivial, Ex.wf_int 3⟩)
    (by simp [Val.height, Ex.W]) (by decide) upto_low (by simp)

/-- C77 for several outputs: unless the annotation is left out or is a `Tuple[...]`, a function that returns a tuple of other than one value cannot be an op: the call is
executed, and then fails. -/
theorem C77_tuples_need_types (a : Ann) (names : Option (List String)) (n : Nout) (xs : List Val) (hx : xs.length ≠ 1) (h1 : a ≠ .absent) (h2 : ∀ as, a ≠ .tuple as)
    (h3 : ∀ b, a ≠ .tupleVar b) : ∃ e, parseReturns n names a.ret (.tuple xs) = .error e := by
  have hs : ∀ ks, ∃ e, outputTys a.ret xs.length ks = .error e := by
    intro ks
    cases a with
    | absent => exact absurd rfl h1
    | tuple as => exact absurd rfl (h2 as)
    | tupleVar b => exact absurd rfl (h3 b)
    | bareTuple => exact ⟨_, rfl⟩
    | _ => exact ⟨.assertionError, by simp [Ann.ret, outputTys, hx]⟩
  unfold parseReturns
  split
  · exact ⟨_, rfl⟩
  · rename_i vs hvs
    have hv : vs = xs := by
      cases n with
      | exactly k =>
        simp only [returnsTuple] at hvs
        split at hvs <;> cases hvs
        rfl
      | _ => cases hvs; rfl
    subst hv
    obtain ⟨e, he⟩ := hs (namedOutputs names 0 vs []).keys
    exact ⟨e, by dsimp only; rw [he]⟩

example : ∃ e, parseReturns .auto none (Ann.any).ret (.tuple [.int 3, .int 5]) = .error e :=
  C77_tuples_need_types .any none .auto _ (by decide) nofun nofun nofun

/-- `def both(x) -> tuple: return x - 1, x + 1` -/
def bothTuple : OpDef := { Ex.both with outNames := none, nout := .auto, ann := (Ann.other "tuple").ret }

/-- `def evens(x) -> MSet[int]: ...` -/
def evens : OpDef := { Ex.inc with ann := (Ann.mset (.other "int")).ret }

/-- `@op(nout=1) def inc(x): return x + 1` -/
def incOne : OpDef := { Ex.inc with nout := .exactly 1 }

/-- what is shown, and how often a body was executed -/
def tryCall (d : OpDef) : List Obs × Nat :=
  ((runProg Ex.W.cfg [] (.fresh none 100) [.call d (Ex.arg1 (.raw (.int 4)))]).1, (runProg Ex.W.cfg [] (.fresh none 100) [.call d (Ex.arg1 (.raw (.int 4)))]).2.2.log.length)

/-- C77 is false for `-> tuple`: both values are computed, and the call fails. -/
theorem C77_refuted_tuple : tryCall bothTuple = ([.raised .assertionError], 1) := by decide +kernel

/-- C77 is false for `-> MSet[int]`. -/
theorem C77_refuted_set : tryCall evens = ([.raised .notImplemented], 1) := by decide +kernel

/-- C77 is false for `@op(nout=1)`: the one output must be a tuple. -/
theorem C77_refuted_nout : tryCall incOne = ([.raised .assertionError], 1) := by decide +kernel

end Verif.Props
