import Verif.Spec.Annotation
import Verif.Proofs.Outputs
import Verif.Proofs.Upkeep
/-!
Annotated ops conform to what the storage expects.
-/
namespace Verif

variable {W : World} {isA : String → Val → Prop}

theorem all2_map_of {α β : Type} {R : α → β → Prop} {f : α → β} : ∀ (xs : List α), (∀ x ∈ xs, R x (f x)) → All2 R xs (xs.map f)
  | [], _ => .nil
  | x :: xs, h => .cons (h x (by simp)) (all2_map_of xs fun y hy => h y (List.mem_cons_of_mem _ hy))

theorem takes_form : ∀ (t : Ty) (v : Val), t.Plain → t.Takes v → ValT t v (t.form v)
  | .atom, v, _, _ => rfl
  | .unsupported, _, h, _ => h.elim
  | .coll .list t, v, hp, ht => by
    obtain ⟨xs, rfl, h⟩ := ht
    exact ⟨[], xs, _, rfl, rfl, rfl, all2_map_of xs fun x hx => takes_form t x hp (h x hx)⟩
  | .coll .dict t, v, hp, ht => by
    obtain ⟨ks, xs, rfl, hk, h⟩ := ht
    refine ⟨ks, xs, _, rfl, rfl, ?_, all2_map_of xs fun x hx => takes_form t x hp (h x hx)⟩
    rw [List.length_map]; exact hk

theorem fits_form : ∀ (a : Ann) (v : Val), a.Supported → Fits isA a v → ValT (fromAnn a) v (a.form v)
  | .mlist a, v, hs, hf => by
    obtain ⟨xs, rfl, h⟩ := hf
    exact ⟨[], xs, _, rfl, rfl, rfl, all2_map_of xs fun x hx => fits_form a x hs (h x hx)⟩
  | .mdict k a, v, hs, hf => by
    obtain ⟨ks, xs, rfl, hk, h⟩ := hf
    refine ⟨ks, xs, _, rfl, rfl, ?_, all2_map_of xs fun x hx => fits_form a x hs (h x hx)⟩
    rw [List.length_map]; exact hk
  | .mset _, _, hs, _ => hs.elim
  | .mtuple _, _, hs, _ => hs.elim
  | .type_ t, v, hs, hf => takes_form t v hs hf
  | .absent, _, _, _ => rfl
  | .none_, _, _, _ => rfl
  | .any, _, _, _ => rfl
  | .bareTuple, _, _, _ => rfl
  | .tuple _, _, _, _ => rfl
  | .tupleVar _, _, _, _ => rfl
  | .other _, _, _, _ => rfl

theorem flat_ty : ∀ (a : Ann), a.Supported → a.Flat → FlatTy (fromAnn a)
  | .mlist a, hs, h => by
    change fromAnn a = .atom
    cases a with
    | mlist _ => exact absurd trivial h
    | mdict _ _ => exact absurd trivial h
    | mset _ => exact hs.elim
    | mtuple _ => exact hs.elim
    | type_ t =>
      cases t with
      | atom => rfl
      | coll _ _ => exact absurd trivial h
      | unsupported => exact hs.elim
    | _ => rfl
  | .mdict _ a, hs, h => flat_ty a hs h
  | .type_ _, _, h => h
  | .mset _, _, _ => trivial
  | .mtuple _, _, _ => trivial
  | .absent, _, _ => trivial
  | .none_, _, _ => trivial
  | .any, _, _ => trivial
  | .bareTuple, _, _ => trivial
  | .tuple _, _, _ => trivial
  | .tupleVar _, _, _ => trivial
  | .other _, _, _ => trivial

theorem returnsTuple_nout {n : Nout} {ret : Val} (h : NoutOK n ret) : returnsTuple n ret = .ok (plainResults ret) := by
  cases n with
  | auto => cases ret <;> rfl
  | var => obtain ⟨xs, rfl⟩ := h; rfl
  | exactly n => obtain ⟨xs, rfl, h⟩ := h; simp [returnsTuple, plainResults, h]

/-- Values with types and stored forms. -/
def Typed (vs : List Val) (tys : List Ty) (ts : List TVal) : Prop :=
  tys.length = vs.length ∧ All2 (fun p t => ValT p.2 p.1 t) (vs.zip tys) ts

theorem typed_const {α : Type} (ty : Ty) (f : Val → TVal) : ∀ (ks : List α) (vs : List Val), ks.length = vs.length → (∀ v ∈ vs, ValT ty v (f v)) →
    Typed vs (ks.map fun _ => ty) (vs.map f)
  | [], [], _, _ => ⟨rfl, .nil⟩
  | [], _ :: _, h, _ => by simp at h
  | _ :: _, [], h, _ => by simp at h
  | k :: ks, v :: vs, h, hv => by
    obtain ⟨h1, h2⟩ := typed_const ty f ks vs (by simpa using h) (fun u hu => hv u (List.mem_cons_of_mem _ hu))
    exact ⟨by simp [h1], .cons (hv v (by simp)) h2⟩

theorem typed_tuple : ∀ (as : List Ann) (ks : List String) (vs : List Val), ks.length = vs.length → FitsAll isA as vs → (∀ a ∈ as, a.Supported) →
    ∃ tys, annOfTuple ks (as.map fromAnn) = .ok tys ∧ Typed vs tys (Ann.forms as vs) ∧ ∀ ty ∈ tys, ∃ a ∈ as, ty = fromAnn a
  | [], [], [], _, _, _ => ⟨[], rfl, ⟨rfl, .nil⟩, nofun⟩
  | [], _ :: _, [], h, _, _ => by simp at h
  | [], _, _ :: _, _, h, _ => h.elim
  | _ :: _, _, [], _, h, _ => h.elim
  | _ :: _, [], _ :: _, h, _, _ => by simp at h
  | a :: as, k :: ks, v :: vs, h, hf, hs => by
    obtain ⟨tys, h1, ⟨h2, h3⟩, h4⟩ := typed_tuple as ks vs (by simpa using h) hf.2 (fun b hb => hs b (List.mem_cons_of_mem _ hb))
    refine ⟨fromAnn a :: tys, by simp [annOfTuple, h1], ⟨by simp [h2], .cons (fits_form a v (hs a (by simp)) hf.1) h3⟩, ?_⟩
    intro ty hty
    rcases List.mem_cons.1 hty with rfl | hty
    · exact ⟨a, by simp, rfl⟩
    · obtain ⟨b, hb, hb'⟩ := h4 ty hty
      exact ⟨b, List.mem_cons_of_mem _ hb, hb'⟩

theorem typed_single {a : Ann} {ret : Val} {k : List String} (hk : k.length = (plainResults ret).length) (hs : a.Supported) (hf : Fits isA a ret)
    (hnt : ∀ xs, ret ≠ .tuple xs) :
    ∃ tys, outputTys (.single (fromAnn a)) (plainResults ret).length k = .ok tys ∧ Typed (plainResults ret) tys [a.form ret] ∧
      (a.Flat → ∀ ty ∈ tys, FlatTy ty) := by
  have hp : plainResults ret = [ret] := by
    cases ret with
    | tuple xs => exact absurd rfl (hnt xs)
    | _ => rfl
  rw [hp] at hk ⊢
  have ht := typed_const (fromAnn a) a.form k [ret] hk (by simpa using fits_form a ret hs hf)
  refine ⟨_, by simp [outputTys], ht, ?_⟩
  intro h ty hty
  obtain ⟨_, _, rfl⟩ := List.mem_map.1 hty
  exact flat_ty a hs h

theorem typed_outs {a : Ann} {ret : Val} {k : List String} (hk : k.length = (plainResults ret).length) (hu : a.Usable ret) (hf : Fits isA a ret) :
    ∃ tys, outputTys a.ret (plainResults ret).length k = .ok tys ∧ Typed (plainResults ret) tys (a.outForms ret) ∧
      (a.FlatOuts → ∀ ty ∈ tys, FlatTy ty) := by
  cases a with
  | absent =>
    refine ⟨_, rfl, typed_const .atom .atom k _ hk (fun _ _ => rfl), ?_⟩
    intro _ ty hty
    obtain ⟨_, _, rfl⟩ := List.mem_map.1 hty
    trivial
  | bareTuple => exact hu.elim
  | tuple as =>
    obtain ⟨xs, rfl, h⟩ := hf
    obtain ⟨tys, h1, h2, h3⟩ := typed_tuple as k xs hk h hu
    refine ⟨tys, h1, h2, fun hfl ty hty => ?_⟩
    obtain ⟨b, hb, rfl⟩ := h3 ty hty
    exact flat_ty b (hu b hb) (hfl b hb)
  | tupleVar b =>
    obtain ⟨xs, rfl, h⟩ := hf
    refine ⟨_, rfl, typed_const (fromAnn b) b.form k xs hk (fun v hv => fits_form b v hu (h v hv)), ?_⟩
    intro hfl ty hty
    obtain ⟨_, _, rfl⟩ := List.mem_map.1 hty
    exact flat_ty b hu hfl
  | none_ => exact typed_single hk hu.1 hf hu.2
  | any => exact typed_single hk hu.1 hf hu.2
  | mlist _ => exact typed_single hk hu.1 hf hu.2
  | mdict _ _ => exact typed_single hk hu.1 hf hu.2
  | mset _ => exact typed_single hk hu.1 hf hu.2
  | mtuple _ => exact typed_single hk hu.1 hf hu.2
  | type_ _ => exact typed_single hk hu.1 hf hu.2
  | other _ => exact typed_single hk hu.1 hf hu.2

theorem all2_named : ∀ {ks : List String} {vs : List Val} {tys : List Ty} {ts : List TVal}, ks.length = vs.length → tys.length = vs.length →
    All2 (fun (p : Val × Ty) t => ValT p.2 p.1 t) (vs.zip tys) ts →
    All2 (fun (o : String × Val × Ty) t => ValT o.2.2 o.2.1 t) (((ks.zip vs).zip tys).map fun p => (p.1.1, p.1.2, p.2)) ts
  | [], [], [], _, _, _, .nil => .nil
  | k :: ks, v :: vs, ty :: tys, _, h1, h2, .cons h3 h4 => .cons h3 (all2_named (by simpa using h1) (by simpa using h2) h4)
  | [], _ :: _, _, _, h, _, _ => by simp at h
  | _ :: _, [], _, _, h, _, _ => by simp at h
  | _, [], _ :: _, _, _, h, _ => by simp at h
  | _, _ :: _, [], _, _, h, _ => by simp at h

/-- What an annotated op returns is parsed without error, and each output is taken apart as annotated. -/
theorem parse_annotated {a : Ann} {d : OpDef} (h : AnnotatedOp W isA a d) {ins : List (String × Val)} {ret : Val} (hb : d.body ins = .ok ret) :
    ∃ outs, parseReturns d.nout d.outNames d.ann ret = .ok outs ∧ All2 (fun o t => ValT o.2.2 o.2.1 t) outs (a.outForms ret) ∧
      (a.FlatOuts → ∀ o ∈ outs, FlatTy o.2.2) := by
  have hn := h.names _ _ hb
  have hnd := outNamesOf_nodup hn
  have hd := namedOutputs_eq d.outNames (plainResults ret) 0 [] (by rw [← List.range_eq_range']; simpa [Dict.keys, outNamesOf] using hnd)
  rw [← List.range_eq_range'] at hd
  simp only [List.nil_append] at hd
  change _ = (outNamesOf d.outNames (plainResults ret).length).zip (plainResults ret) at hd
  have hlen : (outNamesOf d.outNames (plainResults ret).length).length = (plainResults ret).length := outNamesOf_length _ _
  have hk : Dict.keys ((outNamesOf d.outNames (plainResults ret).length).zip (plainResults ret)) = outNamesOf d.outNames (plainResults ret).length := by
    rw [Dict.keys]; exact List.map_fst_zip (by omega)
  obtain ⟨tys, h1, ⟨h2, h3⟩, h4⟩ := typed_outs hlen (h.usable _ _ hb) (h.fits _ _ hb)
  refine ⟨_, ?_, all2_named hlen h2 h3, ?_⟩
  · unfold parseReturns
    rw [returnsTuple_nout (h.nout _ _ hb)]
    dsimp only
    rw [hd, hk, h.ann, h1]
  · intro hfl o ho
    obtain ⟨p, hp, rfl⟩ := List.mem_map.1 ho
    exact h4 hfl _ (List.of_mem_zip hp).2

theorem all2_conforms : ∀ {outs : List (String × Val × Ty)} {ts : List TVal}, All2 (fun o t => ValT o.2.2 o.2.1 t) outs ts → (∀ t ∈ ts, t.Wf W) →
    ∃ touts : List (String × TVal), All2 (fun p q => p.1 = q.1 ∧ ValT p.2.2 p.2.1 q.2 ∧ q.2.Wf W) outs touts
  | [], [], .nil, _ => ⟨[], .nil⟩
  | o :: outs, t :: ts, .cons h1 h2, hw => by
    obtain ⟨touts, h3⟩ := all2_conforms h2 (fun u hu => hw u (List.mem_cons_of_mem _ hu))
    exact ⟨(o.1, t) :: touts, .cons ⟨rfl, h1, hw t (by simp)⟩ h3⟩

theorem annotated_opOK {a : Ann} {d : OpDef} (h : AnnotatedOp W isA a d) : OpOK W d where
  mem := h.known
  conforms := by
    intro ins ret outs _ hb hp
    obtain ⟨outs', h1, h2, _⟩ := parse_annotated h hb
    rw [h1] at hp
    cases hp
    exact all2_conforms h2 (h.clean _ _ hb)
  names := by
    intro ins ret vs hb hr
    rw [returnsTuple_nout (h.nout _ _ hb)] at hr
    cases hr
    exact h.names _ _ hb

theorem annotated_flat {a : Ann} {d : OpDef} (h : AnnotatedOp W isA a d) (hfl : a.FlatOuts) : OutsFlat d := by
  intro ins ret outs hb hp
  obtain ⟨outs', h1, _, h2⟩ := parse_annotated h hb
  rw [h1] at hp
  cases hp
  exact h2 hfl

theorem annotated_cmdOK {a : Ann} {d : OpDef} (h : AnnotatedOp W isA a d) {args : List AnnArg} (hn : (args.map (·.name)).Nodup)
    (hi : IgnoreOK d (args.map AnnArg.bound)) (ha : ∀ x ∈ args, x.OK W isA) : CmdOK W (.call d (args.map AnnArg.bound)) := by
  refine ⟨annotated_opOK h, ?_, hi, ?_⟩
  · rw [List.map_map]; exact hn
  · intro p hp
    obtain ⟨x, hx, rfl⟩ := List.mem_map.1 hp
    exact ⟨_, fits_form x.ann x.val (ha x hx).supported (ha x hx).fits, (ha x hx).clean⟩

theorem orderly_append : ∀ (p q : List Cmd) {env : List Ref} {s : St}, Orderly W true env s p →
    Orderly W true (runProg W.cfg env s p).2.1 (runProg W.cfg env s p).2.2 q → Orderly W true env s (p ++ q)
  | [], _, _, _, _, h => h
  | c :: p, q, _, _, ⟨h1, h2, h3, h4⟩, h => ⟨h1, h2, fun hc _ => h3 hc (Or.inl rfl), orderly_append p q h4 h⟩

theorem answers_append {fuel : Nat} : ∀ (p q : List Cmd) {b : Bool} {env : List Val} {orig : List OpDef} {os : List Obs}, Answers fuel b env orig (p ++ q) os →
    ∃ os1 os2 b' env' orig', os = os1 ++ os2 ∧ os1.length = p.length ∧ Answers fuel b' env' orig' q os2
  | [], q, b, env, orig, os, h => ⟨[], os, b, env, orig, rfl, rfl, h⟩
  | _ :: p, q, _, _, _, _, .same h1 h2 => by
    obtain ⟨os1, os2, b', env', orig', h3, h4, h5⟩ := answers_append p q h2
    exact ⟨_ :: os1, os2, b', env', orig', by rw [h3]; rfl, by simp [h4], h5⟩
  | _ :: p, q, _, _, _, _, .failed h0 h1 h2 => by
    obtain ⟨os1, os2, b', env', orig', h3, h4, h5⟩ := answers_append p q h2
    exact ⟨_ :: os1, os2, b', env', orig', by rw [h3]; rfl, by simp [h4], h5⟩

theorem plainArgs_raw (env : List Val) : ∀ (args : List AnnArg), plainArgs env (args.map AnnArg.bound) = some (args.map fun x => (x.name, x.val))
  | [] => rfl
  | x :: args => by simp [plainArgs, AnnArg.bound, PExpr.plain, plainArgs_raw env args]

end Verif
