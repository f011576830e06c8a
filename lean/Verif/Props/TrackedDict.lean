import Verif.Proofs.TrackedDict
/-!
C74: a tracked function does what it does without tracking, and its result is determined by what the tracer has seen.
-/
namespace Verif.Props

open Verif Track Tracer

variable {o : Objects} {cfg : Cfg} {p p' : Prog}

/-- C74 (partial: tracked functions do not write names of their modules, without this it is false, `C74_refuted_write`): an op that runs under
the tracer returns or raises what its function returns or raises without it, and leaves the names of the modules as this does. -/
theorem C74_transparent_partial {n : Nat} {f arg : Obj} {fo : FnObj} {g : Env} (hc : Calm (execOp o cfg p n f arg fo g).unseen) {r : Except Nat Obj}
    (h : (execOp o cfg p n f arg fo g).res = .ok r) : plainRun o p n fo.modul (p.body f arg) g = some (r, (execOp o cfg p n f arg fo g).env) :=
  exec_plain n _ fo.modul true _ g r h hc

/-- C74 (partial: as above; and there is nothing that the tracer objects to, of which classes of the own modules are a part): the tracer does
not make it fail. -/
theorem C74_no_objection_partial (hT : Trackable o cfg) {n : Nat} {f arg : Obj} {fo : FnObj} {g g' : Env}
    (hc : Calm (execOp o cfg p n f arg fo g).unseen) {r : Except Nat Obj} (h : plainRun o p n fo.modul (p.body f arg) g = some (r, g')) :
    (execOp o cfg p n f arg fo g).res = .ok r ∧ (execOp o cfg p n f arg fo g).env = g' :=
  exec_total hT n _ fo.modul true _ g g' r h hc

/-- C74 (partial: no names are written while the op runs; what the tracer does not see is as it was: what names stand for that are no values,
attributes of modules, names of other modules used in functions that were defined there, names used by functions that are not tracked, values that
cannot be hashed. Without each of these it is false, see below): as long as the functions that were called and the values of the variables that
were read are as the tracer has seen them, the op returns or raises the same, whatever else was changed. -/
theorem C74_determined_partial (ho : Hashed o) {n : Nat} {f arg : Obj} {fo : FnObj} {g g' : Env} {r : Except Nat Obj}
    (h : (execOp o cfg p n f arg fo g).res = .ok r) (hf : p'.body f = p.body f)
    (hg : ∀ k h rp, Seen ⟨fo.modul, fo.qualname, p.runtime f⟩ (execOp o cfg p n f arg fo g).acts k (.globalVar h rp) → Current o g' k h)
    (hc : ∀ k rt, Seen ⟨fo.modul, fo.qualname, p.runtime f⟩ (execOp o cfg p n f arg fo g).acts k (.callable none rt) → SameFunction o p p' k)
    (hu : ∀ e ∈ (execOp o cfg p n f arg fo g).unseen, SameUnseen p p' g g' e) : (execOp o cfg p' n f arg fo g').res = .ok r := by
  unfold execOp
  rw [hf]
  exact (exec_same ho n ⟨fo.modul, fo.qualname, p.runtime f⟩ ⟨fo.modul, fo.qualname, p'.runtime f⟩ fo.modul true _ g g' r rfl h hu hg hc).2.2.1

/-! ### a program -/

def objectsT : Objects where
  kind
    | 20 => .function ⟨"m", "f", true, true, true, false⟩
    | 21 => .function ⟨"m", "helper_a", true, true, true, false⟩
    | 22 => .function ⟨"m", "helper_b", true, true, true, false⟩
    | 23 => .function ⟨"n", "make.<locals>.inner", true, false, false, false⟩
    | 24 => .function ⟨"n", "make", true, true, true, false⟩
    | 25 => .function ⟨"m", "raw", false, false, false, false⟩
    | 26 => .function ⟨"lib", "util", false, false, false, false⟩
    | 30 => .modul
    | 31 => .cls "m" true
    | _ => .value
  hash a := some (String.ofList (List.replicate a 'x'))
  repr _ := "value"
  owned m := m = "m" || m = "n"

def cfgT : Cfg := ⟨false, true, true⟩

def envT (l : List ((String × String) × Obj)) : Env := fun m x => Dict.get? l (m, x)

/-- `f` reads `G`, calls what the name `helper` stands for, and returns what that returns. `helper_a` returns the variable `A`, `helper_b` gives
2. -/
def progT : Prog where
  body
    | 20, _ => .load "G" fun _ => .load "helper" fun h => .call (h.getD 0) 0 fun r => match r with | .ok v => .ret v | .error e => .exc e
    | 21, _ => .load "A" fun a => .ret (a.getD 0)
    | 22, _ => .ret 2
    | _, _ => .ret 0
  runtime a := "b" ++ toString a

def fT : FnObj := ⟨"m", "f", true, true, true, false⟩

def globT : Env := envT [(("m", "G"), 7), (("m", "A"), 1), (("m", "helper"), 21), (("m", "Z"), 9)]

theorem outT : (execOp objectsT cfgT progT 9 20 0 fT globT).res = .ok (.ok 1) ∧ (execOp objectsT cfgT progT 9 20 0 fT globT).unseen = [.binding "m" "helper"] ∧
    (traceOp ⟨"m", "f", "b20"⟩ (execOp objectsT cfgT progT 9 20 0 fT globT).acts).map (fun t => t.nodes) =
      .ok [(("m", "f"), .callable none "b20"), (("m", "G"), .globalVar "xxxxxxx" "value"), (("m", "helper_a"), .callable none "b21"), (("m", "A"), .globalVar "x" "value")] := by
  exact ⟨by decide +kernel, by decide +kernel, by decide +kernel⟩

theorem hashedT : Hashed objectsT := by
  intro a b h _ _ h1 h2
  have h := (Option.some.inj h1).trans h2.symm
  change String.ofList (List.replicate a 'x') = String.ofList (List.replicate b 'x') at h
  have h := congrArg String.toList h
  simp only [String.toList_ofList] at h
  have h := congrArg List.length h
  simpa using h

/-- The hypotheses of `C74_determined_partial` hold for this program and a change of `Z`; the others' hold too. -/
example : let g' := envT [(("m", "G"), 7), (("m", "A"), 1), (("m", "helper"), 21), (("m", "Z"), 8)]
    (∀ k h rp, Seen ⟨"m", "f", "b20"⟩ (execOp objectsT cfgT progT 9 20 0 fT globT).acts k (.globalVar h rp) → Current objectsT g' k h) ∧
      (∀ e ∈ (execOp objectsT cfgT progT 9 20 0 fT globT).unseen, SameUnseen progT progT globT g' e) ∧ Calm (execOp objectsT cfgT progT 9 20 0 fT globT).unseen := by
  have hacts : (execOp objectsT cfgT progT 9 20 0 fT globT).acts =
      [.glob "G" "xxxxxxx" "value", .call ⟨"m", "helper_a", "b21"⟩ [.glob "A" "x" "value"] false] := by rfl
  refine ⟨?_, ?_, ?_⟩
  · rw [hacts]
    intro k h rp hs
    cases hs with
    | glob hm =>
      simp only [List.mem_cons, List.not_mem_nil, or_false, reduceCtorEq] at hm
      cases hm
      exact ⟨7, by decide +kernel, rfl, rfl⟩
    | inner hm hs =>
      simp only [List.mem_cons, List.not_mem_nil, or_false, reduceCtorEq, false_or] at hm
      cases hm
      cases hs with
      | glob hm =>
        simp only [List.mem_cons, List.not_mem_nil, or_false] at hm
        cases hm
        exact ⟨1, by decide +kernel, rfl, rfl⟩
      | inner hm => simp only [List.mem_cons, List.not_mem_nil, or_false, reduceCtorEq] at hm
  · rw [outT.2.1]
    intro e he
    rw [List.mem_singleton.1 he]
    show _ = _
    decide +kernel
  · rw [outT.2.1]
    intro m x h
    simp at h

/-- The tracer objects to nothing of a program without the class. -/
example : Trackable { objectsT with kind := fun a => if a = 31 ∨ a = 25 ∨ a = 23 then .value else objectsT.kind a } cfgT := by
  refine ⟨?_, ?_, .inl rfl, fun _ _ _ _ h => by cases h⟩
  · intro a f h
    dsimp only at h
    split at h
    · cases h
    · unfold objectsT at h ⊢
      dsimp only at h
      split at h <;> first | (cases h; intro; rfl) | (cases h; done) | skip
      all_goals first | (cases h; decide) | simp_all
  · intro a m r h
    dsimp only at h
    split at h
    · cases h
    · unfold objectsT at h
      dsimp only at h
      split at h <;> first | (cases h; done) | simp_all

/-! ### what is false -/

/-- C74 is false: which function a name stands for is not seen. `helper = helper_a` is changed to `helper = helper_b`; all that was recorded is
as it was, but the result is another. -/
theorem C74_refuted_rebinding :
    let g' := envT [(("m", "G"), 7), (("m", "A"), 1), (("m", "helper"), 22), (("m", "Z"), 9)]
    (execOp objectsT cfgT progT 9 20 0 fT globT).res = .ok (.ok 1) ∧ (execOp objectsT cfgT progT 9 20 0 fT g').res = .ok (.ok 2) ∧
      ∀ k ∈ [("m", "G"), ("m", "A")], g' k.1 k.2 = globT k.1 k.2 := by
  exact ⟨by decide +kernel, by decide +kernel, by decide +kernel⟩

/-- `f` returns `config.X`, an attribute of a module of its own package. -/
def progAttr : Prog where
  body
    | 20, _ => .load "config" fun _ => .attr "n" "X" fun x => .ret (x.getD 0)
    | _, _ => .ret 0
  runtime _ := "b"

/-- C74 is false: attributes of modules are not seen, although the module is traced; the trace has nothing but the op. -/
theorem C74_refuted_attribute :
    let g := fun x => envT [(("m", "config"), 30), (("n", "X"), x)]
    (execOp objectsT cfgT progAttr 9 20 0 fT (g 1)).res = .ok (.ok 1) ∧ (execOp objectsT cfgT progAttr 9 20 0 fT (g 2)).res = .ok (.ok 2) ∧
      (traceOp ⟨"m", "f", "b"⟩ (execOp objectsT cfgT progAttr 9 20 0 fT (g 1)).acts).map (fun t => t.nodes.keys) = .ok [("m", "f")] := by
  exact ⟨by decide +kernel, by decide +kernel, by decide +kernel⟩

/-- `f` gets a function from `make` of another module, and calls it: it returns the variable `X` of that module. -/
def progForeign : Prog where
  body
    | 20, _ => .load "make" fun h => .call (h.getD 0) 0 fun r => match r with
      | .ok inner => .call inner 0 fun r => match r with | .ok v => .ret v | .error e => .exc e
      | .error e => .exc e
    | 24, _ => .ret 23
    | 23, _ => .load "X" fun x => .ret (x.getD 0)
    | _, _ => .ret 0
  runtime _ := "b"

/-- C74 is false: variables that are read by a function defined in a tracked function are recorded as variables of the module of the caller.
The trace has `m.X`, the result changes with `n.X`. -/
theorem C74_refuted_foreign :
    let g := fun x => envT [(("m", "make"), 24), (("n", "X"), x), (("m", "X"), 1)]
    (execOp objectsT cfgT progForeign 9 20 0 fT (g 1)).res = .ok (.ok 1) ∧ (execOp objectsT cfgT progForeign 9 20 0 fT (g 2)).res = .ok (.ok 2) ∧
      (traceOp ⟨"m", "f", "b"⟩ (execOp objectsT cfgT progForeign 9 20 0 fT (g 1)).acts).map (fun t => t.nodes.keys) =
        .ok [("m", "f"), ("n", "make"), ("m", "X")] ∧ (g 2) "m" "X" = (g 1) "m" "X" := by
  exact ⟨by decide +kernel, by decide +kernel, by decide +kernel, by decide +kernel⟩

/-- `f` does `global X; X = 5; return X`. -/
def progWrite : Prog where
  body
    | 20, _ => .store "X" 5 (.load "X" fun x => .ret (x.getD 0))
    | _, _ => .ret 0
  runtime _ := "b"

/-- C74 is false: a tracked function that writes a name of its module does something else than without tracking: what it writes is lost. -/
theorem C74_refuted_write :
    let g := envT [(("m", "X"), 1)]
    (execOp objectsT cfgT progWrite 9 20 0 fT g).res = .ok (.ok 1) ∧ (execOp objectsT cfgT progWrite 9 20 0 fT g).env "m" "X" = some 1 ∧
      (plainRun objectsT progWrite 9 "m" (progWrite.body 20 0) g).map (fun q => (q.1, q.2 "m" "X")) = some (.ok 5, some 5) := by
  exact ⟨by decide +kernel, by decide +kernel, by decide +kernel⟩

/-- `f` uses a class of its module, which is tracked. -/
def progClass : Prog where
  body
    | 20, _ => .load "C" fun _ => .ret 1
    | _, _ => .ret 0
  runtime _ := "b"

/-- C74 is false: classes of the traced modules cannot be used at all in tracked functions, although they are tracked; strict or not. -/
theorem C74_refuted_class (strict : Bool) :
    let g := envT [(("m", "C"), 31)]
    (execOp objectsT ⟨strict, true, true⟩ progClass 9 20 0 fT g).res = .error .valueError ∧
      (plainRun objectsT progClass 9 "m" (progClass.body 20 0) g).map (fun q => q.1) = some (.ok 1) := by
  cases strict <;> exact ⟨by decide +kernel, by decide +kernel⟩

/-- `f` calls `raw`, which is not tracked and returns the variable `X`; by name, or as attribute of a module. -/
def progRaw (byName : Bool) : Prog where
  body
    | 20, _ =>
      if byName then .load "raw" fun h => .call (h.getD 0) 0 fun r => match r with | .ok v => .ret v | .error e => .exc e
      else .attr "m" "raw" fun h => .call (h.getD 0) 0 fun r => match r with | .ok v => .ret v | .error e => .exc e
    | 25, _ => .load "X" fun x => .ret (x.getD 0)
    | _, _ => .ret 0
  runtime _ := "b"

/-- C74 is false: a function of the traced modules that is not tracked is rejected only if it is called by a name of the own module. Called
through a module it runs unseen, and so do the variables it reads; strict or not. -/
theorem C74_refuted_untracked (strict : Bool) :
    let g := fun x => envT [(("m", "raw"), 25), (("m", "X"), x)]
    (execOp objectsT ⟨strict, true, true⟩ (progRaw true) 9 20 0 fT (g 1)).res = .error .valueError ∧
      (execOp objectsT ⟨strict, true, true⟩ (progRaw false) 9 20 0 fT (g 1)).res = .ok (.ok 1) ∧
      (execOp objectsT ⟨strict, true, true⟩ (progRaw false) 9 20 0 fT (g 2)).res = .ok (.ok 2) ∧
      (execOp objectsT ⟨strict, true, true⟩ (progRaw false) 9 20 0 fT (g 1)).acts.isEmpty = true := by
  cases strict <;> exact ⟨by decide +kernel, by decide +kernel, by decide +kernel, by decide +kernel⟩

/-- C74 is false: values that cannot be hashed are all recorded as the same value, if `skip_unhashable_globals` is set. The recorded nodes are
the same although the value and the result have changed. -/
theorem C74_refuted_unhashable :
    let o := { objectsT with hash := fun _ => none }
    let g := fun x => envT [(("m", "X"), x)]
    let p : Prog := ⟨fun _ _ => .load "X" fun x => .ret (x.getD 0), fun _ => "b"⟩
    (execOp o cfgT p 9 20 0 fT (g 1)).res = .ok (.ok 1) ∧ (execOp o cfgT p 9 20 0 fT (g 2)).res = .ok (.ok 2) ∧
      (traceOp ⟨"m", "f", "b"⟩ (execOp o cfgT p 9 20 0 fT (g 1)).acts).map (fun t => t.nodes) =
        (traceOp ⟨"m", "f", "b"⟩ (execOp o cfgT p 9 20 0 fT (g 2)).acts).map (fun t => t.nodes) := by
  exact ⟨by decide +kernel, by decide +kernel, by decide +kernel⟩

end Verif.Props
