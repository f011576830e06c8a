import Verif.Proofs.CFrameBuild
import Verif.Props.Frame
/-!
C51: names for new nodes. C60: frames made from the calls of an op, from values, from named sets of values.
-/
namespace Verif.Props

open Verif CFrame Ex

/-! ### C51 -/

/-- C51, variables (partial: not distinct from the functions, see the refutation): the search ends, with a name no variable of the frame has. -/
theorem C51_new_variable_partial (f : CFrame) (hint : String) : ∃ n, f.getNewVname hint = some n ∧ ¬ f.IsVar n :=
  (getNewVname_spec f hint).imp fun _ h => ⟨h.1, h.2.1⟩

/-- C51, functions (partial likewise). -/
theorem C51_new_function_partial (f : CFrame) (hint : String) : ∃ n, f.getNewFname hint = some n ∧ ¬ f.IsFunc n :=
  (getNewFname_spec f hint).imp fun _ h => ⟨h.1, h.2.1⟩

/-- C51: a free name that does not end in a number is taken as it is; otherwise the first free number is appended. -/
theorem C51_name_kept (f : CFrame) (hint : String) (h : numbered hint = none) :
    (¬ f.IsVar hint → f.getNewVname hint = some hint) ∧
    (f.IsVar hint → ∃ i, f.getNewVname hint = some (idxName hint i) ∧ ¬ f.IsVar (idxName hint i) ∧ ∀ j < i, f.IsVar (idxName hint j)) := by
  unfold getNewVname
  rw [h]
  refine ⟨fun hv => if_neg hv, fun hv => ?_⟩
  obtain ⟨n, hn⟩ := nextFree_total f.vs.keys hint 0
  obtain ⟨h1, j, _, rfl, h4⟩ := nextFree_some hn
  exact ⟨j, (if_pos hv).trans hn, h1, fun m hm => h4 m (Nat.zero_le m) hm⟩

/-- C51: when no function is called like the hint or one of its numbered variants, the name is new among all nodes, and
adding the variable keeps the frame well formed. -/
theorem C51_fresh_when_apart {R : FCall → Prop} {f : CFrame} (H : Wf R f) (hint : String)
    (h : ∀ n, f.IsFunc n → n ≠ hint ∧ ∀ i, n ≠ idxName (stem hint) i) :
    ∃ n, f.getNewVname hint = some n ∧ n ∉ f.nodes ∧ Wf R (f.addVar n) := by
  obtain ⟨n, h1, h2, h3⟩ := getNewVname_spec f hint
  have hn : n ∉ f.nodes := by
    rw [mem_nodes, not_or]
    refine ⟨h2, fun hf => ?_⟩
    rcases h3 with ⟨h3, _⟩ | ⟨i, h3⟩
    · exact (h n hf).1 h3
    · exact (h n hf).2 i h3
  exact ⟨n, h1, hn, wf_addVar H hn⟩

example : frameF.getNewVname "a" = some "a_0" ∧ frameF.getNewVname "output_3" = some "var_1" ∧ frameF.getNewVname "b" = some "b" := by decide +kernel
/-- Everything between the first underscore and the number is lost. -/
example : frameF.getNewVname "my_long_name_3" = some "my_3" := by decide +kernel
example : frameF.getNewFname "f" = some "f_0" := by decide +kernel

/-- Refutation: the new name of a variable can be that of a function, and the other way round; adding the node then destroys
the edges of the existing one. -/
theorem C51_refuted :
    frameF.check = true ∧ frameF.getNewVname "f" = some "f" ∧ frameF.IsFunc "f" ∧ frameF.HasEdge "f" "var_0" "output_0" ∧
    ¬ (frameF.addVar "f").HasEdge "f" "var_0" "output_0" ∧
    frameF.getNewFname "a" = some "a" ∧ frameF.IsVar "a" ∧ frameF.HasEdge "a" "f" "a" ∧ ¬ (frameF.addFunc "a").HasEdge "a" "f" "a" := by
  simp only [← mem_edges]
  decide +kernel

/-! ### C60 -/

/-- A name of an input of one of the calls. -/
def InputName (calls : List FCall) (x : String) : Prop := ∃ c ∈ calls, x ∈ c.inputs.keys
def OutputName (calls : List FCall) (x : String) : Prop := ∃ c ∈ calls, x ∈ c.outputs.keys

/-- C60, `cf(op)` (partial: only for an op whose name is not one of those made up for the variables). The frame has the op as
its only function, with exactly the given calls; for every name of an input or output a variable of its own, connected by one edge,
and in it exactly the values the calls have there (for the elements of lists: exactly the elements). It is well formed. -/
theorem C60_from_op_partial {R : FCall → Prop} (hR : RecOk R) {op : String} {calls : List FCall} (hc : ∀ c ∈ calls, R c ∧ c.op = op)
    (hn : (calls.map (·.hid)).Nodup) (hcl : ∀ x, InputName calls x ∨ OutputName calls x → NoClash op x) :
    ∃ (g : CFrame) (iv ov : String → String), fromOp op calls = .ok g ∧ Wf R g ∧ g.check = true ∧
      (∀ n, g.IsFunc n ↔ n = op) ∧ (∀ h, g.HasCall op h ↔ ∃ c ∈ calls, c.hid = h) ∧ (∀ h c, g.calls.get? h = some c ↔ c ∈ calls ∧ c.hid = h) ∧
      (∀ v, g.IsVar v ↔ (∃ x, InputName calls x ∧ v = iv x) ∨ ∃ x, OutputName calls x ∧ v = ov x) ∧
      (∀ x y, InputName calls x → InputName calls y → iv x = iv y → x = y) ∧ (∀ x y, OutputName calls x → OutputName calls y → ov x = ov y → x = y) ∧
      (∀ x y, InputName calls x → OutputName calls y → iv x ≠ ov y) ∧
      (∀ s d l, g.HasEdge s d l ↔ (∃ x, InputName calls x ∧ s = iv x ∧ d = op ∧ l = nameProj op x) ∨ ∃ x, OutputName calls x ∧ s = op ∧ d = ov x ∧ l = nameProj op x) ∧
      (∀ x h, InputName calls x → (g.HasRef (iv x) h ↔ ∃ c ∈ calls, ∃ p ∈ c.inputs, nameProj op p.1 = nameProj op x ∧ p.2.hid = h)) ∧
      (∀ x h, OutputName calls x → (g.HasRef (ov x) h ↔ ∃ c ∈ calls, ∃ p ∈ c.outputs, nameProj op p.1 = nameProj op x ∧ p.2.hid = h)) := by
  have ein : ∀ x, x ∈ inputNames calls ↔ InputName calls x := fun x => mem_inputNames
  have eout : ∀ x, x ∈ outputNames calls ↔ OutputName calls x := fun x => mem_outputNames
  have S0 : Stage R op (CFrame.addFunc {} op) [] [] id id := by
    have hnil : ∀ (k x : String), ¬ InSet ([] : SetDict) k x := fun k x h => by simpa [Dict.keys] using h.key
    constructor
    · exact wf_addFunc wf_empty (by simp [mem_nodes, IsVar, IsFunc, Dict.keys])
    · intro n; simp [CFrame.addFunc, IsFunc, Dict.keys, Dict.set]
    · simp [CFrame.addFunc]
    · exact fun v h => hnil v h
    · simp [CFrame.addFunc, IsVar, Dict.keys]
    · intro s d l
      simp only [List.not_mem_nil, false_and, exists_false, or_false, iff_false]
      intro h
      rw [HasEdge, CFrame.addFunc, inAdj_set_nil (fun l m h => by simpa [Dict.keys] using inAdj_key h)] at h
      simpa [Dict.keys] using inAdj_key h
    · simp
    · simp
    · simp
  obtain ⟨f1, iv, h1, S1⟩ := S0.inputs (xs := inputNames calls) (by rw [List.nil_append]; exact nodup_sortNames (PySet.nodup_ofList _)) (fun x hx => hcl x (.inl ((ein x).1 hx)))
  obtain ⟨f2, ov, h2, S2⟩ := S1.outputs (xs := outputNames calls) (by rw [List.nil_append]; exact nodup_sortNames (PySet.nodup_ofList _)) (fun x hx => hcl x (.inr ((eout x).1 hx)))
  simp only [List.nil_append] at S1 S2
  have hopF := (S2.func op).2 rfl
  have hno : ∀ h, ¬ f2.HasCall op h := fun h hh => by
    rw [HasCall, inSet_iff_mem S2.noCalls] at hh
    cases hh
  have hi : ∀ l v, InAdj f2.inp op l v ↔ ∃ x, InputName calls x ∧ v = iv x ∧ l = nameProj op x := by
    intro l v
    rw [← S2.wf.graph.sym v op l, show InAdj f2.out v l op ↔ f2.HasEdge v op l from Iff.rfl, S2.edges]
    constructor
    · rintro (⟨x, hx, h, _, h'⟩ | ⟨x, hx, rfl, h, _⟩)
      · exact ⟨x, (ein x).1 hx, h, h'⟩
      · exact absurd hopF (S2.wf.graph.disj _ ((S2.vars _).2 (.inr ⟨x, hx, h⟩)))
    · rintro ⟨x, hx, h, h'⟩
      exact .inl ⟨x, (ein x).2 hx, h, rfl, h'⟩
  have ho : ∀ l v, InAdj f2.out op l v ↔ ∃ x, OutputName calls x ∧ v = ov x ∧ l = nameProj op x := by
    intro l v
    rw [show InAdj f2.out op l v ↔ f2.HasEdge op v l from Iff.rfl, S2.edges]
    constructor
    · rintro (⟨x, hx, h, _, _⟩ | ⟨x, hx, _, h, h'⟩)
      · exact absurd hopF (S2.wf.graph.disj _ ((S2.vars _).2 (.inl ⟨x, hx, h⟩)))
      · exact ⟨x, (eout x).1 hx, h, h'⟩
    · rintro ⟨x, hx, h, h'⟩
      exact .inr ⟨x, (eout x).2 hx, rfl, h, h'⟩
  obtain ⟨g, hg, W, gi, go, gv, gf, gc, gr, gcalls⟩ := addCalls_spec hR S2.wf hopF (fun c h => (hc c h).1) (fun c _ => hno _) hn
    (fun c h p hp => ⟨iv p.1, (hi _ _).2 ⟨p.1, ⟨c, h, List.mem_map.2 ⟨p, hp, rfl⟩⟩, rfl, by rw [(hc c h).2]⟩⟩)
    (fun c h p hp => ⟨ov p.1, (ho _ _).2 ⟨p.1, ⟨c, h, List.mem_map.2 ⟨p, hp, rfl⟩⟩, rfl, by rw [(hc c h).2]⟩⟩)
  refine ⟨g, iv, ov, ?_, W, check_iff.2 W.consistent, fun n => (gf n).trans (S2.func n), ?_, ?_, ?_, ?_, ?_, ?_, ?_, ?_, ?_⟩
  · unfold fromOp
    have e0 : CFrame.getNewFname {} op = some op := by simp [getNewFname, Dict.keys]
    simp only [e0, ended, bind, Except.bind, h1, h2, hg]
  · intro h
    rw [gc]
    exact ⟨fun h' => h'.elim (fun h' => absurd h' (hno h)) (·.2), fun h' => .inr ⟨rfl, h'⟩⟩
  · intro h c
    rw [gcalls]
    constructor
    · rintro (h' | ⟨h', _⟩)
      · exact h'
      · obtain ⟨m, hm⟩ := (S2.wf.call.calls h).1 (Dict.mem_keys.2 ⟨c, h'⟩)
        obtain rfl := (S2.func m).1 hm.key
        exact absurd hm (hno h)
    · exact .inl
  · intro v
    rw [gv, S2.vars]
    simp only [ein, eout]
  · exact fun x y hx hy => S2.injIn x ((ein x).2 hx) y ((ein y).2 hy)
  · exact fun x y hx hy => S2.injOut x ((eout x).2 hx) y ((eout y).2 hy)
  · exact fun x y hx hy => S2.apart x ((ein x).2 hx) y ((eout y).2 hy)
  · intro s d l
    rw [HasEdge, go, show InAdj f2.out s l d ↔ f2.HasEdge s d l from Iff.rfl, S2.edges]
    simp only [ein, eout]
  · intro x h hx
    rw [gr]
    simp only [hi, ho]
    constructor
    · rintro (h' | ⟨c, hcc, ⟨p, hp, ⟨y, hy, e, e'⟩, rfl⟩ | ⟨p, hp, ⟨y, hy, e, e'⟩, rfl⟩⟩)
      · exact absurd h' (S2.noRefs _ _)
      · rw [(hc c hcc).2] at e'
        obtain rfl := S2.injIn x ((ein x).2 hx) y ((ein y).2 hy) e
        exact ⟨c, hcc, p, hp, e', rfl⟩
      · exact absurd e (S2.apart x ((ein x).2 hx) y ((eout y).2 hy))
    · rintro ⟨c, hcc, p, hp, e, rfl⟩
      exact .inr ⟨c, hcc, .inl ⟨p, hp, ⟨x, hx, rfl, by rw [(hc c hcc).2]; exact e⟩, rfl⟩⟩
  · intro x h hx
    rw [gr]
    simp only [hi, ho]
    constructor
    · rintro (h' | ⟨c, hcc, ⟨p, hp, ⟨y, hy, e, e'⟩, rfl⟩ | ⟨p, hp, ⟨y, hy, e, e'⟩, rfl⟩⟩)
      · exact absurd h' (S2.noRefs _ _)
      · exact absurd e.symm (S2.apart y ((ein y).2 hy) x ((eout x).2 hx))
      · rw [(hc c hcc).2] at e'
        obtain rfl := S2.injOut x ((eout x).2 hx) y ((eout y).2 hy) e
        exact ⟨c, hcc, p, hp, e', rfl⟩
    · rintro ⟨c, hcc, p, hp, e, rfl⟩
      exact .inr ⟨c, hcc, .inr ⟨p, hp, ⟨x, hx, rfl, by rw [(hc c hcc).2]; exact e⟩, rfl⟩⟩

namespace Ex
/-- a list of two elements, made by the structural op -/
def cl : FCall := ⟨"cl", "__make_list__", [("elts_0", x), ("elts_1", x2)], [("list", z)]⟩
/-- a call of the op `x` with the parameters `a` and `x` -/
def cx : FCall := ⟨"c", "x", [("a", x), ("x", x2)], [("output_0", y)]⟩
end Ex

example : (∀ x, InputName [c1, c2] x ∨ OutputName [c1, c2] x → NoClash "f" x) ∧ RecOk (· ∈ [c1, c2]) := by
  refine ⟨?_, recOk_of (by decide +kernel)⟩
  have h : ∀ l i, "f" ≠ idxName l i := by
    intro l i e
    have := congrArg String.toList e
    rw [idxName_toList] at this
    have h1 : '_' ∈ "f".toList := by rw [this]; simp
    revert h1; decide
  rintro x (⟨c, hc, hx⟩ | ⟨c, hc, hx⟩)
  all_goals
    simp only [List.mem_cons, List.not_mem_nil, or_false] at hc
    rcases hc with rfl | rfl <;> simp only [c1, c2, Dict.keys, List.map_cons, List.map_nil, List.mem_singleton] at hx <;> subst hx
    all_goals exact ⟨by decide +kernel, fun i => h _ i⟩
example : (fromOp "f" [c1, c2]).toOption.map (fun g => (g.vs, g.fs)) = some ([("a", ["x", "x2"]), ("var_0", ["y", "y2"])], [("f", ["c1", "c2"])]) := by decide +kernel
example : (fromOp "f" [c1, c2]).toOption.map edges = some [("f", "var_0", "output_0"), ("a", "f", "a")] := by decide +kernel
/-- For the elements of lists there is one variable per position, but each contains all elements. -/
example : (fromOp "__make_list__" [cl]).toOption.map (fun g => (g.vs, g.check)) = some ([("elts", ["x", "x2"]), ("elts_0", ["x", "x2"]), ("list", ["z"])], true) := by
  decide +kernel

/-- Refutation: when the op has a parameter with its own name, the function loses its end of the edges to its inputs: the calls
are added without them, and `_check`, which looks at that end only, does not notice. -/
theorem C60_refuted_op_named_like_parameter :
    (fromOp "x" [cx]).toOption.map (fun g => (g.vs, g.fs)) = some ([("a", []), ("x", ["x2"]), ("var_0", ["y"])], [("x", ["c"])]) ∧ (fromOp "x" [cx]).toOption.map check = some true ∧
    (fromOp "x" [cx]).toOption.map edges = some [("x", "x", "x"), ("x", "var_0", "output_0"), ("a", "x", "a")] := by
  decide +kernel

/-! ### from values -/

theorem addRefs_new {R : FCall → Prop} {v : String} : ∀ {refs : List FRef} {f : CFrame}, Wf R f → f.IsVar v → (refs.map (·.hid)).Nodup →
    (∀ r ∈ refs, ¬ f.HasRef v r.hid) → ∃ g, refs.foldlM (fun f r => f.addRef v r false) f = .ok g ∧ Wf R g ∧ (∀ w, g.IsVar w ↔ f.IsVar w) ∧ g.fs = f.fs ∧ g.out = f.out ∧
      (∀ w h, g.HasRef w h ↔ f.HasRef w h ∨ (w = v ∧ ∃ r ∈ refs, r.hid = h)) := by
  intro refs
  induction refs with
  | nil => intro f W _ _ _; exact ⟨f, rfl, W, fun _ => Iff.rfl, rfl, rfl, by simp⟩
  | cons r refs ih =>
    intro f W hv hn hnew
    rw [List.map_cons, List.nodup_cons] at hn
    obtain ⟨s, hs⟩ := Dict.mem_keys.1 hv
    have hr : r.hid ∉ s := fun h => hnew r (by simp) ⟨s, hs, h⟩
    have he : ∃ g, f.addRef v r false = .ok g := by
      unfold addRef
      rw [getE_ok.2 hs]
      exact ⟨_, by simp only [bind, Except.bind, hr, if_false]; rfl⟩
    obtain ⟨g, hg⟩ := he
    have A := addRef_adds W.ref hg
    obtain ⟨k, hk, k1, k2, k3, k4, k5⟩ := ih (wf_addRef W hg) ((A.keys v).2 hv) hn.2 (fun r' hr' hh => by
      rcases (A.vs v r'.hid).1 hh with h | ⟨_, h⟩
      · exact hnew r' (by simp [hr']) h
      · exact hn.1 (List.mem_map.2 ⟨r', hr', h⟩))
    refine ⟨k, ?_, k1, fun w => (k2 w).trans (A.keys w), by rw [k3, A.rest], by rw [k4, A.rest], ?_⟩
    · rw [List.foldlM_cons, hg]
      exact hk
    · intro w h
      rw [k5, A.vs]
      simp only [List.mem_cons, exists_eq_or_imp]
      constructor
      · rintro ((h | ⟨rfl, rfl⟩) | ⟨h1, h2⟩)
        · exact .inl h
        · exact .inr ⟨rfl, .inl rfl⟩
        · exact .inr ⟨h1, .inr h2⟩
      · rintro (h | ⟨rfl, h | h⟩)
        · exact .inl (.inl h)
        · exact .inl (.inr ⟨rfl, h.symm⟩)
        · exact .inr ⟨rfl, h⟩

theorem addVars_new {R : FCall → Prop} : ∀ {vars : Dict String (List FRef)} {f : CFrame}, Wf R f → f.fs = [] → (∀ s d l, ¬ f.HasEdge s d l) → vars.keys.Nodup →
    (∀ p ∈ vars, (p.2.map (·.hid)).Nodup) → (∀ v ∈ vars.keys, ¬ f.IsVar v) →
    ∃ g, vars.foldlM (fun f p => p.2.foldlM (fun f r => f.addRef p.1 r false) (f.addVar p.1)) f = .ok g ∧ Wf R g ∧ g.fs = [] ∧ (∀ s d l, ¬ g.HasEdge s d l) ∧
      (∀ v, g.IsVar v ↔ f.IsVar v ∨ v ∈ vars.keys) ∧ ∀ v h, g.HasRef v h ↔ f.HasRef v h ∨ ∃ p ∈ vars, p.1 = v ∧ ∃ r ∈ p.2, r.hid = h := by
  intro vars
  induction vars with
  | nil => intro f W hf he _ _ _; exact ⟨f, rfl, W, hf, he, by simp [Dict.keys], by simp⟩
  | cons p vars ih =>
    intro f W hf he hn hd hnew
    have hkk : Dict.keys (p :: vars) = p.1 :: Dict.keys vars := rfl
    rw [hkk, List.nodup_cons] at hn
    have hp : p.1 ∉ f.nodes := by
      rw [mem_nodes, IsFunc, hf]
      exact not_or.2 ⟨hnew p.1 (by rw [hkk]; simp), by simp [Dict.keys]⟩
    have ev : ∀ w, (f.addVar p.1).IsVar w ↔ w = p.1 ∨ f.IsVar w := fun w => Dict.mem_keys_set
    obtain ⟨g, hg, g1, g2, g3, g4, g5⟩ := addRefs_new (wf_addVar W hp) ((ev p.1).2 (.inl rfl)) (hd p (by simp)) (fun r _ hh => by
      have := (hasRef_addVar hp).1 hh
      exact hp (mem_nodes.2 (.inl this.key)))
    obtain ⟨k, hk, k1, k2, k3, k4, k5⟩ := ih g1 (g3.trans hf) (fun s d l h => by
      rw [HasEdge, g4] at h
      exact he s d l ((hasEdge_addVar W hp).1 h)) hn.2 (fun q hq => hd q (by simp [hq])) (fun v hv hh => by
      rcases (ev v).1 ((g2 v).1 hh) with rfl | h
      · exact hn.1 hv
      · exact hnew v (by rw [hkk]; simp [hv]) h)
    refine ⟨k, ?_, k1, k2, k3, ?_, ?_⟩
    · rw [List.foldlM_cons, hg]
      exact hk
    · intro v
      rw [k4, g2, ev, hkk]
      simp only [List.mem_cons]
      constructor
      · rintro ((h | h) | h) <;> simp [h]
      · rintro (h | h | h) <;> simp [h]
    · intro v h
      rw [k5, g5, hasRef_addVar hp]
      simp only [List.mem_cons, exists_eq_or_imp]
      constructor
      · rintro ((h | ⟨rfl, h⟩) | h)
        · exact .inl h
        · exact .inr (.inl ⟨rfl, h⟩)
        · exact .inr (.inr h)
      · rintro (h | ⟨rfl, h⟩ | h)
        · exact .inl (.inl h)
        · exact .inl (.inr ⟨rfl, h⟩)
        · exact .inr h

/-- C60, `cf({name: values})` (partial: no value twice under a name): a well-formed frame without functions and edges, whose variables are exactly these. -/
theorem C60_from_vars_partial (R : FCall → Prop) {vars : Dict String (List FRef)} (hk : vars.keys.Nodup) (hd : ∀ p ∈ vars, (p.2.map (·.hid)).Nodup) :
    ∃ g, fromVars vars = .ok g ∧ Wf R g ∧ g.check = true ∧ (∀ n, ¬ g.IsFunc n) ∧ (∀ s d l, ¬ g.HasEdge s d l) ∧ (∀ v, g.IsVar v ↔ v ∈ vars.keys) ∧
      ∀ v h, g.HasRef v h ↔ ∃ rs, vars.get? v = some rs ∧ ∃ r ∈ rs, r.hid = h := by
  have hnil : ∀ (k x : String), ¬ InSet ([] : SetDict) k x := fun k x h => by simpa [Dict.keys] using h.key
  obtain ⟨g, hg, g1, g2, g3, g4, g5⟩ := addVars_new (R := R) (f := {}) wf_empty rfl (fun s d l h => by simpa [Dict.keys] using inAdj_key h) hk hd (by simp [IsVar, Dict.keys])
  refine ⟨g, hg, g1, check_iff.2 g1.consistent, fun n h => by rw [IsFunc, g2] at h; simp [Dict.keys] at h, g3, fun v => ?_, fun v h => ?_⟩
  · rw [g4]
    simp [IsVar, Dict.keys]
  · rw [g5]
    constructor
    · rintro (h | ⟨p, hp, rfl, r⟩)
      · exact absurd h (hnil v _)
      · exact ⟨p.2, (Dict.get?_eq_some_iff hk).2 hp, r⟩
    · rintro ⟨rs, h1, h2⟩
      exact .inr ⟨(v, rs), Dict.mem_of_get? h1, rfl, h2⟩

/-- C60, `cf(values)` (partial likewise): one variable `v` with exactly these values. -/
theorem C60_from_refs_partial (R : FCall → Prop) {refs : List FRef} (hd : (refs.map (·.hid)).Nodup) :
    ∃ g, fromRefs refs = .ok g ∧ Wf R g ∧ g.check = true ∧ (∀ n, ¬ g.IsFunc n) ∧ (∀ s d l, ¬ g.HasEdge s d l) ∧ (∀ v, g.IsVar v ↔ v = "v") ∧
      ∀ v h, g.HasRef v h ↔ v = "v" ∧ ∃ r ∈ refs, r.hid = h := by
  obtain ⟨g, h1, h2, h3, h4, h5, h6, h7⟩ := C60_from_vars_partial R (vars := [("v", refs)]) (by simp [Dict.keys]) (by simpa using hd)
  refine ⟨g, ?_, h2, h3, h4, h5, fun v => by simpa [Dict.keys] using h6 v, fun v h => ?_⟩
  · have e : CFrame.getNewVname {} "v" = some "v" := by decide +kernel
    unfold fromRefs
    rw [e]
    simp only [ended, bind, Except.bind]
    unfold fromVars at h1
    rw [List.foldlM_cons] at h1
    obtain ⟨k, hk, h1⟩ := exBind_ok.1 h1
    cases h1
    exact hk
  · rw [h7]
    simp only [Dict.get?_cons]
    by_cases e : v = "v"
    · subst e; simp
    · simp [Ne.symm e, e]

example : (([x, x2, y] : List FRef).map (·.hid)).Nodup := by decide
example : (fromVars [("p", [x, y]), ("q", [y])]).toOption.map (fun g => (g.vs, g.refinv)) = some ([("p", ["x", "y"]), ("q", ["y"])], [("x", ["p"]), ("y", ["p", "q"])]) := by
  decide +kernel

/-- Refutation: a value given twice raises. -/
theorem C60_refuted_duplicate_values : fromRefs [x, y, x] = .error .valueError := by decide +kernel

end Verif.Props
