import Verif.Proofs.CFrameObj
import Verif.Props.Frame
/-!
C49: `cleanup` and `simplify` of frames. C50: operations that are not in place leave the original alone.
-/
namespace Verif.Props

open Verif CFrame Ex

/-! ### C50 -/

/-- The operations with an argument `inplace`. -/
inductive ObjOp
  | dropVar (v : String)
  | dropFunc (n : String)
  | dropNode (n : String)
  | drop (ns : List String)
  | renameVar (v w : String)
  | rename (vars : Dict String String)
  | mergeVars
  | mergeInto (a b : String)
  | moveRef (a b h : String)

/-- Calling the operation on an object. -/
def ObjOp.call (i : Nat) (inplace : Bool) : ObjOp → OM (Option Nat)
  | .dropVar v => dropVarO i v inplace
  | .dropFunc n => dropFuncO i n inplace
  | .dropNode n => dropNodeO i n inplace
  | .drop ns => dropO i ns inplace
  | .renameVar v w => renameVarO i v w inplace
  | .rename vars => renameO i vars inplace
  | .mergeVars => mergeVarsO i inplace
  | .mergeInto a b => mergeIntoO i a b inplace
  | .moveRef a b h => moveRefO i a b h inplace

/-- What the operation makes of a frame. -/
def ObjOp.result (f : CFrame) : ObjOp → Except Err CFrame
  | .dropVar v => f.dropVar v
  | .dropFunc n => f.dropFunc n
  | .dropNode n => f.dropNode n
  | .drop ns => f.drop ns
  | .renameVar v w => f.renameVar v w
  | .rename vars => f.rename vars
  | .mergeVars => f.mergeVars
  | .mergeInto a b => f.mergeInto a b
  | .moveRef a b h => f.moveRef a b h

/-- All but `move_ref` and `merge_into`. -/
def ObjOp.Safe : ObjOp → Prop
  | .mergeInto _ _ => False
  | .moveRef _ _ _ => False
  | _ => True

theorem ok_of_copy {β : Type} {h : Heap} {i : Nat} {f : CFrame} (hi : h[i]? = some f) (k : Nat → OM β) : (copyObj i >>= k) h = k h.length (h ++ [f]) := by
  rw [om_bind]; unfold copyObj; rw [hi]

theorem set_last (h : Heap) (f g : CFrame) : (h ++ [f]).set h.length g = h ++ [g] := by simp

theorem copy_gives {h : Heap} {i : Nat} {f : CFrame} (hi : h[i]? = some f) {op : CFrame → Except Err CFrame} {k : Nat → OM (Option Nat)}
    (hk : ∀ r, Gives r op (k r) (some r)) :
    (∀ g, op f = .ok g → (copyObj i >>= k) h = (.ok (some h.length), h ++ [g])) ∧ ∀ e, op f = .error e → ∃ h', (copyObj i >>= k) h = (.error e, h') := by
  obtain ⟨h1, h2⟩ := hk h.length (h ++ [f]) f (by simp)
  rw [ok_of_copy hi]
  refine ⟨fun g hg => ?_, h2⟩
  rw [h1 g hg, set_last]

/-- C50 (partial: not `move_ref` and `merge_into`, see the refutations): an operation that is not in place leaves every object as
it was, even if it raises. If it does not raise then it answers a new object, which has the content that the operation makes
of the original. -/
theorem C50_not_in_place_partial {o : ObjOp} (ho : o.Safe) (h : Heap) {i : Nat} {f : CFrame} (hi : h[i]? = some f) :
    (∀ (j : Nat) f, h[j]? = some f → (o.call i false h).2[j]? = some f) ∧
    (∀ g, o.result f = .ok g → o.call i false h = (.ok (some h.length), h ++ [g])) ∧
    ∀ e, o.result f = .error e → ∃ h', o.call i false h = (.error e, h') := by
  refine ⟨?_, ?_⟩
  · have key : Only (fun j => false = true ∧ j = i) (o.call i false) := by
      cases o with
      | dropVar v => exact only_dropVarO i false v
      | dropFunc n => exact only_dropFuncO i false n
      | dropNode n => exact only_dropNodeO i false n
      | drop ns => exact only_dropO i false ns
      | renameVar v w => exact only_renameVarO i false v w
      | rename vars => exact only_renameO i false vars
      | mergeVars => exact only_mergeVarsO i false
      | mergeInto => exact ho.elim
      | moveRef => exact ho.elim
    intro j f hj
    rw [(key h).2 j (List.getElem?_eq_some_iff.1 hj).1 (fun hc => by cases hc.1), hj]
  · cases o with
    | dropVar v => exact copy_gives hi fun r => (does_onFrame r (·.dropVar v)).gives false
    | dropFunc n => exact copy_gives hi fun r => (does_onFrame r (·.dropFunc n)).gives false
    | dropNode n => exact copy_gives hi fun r => gives_dropNodeBody r n false
    | drop ns => exact copy_gives hi fun r => gives_dropBody r ns false
    | renameVar v w => exact copy_gives hi fun r => (does_onFrame r (·.renameVar v w)).gives false
    | rename vars => exact copy_gives hi fun r => gives_renameBody r vars false
    | mergeVars => exact copy_gives hi fun r => gives_mergeVarsBody r false
    | mergeInto => exact ho.elim
    | moveRef => exact ho.elim

/-- In place: no other object changes, and the object gets the content that the operation makes of it (all operations). -/
theorem C50_in_place (o : ObjOp) (h : Heap) {i : Nat} {f : CFrame} (hi : h[i]? = some f) :
    (∀ (j : Nat) f, j ≠ i → h[j]? = some f → (o.call i true h).2[j]? = some f) ∧
    (∀ g, o.result f = .ok g → ∃ a, o.call i true h = (.ok a, h.set i g)) ∧ ∀ e, o.result f = .error e → ∃ h', o.call i true h = (.error e, h') := by
  refine ⟨?_, ?_⟩
  · have key : Only (fun j => j = i) (o.call i true) := by
      cases o with
      | dropVar v => exact (only_dropVarO i true v).mono fun _ h => h.2
      | dropFunc n => exact (only_dropFuncO i true n).mono fun _ h => h.2
      | dropNode n => exact (only_dropNodeO i true n).mono fun _ h => h.2
      | drop ns => exact (only_dropO i true ns).mono fun _ h => h.2
      | renameVar v w => exact (only_renameVarO i true v w).mono fun _ h => h.2
      | rename vars => exact (only_renameO i true vars).mono fun _ h => h.2
      | mergeVars => exact (only_mergeVarsO i true).mono fun _ h => h.2
      | mergeInto a b => exact only_mergeIntoO_true i a b
      | moveRef a b h => exact only_moveRefO_true i a b h
    intro j f hne hj
    rw [(key h).2 j (List.getElem?_eq_some_iff.1 hj).1 hne, hj]
  · have key : Does i (fun f => o.result f) (o.call i true) := by
      cases o with
      | dropVar v => exact does_dropVarO i v
      | dropFunc n => exact does_dropFuncO i n
      | dropNode n => exact does_dropNodeO i n
      | drop ns => simp only [ObjOp.call, dropO, target_true]; exact (gives_dropBody i ns true).does
      | renameVar v w => exact does_renameVarO i v w
      | rename vars => simp only [ObjOp.call, renameO, target_true]; exact (gives_renameBody i vars true).does
      | mergeVars => simp only [ObjOp.call, mergeVarsO, target_true]; exact (gives_mergeVarsBody i true).does
      | mergeInto a b => exact does_mergeIntoO i a b
      | moveRef a b h => exact does_moveRefO i a b h
    exact key h f hi

/-- A non-trivial case: two objects, renaming and dropping in a copy of the second. -/
example : (ObjOp.call 1 false (.drop ["a", "g"]) [frameF, frameFG]).1 = .ok (some 2) ∧
    ((ObjOp.call 1 false (.drop ["a", "g"]) [frameF, frameFG]).2.map (·.nodes)) = [["a", "var_0", "f"], ["a", "var_0", "o", "f", "g"], ["var_0", "o", "f"]] := by
  decide +kernel

/-- Refutation: `move_ref(..., inplace=False)` changes `refinv` of the original (cf.py lines 1972-1973), which thereby becomes
inconsistent, and leaves that of the answer as it was. -/
theorem C50_refuted_move_ref :
    let f := ((runOps {} (buildF ++ [.addVar "b"])).toOption).getD {}
    f.check = true ∧ (ObjOp.call 0 false (.moveRef "var_0" "b" "y") [f]).1 = .ok (some 1) ∧
    ((ObjOp.call 0 false (.moveRef "var_0" "b" "y") [f]).2.map (·.refinv)) = [[("x", ["a"]), ("y", ["b"])], [("x", ["a"]), ("y", ["var_0"])]] ∧
    ((ObjOp.call 0 false (.moveRef "var_0" "b" "y") [f]).2.map check) = [false, false] := by decide +kernel

/-- Refutation: `merge_into(..., inplace=False)` moves the values in the original instead of the answer (cf.py line 1988), and then
drops them with the node in the answer: `x2` is in no variable of the answer, and the original lost its `v`. -/
theorem C50_refuted_merge_into :
    let f := ((runOps {} [.addVar "v", .addVar "w", .addRef "v" x, .addRef "v" x2, .addRef "w" x]).toOption).getD {}
    f.check = true ∧ f.vs = [("v", ["x", "x2"]), ("w", ["x"])] ∧ (ObjOp.call 0 false (.mergeInto "v" "w") [f]).1 = .ok (some 1) ∧
    ((ObjOp.call 0 false (.mergeInto "v" "w") [f]).2.map (·.vs)) = [[("v", ["x"]), ("w", ["x", "x2"])], [("w", ["x"])]] := by decide +kernel

/-! ### C49 -/

/-- A node of the frame without elements. -/
def Empty (f : CFrame) (n : String) : Prop := (f.IsVar n ∨ f.IsFunc n) ∧ (∀ h, ¬ f.HasRef n h) ∧ ∀ h, ¬ f.HasCall n h

theorem dropEmpty_noop {R : FCall → Prop} (hR : RecOk R) {f : CFrame} (H : Wf R f) {h : Heap} {r : Nat} (hr : h[r]? = some f) :
    (dropEmptyO r h).1 = .ok () ∧ (dropEmptyO r h).2[r]? = some f := by
  have key : ∀ (ns : List String), (∀ n ∈ ns, n ∈ f.nodes) → ∀ h : Heap, h[r]? = some f → (ns.forM (fun n => (do
      let f ← frame r
      if (f.setOf n).getD [] = [] then
        let _ ← dropNodeO r n false
      else pure () : OM PUnit)) h).1 = .ok () := by
    intro ns
    induction ns with
    | nil => intro _ h _; rfl
    | cons n ns ih =>
      intro hns h hr
      unfold List.forM
      rw [om_bind, om_bind]
      have e1 : frame r h = (.ok f, h) := by unfold frame; rw [hr]
      rw [e1]
      dsimp only
      split
      · rename_i a h' he
        refine ih (fun m hm => hns m (by simp [hm])) h' ?_
        by_cases hs : (f.setOf n).getD [] = []
        · rw [if_pos hs, om_bind] at he
          have ho := (only_dropNodeO r false n h).2 r (List.getElem?_eq_some_iff.1 hr).1 (fun hc => by cases hc.1)
          split at he
          · rename_i hd
            rw [hd] at ho
            cases he
            exact ho.trans hr
          · cases he
        · rw [if_neg hs] at he
          cases he; exact hr
      · rename_i e h' he
        exfalso
        by_cases hs : (f.setOf n).getD [] = []
        · rw [if_pos hs, om_bind] at he
          have hd : ∃ g, f.dropNode n = .ok g := by
            rcases mem_nodes.1 (hns n (by simp)) with hv | hf
            · obtain ⟨g, hg, _⟩ := C57_drop_variable H hv
              exact ⟨g, hg⟩
            · have hno : ∀ x, ¬ f.HasCall n x := by
                rintro x ⟨s, hs', hx⟩
                rw [setOf, hs'] at hs
                simp only [Option.some_or, Option.getD_some] at hs
                subst hs; cases hx
              obtain ⟨g, hg, _⟩ := C57_drop_function_partial hR H hf (fun x c hx => absurd hx (hno x)) (fun x c hx => absurd hx (hno x))
              exact ⟨g, hg⟩
          obtain ⟨g, hg⟩ := hd
          have := (C50_not_in_place_partial (o := .dropNode n) trivial h hr).2.1 g hg
          simp only [ObjOp.call] at this
          rw [this] at he
          cases he
        · rw [if_neg hs] at he
          cases he
  have e1 : frame r h = (.ok f, h) := by unfold frame; rw [hr]
  have e2 : dropEmptyO r h = (f.nodes.forM (fun n => (do
      let f ← frame r
      if (f.setOf n).getD [] = [] then
        let _ ← dropNodeO r n false
      else pure () : OM PUnit)) h) := by
    unfold dropEmptyO
    rw [om_bind, e1]
  refine ⟨by rw [e2]; exact key _ (fun _ h => h) h hr, ?_⟩
  rw [(only_dropEmptyO (S := fun _ => False) r h).2 r (List.getElem?_eq_some_iff.1 hr).1 not_false, hr]

/-- C49 (partial, only the half "nothing else", see the refutation): `cleanup` and `simplify` of any well-formed frame do not raise and leave it as
it was, and the answer of `cleanup` has the same content. -/
theorem C49_removes_nothing_else_partial {R : FCall → Prop} (hR : RecOk R) {f : CFrame} (H : Wf R f) {h : Heap} {i : Nat} (hi : h[i]? = some f) :
    ((simplifyO i h).1 = .ok () ∧ (simplifyO i h).2[i]? = some f) ∧
    ((cleanupO i true h).1 = .ok none ∧ (cleanupO i true h).2[i]? = some f) ∧
    ((cleanupO i false h).1 = .ok (some h.length) ∧ (cleanupO i false h).2[i]? = some f ∧ (cleanupO i false h).2[h.length]? = some f) := by
  have hlt := (List.getElem?_eq_some_iff.1 hi).1
  refine ⟨dropEmpty_noop hR H hi, ?_, ?_⟩
  · obtain ⟨h1, h2⟩ := dropEmpty_noop hR H hi
    unfold cleanupO
    rw [target_true, om_bind]
    split
    · rename_i he; rw [he] at h2; exact ⟨rfl, h2⟩
    · rename_i he; rw [he] at h1; cases h1
  · obtain ⟨h1, h2⟩ := dropEmpty_noop hR H (h := h ++ [f]) (r := h.length) (by simp)
    have h3 := (only_cleanupO (S := fun _ => False) i false h).2 i hlt not_false
    refine ⟨?_, by rw [h3, hi], ?_⟩ <;>
    · unfold cleanupO
      simp only [target, Bool.false_eq_true, if_false]
      rw [ok_of_copy hi, om_bind]
      split
      · rename_i he; rw [he] at h2; first | rfl | exact h2
      · rename_i he; rw [he] at h1; cases h1

/-- Refutation: hence an empty node is never removed, in any frame (cf.py line 2077 throws the answer of `drop_node` away). -/
theorem C49_refuted_keeps_empty {R : FCall → Prop} (hR : RecOk R) {f : CFrame} (H : Wf R f) {n : String} (hn : Empty f n) :
    ∃ r g, (cleanupO 0 false [f]).1 = .ok (some r) ∧ (cleanupO 0 false [f]).2[r]? = some g ∧ Empty g n := by
  obtain ⟨_, _, h1, _, h2⟩ := C49_removes_nothing_else_partial hR H (h := [f]) (i := 0) rfl
  exact ⟨1, f, h1, h2, hn⟩

/-- There are such frames. -/
example : ∃ f, Wf (· ∈ recd) f ∧ Empty f "a" ∧ Empty f "f" := by
  refine ⟨((runOps {} [.addVar "a", .addFunc "f"]).toOption).getD {}, ?_, ?_⟩
  · exact wf_builds recOk wf_empty (os := [.addVar "a", .addFunc "f"]) (builds_of (by decide +kernel))
  · simp only [Empty, HasRef, HasCall, ← mem_getOr]
    refine ⟨⟨by decide +kernel, ?_, ?_⟩, by decide +kernel, ?_, ?_⟩ <;> (intro h; exact (by decide +kernel : ∀ x ∈ ([] : List String), x ∉ ([] : List String)) h |> fun _ => List.not_mem_nil)

/-- What `cleanup` is meant to do is what `drop` of the empty nodes does: it succeeds on every well-formed frame, and the nodes left are exactly those with
elements, with the edges between them and all they had. -/
theorem C49_drop_empty_partial {R : FCall → Prop} (hR : RecOk R) : ∀ (ns : List String) {f : CFrame}, Wf R f → (∀ n ∈ ns, Empty f n) → ns.Nodup →
    ∃ g, f.drop ns = .ok g ∧ Wf R g ∧ g.check = true ∧ (∀ v, g.IsVar v ↔ f.IsVar v ∧ v ∉ ns) ∧ (∀ n, g.IsFunc n ↔ f.IsFunc n ∧ n ∉ ns) ∧
      (∀ v h, g.HasRef v h ↔ f.HasRef v h) ∧ (∀ n h, g.HasCall n h ↔ f.HasCall n h) ∧ ∀ s d l, g.HasEdge s d l ↔ f.HasEdge s d l ∧ s ∉ ns ∧ d ∉ ns := by
  intro ns
  induction ns with
  | nil =>
    intro f H _ _
    exact ⟨f, rfl, H, check_iff.2 H.consistent, by simp, by simp, by simp, by simp, by simp⟩
  | cons n ns ih =>
    intro f H he hnd
    obtain ⟨hn, hnr, hnc⟩ := he n (by simp)
    have step : ∃ g, f.dropNode n = .ok g ∧ Wf R g ∧ (∀ v, g.IsVar v ↔ f.IsVar v ∧ v ≠ n) ∧ (∀ m, g.IsFunc m ↔ f.IsFunc m ∧ m ≠ n) ∧
        (∀ v h, g.HasRef v h ↔ f.HasRef v h) ∧ (∀ n h, g.HasCall n h ↔ f.HasCall n h) ∧ ∀ s d l, g.HasEdge s d l ↔ f.HasEdge s d l ∧ s ≠ n ∧ d ≠ n := by
      rcases hn with hv | hf
      · obtain ⟨g, h1, h2, _, h3, h4, h5, h6, h7⟩ := C57_drop_variable H hv
        refine ⟨g, h1, h2, h3, fun m => (h4 m).trans ⟨fun h => ⟨h, ?_⟩, fun h => h.1⟩, fun v h => (h5 v h).trans ⟨fun h => h.1, fun h => ⟨h, ?_⟩⟩, h6, h7⟩
        · rintro rfl; exact H.graph.disj m hv h
        · rintro rfl; exact hnr _ h
      · obtain ⟨g, h1, h2, _, h3, h4, h5, h6, h7⟩ := C57_drop_function_partial hR H hf (fun x c hx => absurd hx (hnc x)) (fun x c hx => absurd hx (hnc x))
        refine ⟨g, h1, h2, fun m => (h3 m).trans ⟨fun h => ⟨h, ?_⟩, fun h => h.1⟩, h4, h5, fun m h => (h6 m h).trans ⟨fun h => h.1, fun h => ⟨h, ?_⟩⟩, h7⟩
        · rintro rfl; exact H.graph.disj m h hf
        · rintro rfl; exact hnc _ h
    obtain ⟨k, k1, k2, k3, k4, k5, k6, k7⟩ := step
    obtain ⟨hnn, hnd⟩ := List.nodup_cons.1 hnd
    obtain ⟨g, g1, g2, g0, g3, g4, g5, g6, g7⟩ := ih k2 (fun m hm => by
      have hmn : m ≠ n := fun e => hnn (e ▸ hm)
      obtain ⟨h1, h2, h3⟩ := he m (by simp [hm])
      refine ⟨?_, fun h hh => h2 h ((k5 m h).1 hh), fun h hh => h3 h ((k6 m h).1 hh)⟩
      rcases h1 with h | h
      · exact .inl ((k3 m).2 ⟨h, hmn⟩)
      · exact .inr ((k4 m).2 ⟨h, hmn⟩)) hnd
    refine ⟨g, ?_, g2, g0, ?_, ?_, ?_, ?_, ?_⟩
    · unfold drop at g1 ⊢
      rw [List.foldlM_cons, k1]
      exact g1
    · intro v; rw [g3, k3, List.mem_cons]; simp [and_assoc]
    · intro v; rw [g4, k4, List.mem_cons]; simp [and_assoc]
    · intro v h; rw [g5, k5]
    · intro v h; rw [g6, k6]
    · intro s d l; rw [g7, k7, List.mem_cons, List.mem_cons]; simp [and_assoc, and_left_comm]

end Verif.Props
