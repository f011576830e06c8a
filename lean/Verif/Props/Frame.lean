import Verif.Proofs.CFrameDropFunc
import Verif.Proofs.CFrameRename
import Verif.Proofs.CFrameSubsets
/-!
C39, C40, C41, C57: consistency of computation frames under the operations that build and change them, selecting nodes,
selecting subsets of their elements, dropping nodes.
-/
namespace Verif.Props

open Verif CFrame

/-- Concrete recorded calls, for the examples. -/
def recOkB (L : List FCall) : Bool :=
  decide (∀ c ∈ L, ∀ c' ∈ L, c.hid = c'.hid → c = c') && decide (∀ c ∈ L, c.inputs.keys.Nodup) &&
  decide (∀ c ∈ L, c.outputs.keys.Nodup) &&
  decide (∀ c ∈ L, ∀ c' ∈ L, ∀ p ∈ c.outputs, ∀ p' ∈ c'.outputs, p.2.hid = p'.2.hid → c = c') &&
  decide (∀ c ∈ L, c.op = makeListName → ∀ p ∈ c.inputs, isElt p.1 = true) &&
  decide (∀ c ∈ L, c.op = makeListName → ∀ p ∈ c.outputs, isElt p.1 = false ∧ p.1 ≠ "elts")

theorem recOk_of {L : List FCall} (h : recOkB L = true) : RecOk (· ∈ L) := by
  simp only [recOkB, Bool.and_eq_true, decide_eq_true_eq] at h
  obtain ⟨⟨⟨⟨⟨h1, h2⟩, h3⟩, h4⟩, h5⟩, h6⟩ := h
  exact ⟨fun c c' hc hc' => h1 c hc c' hc', h2, h3, fun c c' p p' hc hc' hp hp' => h4 c hc c' hc' p hp p' hp', h5, h6⟩

/-! ### C39 -/

/-- The operations that build and change a frame. -/
inductive FOp where
  | addVar (v : String)
  | addFunc (n : String)
  | addEdge (s d l : String)
  | addRef (v : String) (r : FRef)
  | addCall (n : String) (c : FCall)
  | dropRef (v h : String)
  | dropCall (n h : String)
  | dropVar (v : String)
  | dropFunc (n : String)
  | dropNode (n : String)
  | renameVar (v w : String)
  | selectNodes (ns : List String)
  | selectSubsets (elts : SetDict)

def FOp.apply (f : CFrame) : FOp → Except Err CFrame
  | .addVar v => .ok (f.addVar v)
  | .addFunc n => .ok (f.addFunc n)
  | .addEdge s d l => f.addEdge s d l true
  | .addRef v r => f.addRef v r true
  | .addCall n c => f.addCall n c true true
  | .dropRef v h => f.dropRef v h
  | .dropCall n h => f.dropCall n h
  | .dropVar v => f.dropVar v
  | .dropFunc n => f.dropFunc n
  | .dropNode n => f.dropNode n
  | .renameVar v w => f.renameVar v w
  | .selectNodes ns => f.selectNodes ns
  | .selectSubsets elts => f.selectSubsets elts

/-- A sequence of operations, all of which succeed. -/
def runOps (f : CFrame) (os : List FOp) : Except Err CFrame := os.foldlM FOp.apply f

/-- The function has no calls yet. -/
def NoCalls (f : CFrame) (n : String) : Prop := f.fs.get? n = some []

/-- No input or output of the call belongs to a label whose variables have all been dropped. -/
def NoStale (f : CFrame) (n : String) (c : FCall) : Prop :=
  (∀ p ∈ c.inputs, Dict.get? (getOr f.inp n) (nameProj c.op p.1) ≠ some []) ∧
  ∀ p ∈ c.outputs, Dict.get? (getOr f.out n) (nameProj c.op p.1) ≠ some []

/-- What has to hold for an operation to keep the frame consistent: names for new nodes are new, edges are added to a function
before its calls, calls are recorded ones, values are only dropped when no call needs them, subsets are closed under the
inputs and outputs of their calls; single calls are not dropped. -/
def FOp.Fit (R : FCall → Prop) (f : CFrame) : FOp → Prop
  | .addVar v => v ∉ f.nodes
  | .addFunc n => n ∉ f.nodes
  | .addEdge s d _ => (f.IsVar s ∧ NoCalls f d) ∨ (NoCalls f s ∧ f.IsVar d)
  | .addRef _ _ => True
  | .addCall n c => R c ∧ NoStale f n c
  | .dropRef v h => Loose f v h
  | .dropCall _ _ => False
  | .dropVar _ => True
  | .dropFunc _ => True
  | .dropNode _ => True
  | .renameVar _ w => w ∉ f.nodes
  | .selectNodes _ => True
  | .selectSubsets elts => Closed f elts ∧ Uniform f elts

/-- A sequence of operations that succeed, each fitting the frame it is applied to. -/
def Builds (R : FCall → Prop) : CFrame → List FOp → CFrame → Prop
  | f, [], g => g = f
  | f, o :: os, g => ∃ k, o.Fit R f ∧ o.apply f = .ok k ∧ Builds R k os g

theorem noCalls_spec {f : CFrame} {n : String} (h : NoCalls f n) : f.IsFunc n ∧ ∀ x, ¬ f.HasCall n x := by
  refine ⟨Dict.mem_keys.2 ⟨_, h⟩, fun x hx => ?_⟩
  rw [HasCall, inSet_iff_mem h] at hx
  cases hx

theorem noStale_spec {side : Adj} {n l : String} (h : Dict.get? (getOr side n) l ≠ some []) (hl : HasLabel side n l) : ∃ v, InAdj side n l v := by
  obtain ⟨i, hi, hk⟩ := hl
  obtain ⟨s, hs⟩ := Dict.mem_keys.1 hk
  cases s with
  | nil =>
    refine absurd ?_ h
    rw [getOr, hi]
    exact hs
  | cons v s => exact ⟨v, i, hi, _, hs, .head _⟩

theorem wf_apply {R : FCall → Prop} (hR : RecOk R) {f g : CFrame} (H : Wf R f) {o : FOp} (hf : o.Fit R f) (h : o.apply f = .ok g) : Wf R g := by
  cases o with
  | addVar v => cases h; exact wf_addVar H hf
  | addFunc n => cases h; exact wf_addFunc H hf
  | addEdge s d l =>
    refine wf_addEdge H h ?_
    rcases hf with ⟨h1, h2⟩ | ⟨h1, h2⟩
    · exact .inl ⟨h1, (noCalls_spec h2).1, (noCalls_spec h2).2⟩
    · exact .inr ⟨(noCalls_spec h1).1, h2, (noCalls_spec h1).2⟩
  | addRef v r => exact wf_addRef H h
  | addCall n c =>
    exact wf_addCall hR H hf.1 h (fun p hp hl => noStale_spec (hf.2.1 p hp) hl) (fun p hp hl => noStale_spec (hf.2.2 p hp) hl)
  | dropRef v x => exact (wf_dropRef H h hf).1
  | dropCall n x => exact hf.elim
  | dropVar v =>
    by_cases hv : f.IsVar v
    · obtain ⟨k, hk, wk, _⟩ := dropVar_spec H hv
      change f.dropVar v = _ at h
      rw [hk] at h
      cases h
      exact wk
    · change f.dropVar v = _ at h
      unfold dropVar at h
      simp only [exBind_ok, getE_ok] at h
      obtain ⟨f1, h1, s, hs, _⟩ := h
      have c1 := dropEdgesAt_spec H.graph h1
      rw [show f1.vs = f.vs by rw [c1.rest]] at hs
      exact absurd (Dict.mem_keys.2 ⟨s, hs⟩) hv
  | dropFunc n => exact (dropFunc_spec hR H h).1
  | dropNode n =>
    change f.dropNode n = _ at h
    unfold dropNode at h
    split at h
    · rename_i hv
      obtain ⟨k, hk, wk, _⟩ := dropVar_spec H (Dict.has_iff.1 hv)
      rw [hk] at h
      cases h
      exact wk
    · split at h
      · exact (dropFunc_spec hR H h).1
      · cases h
  | renameVar v w =>
    have hv : f.IsVar v := by
      change f.renameVar v w = _ at h
      unfold renameVar at h
      simp only [exBind_ok, getE_ok] at h
      obtain ⟨s, hs, _⟩ := h
      exact Dict.mem_keys.2 ⟨s, hs⟩
    obtain ⟨k, hk, S⟩ := renameVar_renames H hv hf
    change f.renameVar v w = _ at h
    rw [hk] at h
    cases h
    exact wf_renames H hv hf S
  | selectNodes ns =>
    obtain ⟨h1, h2⟩ := selectNodes_ok h
    exact wf_selectNodes h1 h2 H
  | selectSubsets elts =>
    obtain ⟨h1, h2⟩ := selectSubsets_ok h
    exact wf_subsets H h1 h2 hf.1 hf.2

theorem wf_builds {R : FCall → Prop} (hR : RecOk R) {os : List FOp} : ∀ {f g : CFrame}, Wf R f → Builds R f os g → Wf R g := by
  induction os with
  | nil => intro f g H h; cases h; exact H
  | cons o os ih =>
    intro f g H h
    obtain ⟨k, hf, hk, h⟩ := h
    exact ih (wf_apply hR H hf hk) h

/-- C39 (partial: only for operations that fit, see `FOp.Fit`; the refutations below show that without these conditions the
full statement fails): every frame built from the empty one by a finite sequence of operations passes the documented check. -/
theorem C39_operations_keep_consistency_partial {R : FCall → Prop} (hR : RecOk R) {os : List FOp} {g : CFrame}
    (h : Builds R {} os g) : g.check = true :=
  check_iff.2 (wf_builds hR wf_empty h).consistent

/-- The same, starting from any well-formed frame; and the stronger invariant is kept. -/
theorem C39_operations_keep_wellformed_partial {R : FCall → Prop} (hR : RecOk R) {os : List FOp} {f g : CFrame} (H : Wf R f)
    (h : Builds R f os g) : Wf R g ∧ g.check = true :=
  ⟨wf_builds hR H h, check_iff.2 (wf_builds hR H h).consistent⟩

namespace Ex

def x : FRef := ⟨"x", "cx"⟩
def x2 : FRef := ⟨"x2", "cx2"⟩
def y : FRef := ⟨"y", "cy"⟩
def y2 : FRef := ⟨"y2", "cy2"⟩
def z : FRef := ⟨"z", "cz"⟩

/-- `y = f(x)`, `y2 = f(x2)`, `z = g(x, x)` -/
def c1 : FCall := ⟨"c1", "f", [("a", x)], [("output_0", y)]⟩
def c2 : FCall := ⟨"c2", "f", [("a", x2)], [("output_0", y2)]⟩
def c3 : FCall := ⟨"c3", "g", [("a", x), ("b", x)], [("output_0", z)]⟩

def recd : List FCall := [c1, c2, c3]

/-- what `cf(f)` builds after `y = f(x)` -/
def buildF : List FOp := [.addFunc "f", .addVar "a", .addEdge "a" "f" "a", .addVar "var_0", .addEdge "f" "var_0" "output_0", .addCall "f" c1]

def frameF : CFrame := ((runOps {} buildF).toOption).getD {}

/-- the same for `g` -/
def buildG : List FOp := [.addFunc "g", .addEdge "a" "g" "a", .addEdge "a" "g" "b", .addVar "o", .addEdge "g" "o" "output_0", .addCall "g" c3]

def frameFG : CFrame := ((runOps {} (buildF ++ buildG)).toOption).getD {}

theorem recOk : RecOk (· ∈ recd) := recOk_of (by decide +kernel)

end Ex

open Ex

/-- The sequence of operations is not trivial: it builds a frame with both calls, drops, renames and selects. -/
example : (runOps {} (buildF ++ buildG ++ [.renameVar "var_0" "y", .dropVar "o", .selectNodes ["f", "a", "y"], .addCall "f" c2])).toOption.map
    (fun g => (g.vs, g.fs, g.check)) = some ([("a", ["x", "x2"]), ("y", ["y", "y2"])], [("f", ["c1", "c2"])], true) := by decide +kernel

instance (f : CFrame) (n : String) : Decidable (NoCalls f n) := inferInstanceAs (Decidable (_ = _))
instance (f : CFrame) (n : String) (c : FCall) : Decidable (NoStale f n c) := inferInstanceAs (Decidable (_ ∧ _))

/-- Deciding the conditions of C39 for sequences without `dropRef` and `selectSubsets`. -/
def fitB (L : List FCall) (f : CFrame) : FOp → Bool
  | .addVar v => v ∉ f.nodes
  | .addFunc n => n ∉ f.nodes
  | .addEdge s d _ => (s ∈ f.vs.keys ∧ NoCalls f d) ∨ (NoCalls f s ∧ d ∈ f.vs.keys)
  | .addRef _ _ => true
  | .addCall n c => c ∈ L ∧ NoStale f n c
  | .dropRef _ _ => false
  | .dropCall _ _ => false
  | .dropVar _ => true
  | .dropFunc _ => true
  | .dropNode _ => true
  | .renameVar _ w => w ∉ f.nodes
  | .selectNodes _ => true
  | .selectSubsets _ => false

theorem fit_of {L : List FCall} {f : CFrame} {o : FOp} (h : fitB L f o = true) : o.Fit (· ∈ L) f := by
  cases o <;> simp only [fitB, decide_eq_true_eq, Bool.false_eq_true] at h <;> first | exact h | trivial | exact h.elim

/-- Run while the conditions hold. -/
def buildB (L : List FCall) : CFrame → List FOp → Option CFrame
  | f, [] => some f
  | f, o :: os => if fitB L f o then match o.apply f with
    | .ok k => buildB L k os
    | .error _ => none
    else none

theorem builds_of {L : List FCall} {os : List FOp} : ∀ {f g : CFrame}, buildB L f os = some g → Builds (· ∈ L) f os g := by
  induction os with
  | nil => intro f g h; cases h; rfl
  | cons o os ih =>
    intro f g h
    unfold buildB at h
    split at h
    · rename_i hf
      split at h
      · rename_i k hk
        exact ⟨k, fit_of hf, hk, ih h⟩
      · cases h
    · cases h

namespace Ex
theorem builds_frameF : Builds (· ∈ recd) {} buildF frameF := builds_of (by decide +kernel)
theorem builds_frameFG : Builds (· ∈ recd) {} (buildF ++ buildG) frameFG := builds_of (by decide +kernel)
theorem wf_frameF : Wf (· ∈ recd) frameF := wf_builds recOk wf_empty builds_frameF
theorem wf_frameFG : Wf (· ∈ recd) frameFG := wf_builds recOk wf_empty builds_frameFG
end Ex

example : ∃ g, Builds (· ∈ recd) {} (buildF ++ buildG ++ [.renameVar "var_0" "y", .dropVar "o", .selectNodes ["f", "a", "y"], .addCall "f" c2]) g ∧
    g.HasCall "f" "c2" := by
  obtain ⟨g, hg⟩ : ∃ g, buildB recd {} (buildF ++ buildG ++ [.renameVar "var_0" "y", .dropVar "o", .selectNodes ["f", "a", "y"], .addCall "f" c2]) =
    some g ∧ "c2" ∈ getOr g.fs "f" := by
      refine ⟨((buildB recd {} (buildF ++ buildG ++ [.renameVar "var_0" "y", .dropVar "o", .selectNodes ["f", "a", "y"], .addCall "f" c2])).getD {}), ?_, ?_⟩ <;>
      decide +kernel
  exact ⟨g, builds_of hg.1, mem_getOr.1 hg.2⟩

/-! Refutations of the full statement C39: each of these sequences succeeds and leaves a frame failing the check. -/

/-- `drop_call` (cf.py lines 399-418) leaves the call in the function node. -/
theorem C39_refuted_drop_call : (runOps {} (buildF ++ [.dropCall "f" "c1"])).toOption.map check = some false := by decide +kernel

/-- `drop_ref` removes an input of a call of the frame. -/
theorem C39_refuted_drop_ref : (runOps {} (buildF ++ [.dropRef "a" "x"])).toOption.map check = some false := by decide +kernel

/-- `rename_var` to the name of another variable loses that variable's values. -/
theorem C39_refuted_rename : (runOps {} (buildF ++ [.renameVar "a" "var_0"])).toOption.map check = some false := by decide +kernel

/-- A call added after a variable was dropped: the label of the dropped variable is still there, so the value becomes known
as a consumer's input without being in any variable. -/
theorem C39_refuted_stale_label : (runOps {} (buildF ++ [.dropVar "a", .addCall "f" c2])).toOption.map check = some false := by decide +kernel

/-! ### C40 -/

/-- C40: selecting nodes of a consistent frame with edges recorded at both ends succeeds exactly when they are nodes of the
frame. The result is again such a frame, has exactly those nodes, the edges between them, and in each node what it had. -/
theorem C40_select_nodes {f : CFrame} (H : f.Consistent) (hsym : ∀ s d l, InAdj f.out s l d ↔ InAdj f.inp d l s) (ns : List String) :
    ((∃ g, f.selectNodes ns = .ok g) ↔ ∀ n ∈ ns, f.IsVar n ∨ f.IsFunc n) ∧
    ∀ g, f.selectNodes ns = .ok g →
      g.check = true ∧ (∀ s d l, InAdj g.out s l d ↔ InAdj g.inp d l s) ∧
      (∀ v, g.IsVar v ↔ f.IsVar v ∧ v ∈ ns) ∧ (∀ n, g.IsFunc n ↔ f.IsFunc n ∧ n ∈ ns) ∧
      (∀ s d l, g.HasEdge s d l ↔ f.HasEdge s d l ∧ s ∈ ns ∧ d ∈ ns) ∧
      (∀ v x, g.HasRef v x ↔ f.HasRef v x ∧ v ∈ ns) ∧ (∀ n x, g.HasCall n x ↔ f.HasCall n x ∧ n ∈ ns) ∧
      (∀ x r, g.refs.get? x = some r ↔ f.refs.get? x = some r ∧ ∃ v, f.HasRef v x ∧ v ∈ ns) ∧
      ∀ x c, g.calls.get? x = some c ↔ f.calls.get? x = some c ∧ ∃ n, f.HasCall n x ∧ n ∈ ns := by
  refine ⟨⟨?_, ?_⟩, ?_⟩
  · rintro ⟨g, hg⟩ n hn
    exact mem_nodes.1 ((selectNodes_ok hg).1 n hn)
  · intro h
    exact selectNodes_total fun n hn => mem_nodes.2 (h n hn)
  · intro g hg
    obtain ⟨_, S⟩ := selectNodes_ok hg
    exact ⟨check_iff.2 (selectNodes_consistent S H hsym), fun s d l => by rw [S.out, S.inp], S.vsKey, S.fsKey, fun s d l => S.out s l d,
      S.vs, S.fs, S.refs, S.calls⟩

/-- C40: selecting all nodes changes nothing that can be observed of nodes, edges and elements. -/
theorem C40_select_all {f : CFrame} (H : f.Consistent) (hsym : ∀ s d l, InAdj f.out s l d ↔ InAdj f.inp d l s) :
    ∃ g, f.selectNodes f.nodes = .ok g ∧ (∀ v, g.IsVar v ↔ f.IsVar v) ∧ (∀ n, g.IsFunc n ↔ f.IsFunc n) ∧
      (∀ s d l, g.HasEdge s d l ↔ f.HasEdge s d l) ∧ (∀ v x, g.HasRef v x ↔ f.HasRef v x) ∧ ∀ n x, g.HasCall n x ↔ f.HasCall n x := by
  obtain ⟨g, hg⟩ := selectNodes_total (f := f) (ns := f.nodes) fun _ h => h
  obtain ⟨_, _, h1, h2, h3, h4, h5, _⟩ := (C40_select_nodes H hsym f.nodes).2 g hg
  refine ⟨g, hg, ?_, ?_, ?_, ?_, ?_⟩
  · exact fun v => (h1 v).trans ⟨fun h => h.1, fun h => ⟨h, mem_nodes.2 (.inl h)⟩⟩
  · exact fun v => (h2 v).trans ⟨fun h => h.1, fun h => ⟨h, mem_nodes.2 (.inr h)⟩⟩
  · exact fun s d l => (h3 s d l).trans ⟨fun h => h.1, fun h => ⟨h, mem_nodes.2 (H.edges s d l h).1, mem_nodes.2 (H.edges s d l h).2⟩⟩
  · exact fun v x => (h4 v x).trans ⟨fun h => h.1, fun h => ⟨h, mem_nodes.2 (.inl h.key)⟩⟩
  · exact fun v x => (h5 v x).trans ⟨fun h => h.1, fun h => ⟨h, mem_nodes.2 (.inr h.key)⟩⟩

example : frameFG.Consistent ∧ (∀ s d l, InAdj frameFG.out s l d ↔ InAdj frameFG.inp d l s) :=
  ⟨wf_frameFG.consistent, wf_frameFG.graph.sym⟩

example : (frameFG.selectNodes ["g", "o", "a"]).toOption.map (fun g => (g.vs, g.fs)) =
    some ([("a", ["x"]), ("o", ["z"])], [("g", ["c3"])]) := by decide +kernel

example : (frameFG.selectNodes ["g", "o", "a"]).toOption.map edges =
    some [("a", "g", "a"), ("a", "g", "b"), ("g", "o", "output_0")] := by decide +kernel

/-! ### C41 -/

/-- C41 (partial: the result need not be consistent, see the refutations): restricting a well-formed frame to subsets of its
nodes succeeds, keeps the graph, has exactly the given elements, and is consistent exactly when the kept calls have their
tracked inputs and outputs kept. -/
theorem C41_select_subsets_partial {R : FCall → Prop} {f : CFrame} (H : Wf R f) {elts : SetDict} (hk : ∀ n, n ∈ elts.keys ↔ f.IsVar n ∨ f.IsFunc n)
    (hv : ∀ v h, f.IsVar v → InSet elts v h → f.HasRef v h) (hf : ∀ n h, f.IsFunc n → InSet elts n h → f.HasCall n h) :
    ∃ g, f.selectSubsets elts = .ok g ∧ (∀ v, g.IsVar v ↔ f.IsVar v) ∧ (∀ n, g.IsFunc n ↔ f.IsFunc n) ∧
      (∀ s d l, g.HasEdge s d l ↔ f.HasEdge s d l) ∧ (∀ v h, g.HasRef v h ↔ f.IsVar v ∧ InSet elts v h) ∧
      (∀ n h, g.HasCall n h ↔ f.IsFunc n ∧ InSet elts n h) ∧ (g.check = true ↔ Closed f elts) := by
  have W : Within f elts := by
    refine ⟨fun n => by rw [hk, mem_nodes], ?_⟩
    intro n h hn
    rcases (hk n).1 hn.key with h' | h'
    · exact (setOf_var H.graph h').2 (hv n h h' hn)
    · exact (setOf_func h').2 (hf n h h' hn)
  obtain ⟨g, hg⟩ := selectSubsets_total H W
  obtain ⟨_, S⟩ := selectSubsets_ok hg
  refine ⟨g, hg, S.vsKey, S.fsKey, ?_, S.vs, S.fs, ?_⟩
  · intro s d l; rw [HasEdge, S.out]
  · rw [check_iff]; exact subsets_consistent H W S

/-- C41 (partial): if moreover a kept value (call) is kept in all nodes containing it, then the result is well formed and hence
all further fitting operations leave it consistent. -/
theorem C41_select_subsets_further_partial {R : FCall → Prop} (hR : RecOk R) {f g : CFrame} (H : Wf R f) {elts : SetDict}
    (hg : f.selectSubsets elts = .ok g) (hc : Closed f elts) (hu : Uniform f elts) {os : List FOp} {k : CFrame} (hb : Builds R g os k) :
    k.check = true := by
  obtain ⟨W, S⟩ := selectSubsets_ok hg
  exact (C39_operations_keep_wellformed_partial hR (wf_subsets H W S hc hu) hb).2

/-- Keeping a call without its input gives an inconsistent frame. -/
theorem C41_refuted_open_subset : (frameF.selectSubsets [("f", ["c1"]), ("a", []), ("var_0", ["y"])]).toOption.map check = some false := by decide +kernel

/-- Two variables holding the same value: keep it in one only, then drop the one. The frame is consistent before, the subset is
closed, and dropping the variable always works, yet the result fails the check: `select_subsets` takes over `refinv`
unchanged (cf.py line 663), so `drop_var` believes that the value is still in the other variable. -/
theorem C41_refuted_stale_inverse :
    let f := ((runOps {} [.addVar "v", .addVar "w", .addRef "v" x, .addRef "w" x]).toOption).getD {}
    f.check = true ∧ (f.selectSubsets [("v", ["x"]), ("w", [])]).toOption.map check = some true ∧
    (f.selectSubsets [("v", ["x"]), ("w", [])] >>= fun g => g.dropVar "v").toOption.map check = some false := by decide +kernel

/-- Deciding `Closed`, `Uniform` and `Loose` on concrete frames. -/
def closedB (f : CFrame) (elts : SetDict) : Bool :=
  elts.keys.all fun n => (getOr elts n).all fun h => match f.calls.get? h with
    | none => true
    | some c => (c.inputs.all fun p => (getOr (getOr f.inp n) (nameProj c.op p.1)).all fun v => decide (p.2.hid ∈ getOr elts v)) &&
        c.outputs.all fun p => (getOr (getOr f.out n) (nameProj c.op p.1)).all fun v => decide (p.2.hid ∈ getOr elts v)

theorem closed_of {f : CFrame} {elts : SetDict} (h : closedB f elts = true) : Closed f elts := by
  intro n c p v hn hp
  simp only [closedB, List.all_eq_true] at h
  have h1 := h n hn.key c.hid (mem_getOr.2 hn)
  rcases hp with ⟨hp, _, t2, t3⟩ | ⟨hp, _, t2, t3⟩
  · simp only [t2, Bool.and_eq_true, List.all_eq_true, decide_eq_true_eq] at h1
    exact mem_getOr.1 (h1.1 p hp v (mem_getOr.2 (inAdj_getOr.2 t3)))
  · simp only [t2, Bool.and_eq_true, List.all_eq_true, decide_eq_true_eq] at h1
    exact mem_getOr.1 (h1.2 p hp v (mem_getOr.2 (inAdj_getOr.2 t3)))

def uniformB (f : CFrame) (elts : SetDict) : Bool :=
  (f.vs.keys.all fun v => f.vs.keys.all fun w => (getOr elts w).all fun h => decide (h ∈ getOr f.vs v → h ∈ getOr elts v)) &&
  f.fs.keys.all fun v => f.fs.keys.all fun w => (getOr elts w).all fun h => decide (h ∈ getOr f.fs v → h ∈ getOr elts v)

theorem uniform_of {f : CFrame} {elts : SetDict} (h : uniformB f elts = true) : Uniform f elts := by
  simp only [uniformB, Bool.and_eq_true, List.all_eq_true, decide_eq_true_eq] at h
  constructor
  · rintro v x ⟨w, hw, hx⟩ hv
    exact mem_getOr.1 (h.1 v hv.key w hw x (mem_getOr.2 hx) (mem_getOr.2 hv))
  · rintro v x ⟨w, hw, hx⟩ hv
    exact mem_getOr.1 (h.2 v hv.key w hw x (mem_getOr.2 hx) (mem_getOr.2 hv))

example : Closed frameFG [("a", ["x"]), ("f", ["c1"]), ("var_0", ["y"]), ("g", []), ("o", [])] ∧
    Uniform frameFG [("a", ["x"]), ("f", ["c1"]), ("var_0", ["y"]), ("g", []), ("o", [])] :=
  ⟨closed_of (by decide +kernel), uniform_of (by decide +kernel)⟩

/-! ### C57 -/

/-- C57: a variable of a well-formed frame can always be dropped. Exactly that node goes, with its values and edges; the
result is well formed. -/
theorem C57_drop_variable {R : FCall → Prop} {f : CFrame} (H : Wf R f) {v : String} (hv : f.IsVar v) :
    ∃ g, f.dropNode v = .ok g ∧ Wf R g ∧ g.check = true ∧ (∀ w, g.IsVar w ↔ f.IsVar w ∧ w ≠ v) ∧ (∀ n, g.IsFunc n ↔ f.IsFunc n) ∧
      (∀ w h, g.HasRef w h ↔ f.HasRef w h ∧ w ≠ v) ∧ (∀ n h, g.HasCall n h ↔ f.HasCall n h) ∧
      (∀ s d l, g.HasEdge s d l ↔ f.HasEdge s d l ∧ s ≠ v ∧ d ≠ v) := by
  obtain ⟨g, hg, wg, h1, h2, h3, h4, h5, _⟩ := dropVar_spec H hv
  refine ⟨g, ?_, wg, check_iff.2 wg.consistent, h1, h2, h3, h4, h5⟩
  unfold dropNode
  rw [if_pos (Dict.has_iff.2 hv)]
  exact hg

/-- The inputs and outputs of the calls of the function are tracked by variables. -/
def FullyTracked (f : CFrame) (n : String) : Prop := ∀ h c, f.HasCall n h → f.calls.get? h = some c →
  (∀ p ∈ c.inputs, ∃ v, InAdj f.inp n (nameProj c.op p.1) v) ∧ ∀ p ∈ c.outputs, ∃ v, InAdj f.out n (nameProj c.op p.1) v

/-- C57 (partial: needs that variables track all inputs and outputs of the calls and that no call uses or returns the same
value twice, see the refutations): a function can be dropped. Exactly that node goes, with its calls and edges. -/
theorem C57_drop_function_partial {R : FCall → Prop} (hR : RecOk R) {f : CFrame} (H : Wf R f) {n : String} (hn : f.IsFunc n)
    (ht : FullyTracked f n) (hd : ∀ h c, f.HasCall n h → f.calls.get? h = some c → (c.inputs.vals.map (·.hid)).Nodup ∧ (c.outputs.vals.map (·.hid)).Nodup) :
    ∃ g, f.dropNode n = .ok g ∧ Wf R g ∧ g.check = true ∧ (∀ w, g.IsVar w ↔ f.IsVar w) ∧ (∀ m, g.IsFunc m ↔ f.IsFunc m ∧ m ≠ n) ∧
      (∀ w h, g.HasRef w h ↔ f.HasRef w h) ∧ (∀ m h, g.HasCall m h ↔ f.HasCall m h ∧ m ≠ n) ∧
      (∀ s d l, g.HasEdge s d l ↔ f.HasEdge s d l ∧ s ≠ n ∧ d ≠ n) := by
  obtain ⟨g, hg⟩ := dropFunc_total hR H hn (by
    intro h c hh hc
    have hid := (H.call.callOk h c hc).1
    obtain ⟨t1, t2⟩ := ht h c hh hc
    refine ⟨(hd h c hh hc).2, (hd h c hh hc).1, ?_, ?_⟩
    · intro r hr
      obtain ⟨p, hp, rfl⟩ := List.mem_map.1 hr
      obtain ⟨v, hv⟩ := t2 p hp
      exact Dict.mem_keys.2 ⟨_, (H.outs n c p v hp ⟨hid ▸ hh, hid ▸ hc, hv⟩).2⟩
    · intro r hr
      obtain ⟨p, hp, rfl⟩ := List.mem_map.1 hr
      obtain ⟨v, hv⟩ := t1 p hp
      exact .inl (hid ▸ (H.ins n c p v hp ⟨hid ▸ hh, hid ▸ hc, hv⟩).2))
  obtain ⟨wg, h1, h2, h3, h4, h5⟩ := dropFunc_spec hR H hg
  refine ⟨g, ?_, wg, check_iff.2 wg.consistent, h1, h2, h3, h4, h5⟩
  unfold dropNode
  have : f.vs.has n = false := by
    rw [← Bool.not_eq_true, Dict.has_iff]
    exact fun hv => H.graph.disj n hv hn
  rw [this, Dict.has_iff.2 hn]
  exact hg

/-- The hypotheses are met by the frame of `y = f(x)`. -/
example : FullyTracked frameF "f" ∧ ∀ h c, frameF.HasCall "f" h → frameF.calls.get? h = some c →
    (c.inputs.vals.map (·.hid)).Nodup ∧ (c.outputs.vals.map (·.hid)).Nodup := by
  have hc : ∀ h c, frameF.calls.get? h = some c → c = c1 := by
    intro h c hc
    have e : frameF.calls = [("c1", c1)] := by decide +kernel
    rw [e, Dict.get?_cons] at hc
    split at hc
    · cases hc; rfl
    · cases hc
  constructor
  · intro h c _ h1
    cases hc h c h1
    constructor
    · intro p hp
      exact ⟨"a", inAdj_getOr.1 (mem_getOr.1 (by revert p; decide +kernel))⟩
    · intro p hp
      exact ⟨"var_0", inAdj_getOr.1 (mem_getOr.1 (by revert p; decide +kernel))⟩
  · intro h c _ h1
    cases hc h c h1
    decide +kernel

/-- Refutation: after its output variable was dropped, the function can no longer be dropped (cf.py line 410). -/
theorem C57_refuted_after_output : (runOps {} (buildF ++ [.dropVar "var_0"])).toOption.map check = some true ∧
    runOps {} (buildF ++ [.dropVar "var_0", .dropFunc "f"]) = .error .keyError := by decide +kernel

/-- Refutation: a call that uses a value twice, while another call uses the value as well (cf.py lines 412-416). -/
theorem C57_refuted_double_use : frameFG.check = true ∧ frameFG.dropFunc "g" = .error .keyError := by decide +kernel

end Verif.Props
