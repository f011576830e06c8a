import Verif.Proofs.CFrameFilter
import Verif.Props.FrameReach
/-!
C75: filtering a frame by values (`isin`, `<`) keeps the matching values and the calls connected to them.
-/
namespace Verif.Props

open Verif CFrame Ex

/-- C75 (partial: completeness needs that variables and functions are joined by one edge at most, success that every function has an edge; see the
refutations): filtering a well-formed frame by a test that can be made for all its values succeeds whatever order python goes through the edges. The
graph stays; each variable has exactly its matching values; every call that is kept is a call of its function with a matching value among its inputs or
outputs; and every call that has a matching value as an input or output is kept. The result is consistent exactly if all tracked inputs and outputs of
the kept calls match. -/
theorem C75_filter_partial {R : FCall → Prop} (hR : RecOk R) {f : CFrame} (H : Wf R f) (L : LabelsOk f) {test : FRef → Except Err Bool} (T : Testable f test)
    (N : NoLoneFunction f) {eord : List Edge → List Edge} (hord : ∀ l e, e ∈ eord l ↔ e ∈ l) :
    ∃ g, f.filterBy eord test = .ok g ∧ (∀ v, g.IsVar v ↔ f.IsVar v) ∧ (∀ n, g.IsFunc n ↔ f.IsFunc n) ∧
      (∀ s d l, g.HasEdge s d l ↔ f.HasEdge s d l) ∧ (∀ v x, g.HasRef v x ↔ Matches f test v x) ∧
      (∀ n h, g.HasCall n h → ∃ v x, Matches f test v x ∧ Meets f v x n h) ∧
      (SingleEdges f → ∀ v x n h, Matches f test v x → UsedAt f v x n h → g.HasCall n h) ∧
      (g.check = true ↔ ∀ n c p v, g.HasCall n c.hid → (p ∈ c.inputs ∧ Tracks f.inp f n c p v) ∨ (p ∈ c.outputs ∧ Tracks f.out f n c p v) →
        Matches f test v p.2.hid) := by
  obtain ⟨view, h1, h2, h3⟩ := view_spec H T
  obtain ⟨d, a1, a2, a3, a4, a5, a6⟩ := addAdjCalls_spec hord hR H L view.keys (fun v hv => (h2 v).1 hv) view (fun v x _ h => ((h3 v x).1 h).1)
  have hnv : ∀ n x, f.IsFunc n → ¬ InSet view n x := fun n x hn h => H.graph.disj n ((h2 n).1 h.key) hn
  have hcalls : ∀ n h, f.IsFunc n → InSet d n h → ∃ v x, Matches f test v x ∧ Meets f v x n h := by
    intro n h hn hh
    rcases a5 n h hh with hh | ⟨v, hv, x, hx, hl⟩
    · exact absurd hh (hnv n h hn)
    · exact ⟨v, x, (h3 v x).1 hx, linked_meets H ((h2 v).1 hv) hl⟩
  obtain ⟨g, hg, g1, g2, g3, g4, g5, g6⟩ := C41_select_subsets_partial H (elts := d)
    (by
      intro n
      rw [a2, h2]
      constructor
      · rintro (h | ⟨v, hv, hb⟩)
        · exact .inl h
        · exact .inr (beside_func H.graph ((h2 v).1 hv) hb)
      · rintro (h | h)
        · exact .inl h
        · obtain ⟨v, l, he⟩ := N n h
          refine .inr ⟨v, (h2 v).2 ?_, l, he⟩
          rcases he with he | he
          · rcases H.graph.bip _ _ _ he with he | he
            · exact he.1
            · exact absurd h (H.graph.disj n he.2)
          · rcases H.graph.bip _ _ _ he with he | he
            · exact absurd h (H.graph.disj n he.1)
            · exact he.2)
    (fun v x hv hx => ((h3 v x).1 ((a3 v x hv).1 hx)).1)
    (fun n h hn hh => by
      obtain ⟨_, _, _, hm⟩ := hcalls n h hn hh
      exact hm.1)
  have hrefs : ∀ v x, f.IsVar v → (InSet d v x ↔ Matches f test v x) := fun v x hv => (a3 v x hv).trans (h3 v x)
  refine ⟨g, ?_, g1, g2, g3, ?_, ?_, ?_, ?_⟩
  · have hfull : f.addAdjCalls eord view = .ok d := a1
    unfold filterBy
    rw [h1]
    change (f.addAdjCalls eord view >>= _) = _
    rw [hfull]
    exact hg
  · intro v x
    rw [g4]
    constructor
    · rintro ⟨hv, h⟩; exact (hrefs v x hv).1 h
    · intro h; exact ⟨h.1.key, (hrefs v x h.1.key).2 h⟩
  · intro n h hh
    obtain ⟨hn, hh⟩ := (g5 n h).1 hh
    exact hcalls n h hn hh
  · intro hs v x n h hm ht
    have hv : f.IsVar v := hm.1.key
    exact (g5 n h).2 ⟨ht.1.key, a6 hs v ((h2 v).2 hv) x n h ((h3 v x).2 hm) (usedAt_linked H hv ht)⟩
  · rw [g6]
    constructor
    · intro hc n c p v hh hp
      have hd := hc n c p v ((g5 n c.hid).1 hh).2 hp
      refine (hrefs v _ ?_).1 hd
      rcases hp with ⟨_, _, _, ht⟩ | ⟨_, _, _, ht⟩
      · rcases H.graph.bip _ _ _ ((H.graph.sym _ _ _).2 ht) with he | he
        · exact he.1
        · exact absurd ((g5 n c.hid).1 hh).1 (H.graph.disj n he.2)
      · rcases H.graph.bip _ _ _ ht with he | he
        · exact absurd ((g5 n c.hid).1 hh).1 (H.graph.disj n he.1)
        · exact he.2
    · intro hc n c p v hh hp
      have hm := hc n c p v ((g5 n c.hid).2 ⟨by
        rcases hp with ⟨_, ht, _⟩ | ⟨_, ht, _⟩ <;> exact ht.key, hh⟩) hp
      exact (hrefs v _ hm.1.key).2 hm

/-- C75: the other way round, filtering fails if some function has no edge (with an assertion error, unless a test fails before). -/
theorem C75_lone_function {R : FCall → Prop} (hR : RecOk R) {f : CFrame} (H : Wf R f) (L : LabelsOk f) {test : FRef → Except Err Bool} (T : Testable f test)
    {eord : List Edge → List Edge} (hord : ∀ l e, e ∈ eord l ↔ e ∈ l) {n : String} (hn : f.IsFunc n) (hl : ∀ v l, ¬ f.HasEdge v n l ∧ ¬ f.HasEdge n v l) :
    f.filterBy eord test = .error .assertionError := by
  obtain ⟨view, h1, h2, h3⟩ := view_spec H T
  obtain ⟨d, a1, a2, _⟩ := addAdjCalls_spec hord hR H L view.keys (fun v hv => (h2 v).1 hv) view (fun v x _ h => ((h3 v x).1 h).1)
  have hk : ¬ n ∈ d.keys := by
    rw [a2, h2]
    rintro (h | ⟨v, _, l, h | h⟩)
    · exact H.graph.disj n h hn
    · exact (hl v l).1 h
    · exact (hl v l).2 h
  have hs : setEqB d.keys f.nodes = false := by
    cases h : setEqB d.keys f.nodes with
    | false => rfl
    | true => exact absurd ((setEqB_iff.1 h n).2 (mem_nodes.2 (.inr hn))) hk
  have hfull : f.addAdjCalls eord view = .ok d := a1
  unfold filterBy
  rw [h1]
  change (f.addAdjCalls eord view >>= _) = _
  rw [hfull]
  change f.selectSubsets d = _
  unfold selectSubsets
  rw [hs]
  rfl

/-- C75: no value is judged silently: if filtering succeeds, the test could be made for all values of the frame. -/
theorem C75_all_tested {f g : CFrame} {test : FRef → Except Err Bool} {eord : List Edge → List Edge} (h : f.filterBy eord test = .ok g) :
    ∀ v x, f.HasRef v x → ∃ r b, f.refs.get? x = some r ∧ test r = .ok b := by
  intro v x hx
  unfold filterBy at h
  obtain ⟨view, hv, _⟩ := exBind_ok.1 h
  have hall : ∀ (ks : List String) (view : SetDict), (ks.mapM fun v => do
      let hs ← f.matching test (getOr f.vs v)
      .ok (v, hs)) = (.ok view : Except Err SetDict) → ∀ v ∈ ks, ∃ hs, f.matching test (getOr f.vs v) = .ok hs := by
    intro ks
    induction ks with
    | nil => simp
    | cons k ks ih =>
      intro view hv w hw
      rw [List.mapM_cons] at hv
      obtain ⟨b, hb, hv⟩ := exBind_ok.1 hv
      obtain ⟨hs, hm, _⟩ := exBind_ok.1 hb
      obtain ⟨rest, hr, _⟩ := exBind_ok.1 hv
      rcases List.mem_cons.1 hw with rfl | hw
      · exact ⟨hs, hm⟩
      · exact ih rest hr w hw
  obtain ⟨hs, hm⟩ := hall _ view hv v (PySet.mem_ofList.2 hx.key)
  exact matching_error hm x (mem_getOr.2 hx)

/-- C75: `isin` for function nodes is not implemented; with an unknown `by` it fails for every frame with nodes. -/
theorem C75_isin_arguments (f : CFrame) (test : FRef → Except Err Bool) (eord : List Edge → List Edge) (by_ : IsinBy) :
    f.isin eord test by_ false = .error .notImplemented ∧
    (f.nodes ≠ [] → f.isin eord test .other true = .error .assertionError) := by
  refine ⟨rfl, fun h => ?_⟩
  have hs : setEqB ([] : List String) f.nodes = false := by
    cases h' : setEqB [] f.nodes with
    | false => rfl
    | true =>
      cases hn : f.nodes with
      | nil => exact absurd hn h
      | cons n ns => exact absurd ((setEqB_iff.1 h' n).2 (by simp [hn])) (by simp)
  change f.selectSubsets [] = _
  unfold selectSubsets
  rw [show Dict.keys ([] : SetDict) = [] from rfl, hs]
  rfl

namespace FilterEx

def isOne (l : List String) : FRef → Except Err Bool := fun r => .ok (decide (r.hid ∈ l))

theorem single_of {f : CFrame} (h : (f.edges.all fun e => f.edges.all fun e' =>
    decide (e.1 = e'.1 ∧ e.2.1 = e'.2.1 → e.2.2 = e'.2.2) && decide (¬ (e.1 = e'.2.1 ∧ e.2.1 = e'.1))) = true) : SingleEdges f := by
  simp only [List.all_eq_true, Bool.and_eq_true, decide_eq_true_eq] at h
  intro v n l l'
  exact ⟨fun a b => (h _ (mem_edges.2 a) _ (mem_edges.2 b)).1 ⟨rfl, rfl⟩, fun a b => (h _ (mem_edges.2 a) _ (mem_edges.2 b)).2 ⟨rfl, rfl⟩⟩

theorem noLone_of {f : CFrame} (h : (f.fs.keys.all fun n => f.edges.any fun e => decide (e.1 = n ∨ e.2.1 = n)) = true) : NoLoneFunction f := by
  intro n hn
  obtain ⟨e, he, h'⟩ := List.any_eq_true.1 (List.all_eq_true.1 h n hn)
  rw [decide_eq_true_eq] at h'
  have he' := mem_edges'.1 he
  rcases h' with rfl | rfl
  · exact ⟨_, _, .inr he'⟩
  · exact ⟨_, _, .inl he'⟩

/-- `y = f(x)`, `y2 = f(x2)`, `w = h(y, x2)` filtered by `x`: all hypotheses hold; `f(x)` stays, the other two calls go. -/
example : Wf (· ∈ recd4) frameFH ∧ LabelsOk frameFH ∧ Testable frameFH (isOne ["x"]) ∧ NoLoneFunction frameFH ∧ SingleEdges frameFH :=
  ⟨wf_frameFH, labelsOk_of (by decide +kernel), fun _ _ _ _ _ => ⟨_, rfl⟩, noLone_of (by decide +kernel), single_of (by decide +kernel)⟩
example : (frameFH.filterBy id (isOne ["x"])).toOption.map (fun g => (g.vs, g.fs)) =
    some ([("a", ["x"]), ("v", []), ("o", [])], [("f", ["c1"]), ("h", [])]) := by decide +kernel
/-- by `x2` and `y`: two inputs of the call of `h`, its output is not kept -/
example : (frameFH.filterBy id (isOne ["x2", "y"])).toOption.map (fun g => (g.vs, g.fs)) =
    some ([("a", ["x2"]), ("v", ["y"]), ("o", [])], [("f", ["c2", "c1"]), ("h", ["c4"])]) := by decide +kernel

/-- `k(x, x2)`, with both arguments in the same variable -/
def k1 : FCall := ⟨"k1", "k", [("p", x), ("q", x2)], [("output_0", y)]⟩
def recdK : List FCall := [k1]
def frameK : CFrame := ((runOps {} [.addFunc "k", .addVar "a", .addEdge "a" "k" "p", .addEdge "a" "k" "q", .addVar "o", .addEdge "k" "o" "output_0",
  .addCall "k" k1]).toOption).getD {}

/-- a function alone -/
def frameL : CFrame := ((runOps {} [.addFunc "k", .addVar "a", .addRef "a" x]).toOption).getD {}

end FilterEx

open FilterEx

/-- A variable with two edges to the function: the call `k(x, x2)` has the matching value `x`, but only the edge that is visited last counts. It
is lost in one order of the edges and kept in the other. -/
theorem C75_refuted_two_edges :
    frameK.check = true ∧
    (frameK.filterBy id (isOne ["x"])).toOption.map (fun g => (getOr g.vs "a", getOr g.fs "k")) = some (["x"], []) ∧
    (frameK.filterBy List.reverse (isOne ["x"])).toOption.map (fun g => (getOr g.vs "a", getOr g.fs "k")) = some (["x"], ["k1"]) := by decide +kernel

/-- Filtering a frame with a function without edges fails. -/
theorem C75_refuted_lone_function : frameL.check = true ∧ (frameL.filterBy id (isOne ["x"])).toOption.isNone = true := by decide +kernel

/-- The result need not be consistent: `f(x)` is kept because of `x`, its output is not. -/
theorem C75_refuted_consistent : (frameFH.filterBy id (isOne ["x"])).toOption.map check = some false := by decide +kernel

end Verif.Props
