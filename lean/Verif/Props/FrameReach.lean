import Verif.Proofs.CFrameReachFix
import Verif.Props.Frame
/-!
C43: `get_reachable_elts` computes the least closed set of elements.
-/
namespace Verif.Props

open Verif CFrame Ex

/-- C43: for every well-formed frame, start, direction and mode the search ends without an error; the result contains the start,
is closed (see `ReachClosed`), is contained in every closed set that contains the start, and lists every node. -/
theorem C43_least_closed {R : FCall → Prop} (hR : RecOk R) {f : CFrame} (H : Wf R f) (L : LabelsOk f) (dir : Side) (how : How)
    {init : SetDict} (hi : Inside f init) :
    ∃ r, f.reachableElts init dir how = .ok r ∧ ReachClosed f dir how init (InSet r) ∧
      (∀ P, ReachClosed f dir how init P → ∀ n x, InSet r n x → P n x) ∧ ∀ k, k ∈ r.keys ↔ (f.IsVar k ∨ f.IsFunc k) ∨ k ∈ init.keys := by
  obtain ⟨r, h1, _, h3, h4, h5⟩ := reachableElts_spec hR H L dir how hi
  exact ⟨r, h1, h3, h4, fun k => (h5 k).trans (or_congr mem_nodes Iff.rfl)⟩

/-- What is closed under reaching calls from any value is closed under reaching calls from all their values. -/
theorem strong_of_weak {R : FCall → Prop} {f : CFrame} (H : Wf R f) {dir : Side} {init : SetDict} {P : String → String → Prop}
    (C : ReachClosed f dir .weak init P) : ReachClosed f dir .strong init P := by
  refine ⟨C.start, C.values, nofun, ?_⟩
  intro _ n c hn hc ⟨⟨p, hp, w, hw⟩, hall⟩
  obtain ⟨v, hj, hv⟩ := hall p hp ⟨w, hw⟩
  refine C.weak rfl v p.2.hid n c.hid hv ⟨_, hj, ?_⟩ hn.key
  cases dir with
  | forward =>
    refine .inl ⟨?_, hn, c, hc, p, hp, rfl, rfl⟩
    rcases H.graph.bip _ _ _ hj with h | h
    · exact h.1
    · exact absurd hn.key (H.graph.disj n h.2)
  | back =>
    refine .inl ⟨?_, hn, (H.outs n c p v hp ⟨hn, hc, hj⟩).2⟩
    rcases H.graph.bip _ _ _ hj with h | h
    · exact absurd hn.key (H.graph.disj n h.1)
    · exact h.2

/-- C43: what is strongly reachable is weakly reachable. -/
theorem C43_strong_within_weak {R : FCall → Prop} (hR : RecOk R) {f : CFrame} (H : Wf R f) (L : LabelsOk f) (dir : Side)
    {init : SetDict} (hi : Inside f init) {r s : SetDict} (hs : f.reachableElts init dir .strong = .ok s)
    (hw : f.reachableElts init dir .weak = .ok r) (n x : String) (hx : InSet s n x) : InSet r n x := by
  obtain ⟨r', h1, h2, _⟩ := C43_least_closed hR H L dir .weak hi
  obtain ⟨s', h3, _, h4, _⟩ := C43_least_closed hR H L dir .strong hi
  rw [hs] at h3; rw [hw] at h1
  cases h1; cases h3
  exact h4 _ (strong_of_weak H h2) n x hx

/-- The frames have the same nodes, elements, edges, calls and creators, listed in whatever order. -/
structure SameContent (f g : CFrame) : Prop where
  isVar : ∀ v, f.IsVar v ↔ g.IsVar v
  isFunc : ∀ n, f.IsFunc n ↔ g.IsFunc n
  hasRef : ∀ v h, f.HasRef v h ↔ g.HasRef v h
  hasCall : ∀ n h, f.HasCall n h ↔ g.HasCall n h
  hasEdge : ∀ s d l, f.HasEdge s d l ↔ g.HasEdge s d l
  calls : ∀ h, f.calls.get? h = g.calls.get? h
  creator : ∀ h, f.creator.get? h = g.creator.get? h

theorem SameContent.joined {f g : CFrame} (S : SameContent f g) {dir : Side} {v n l : String} : Joined f dir v n l ↔ Joined g dir v n l := by
  cases dir <;> exact S.hasEdge _ _ _

theorem SameContent.leadsTo {f g : CFrame} (S : SameContent f g) {dir : Side} {l a x b y : String} :
    LeadsTo f dir l a x b y ↔ LeadsTo g dir l a x b y := by
  cases dir <;> simp only [LeadsTo, S.isVar, S.isFunc, S.hasRef, S.hasCall, S.calls, S.creator]

theorem SameContent.linked {f g : CFrame} (S : SameContent f g) {dir : Side} {a x b y : String} : Linked f dir a x b y ↔ Linked g dir a x b y := by
  simp only [Linked, S.joined, S.leadsTo]

theorem SameContent.reachClosed {f g : CFrame} (S : SameContent f g) {dir : Side} {how : How} {i j : SetDict} (hij : ∀ n x, InSet i n x ↔ InSet j n x)
    {P : String → String → Prop} : ReachClosed f dir how i P ↔ ReachClosed g dir how j P := by
  constructor
  · intro C
    refine ⟨fun n x h => C.start n x ((hij n x).2 h), fun a x v y hp hl hv => C.values a x v y hp (S.linked.2 hl) ((S.isVar v).2 hv),
      fun hw a x n y hp hl hn => C.weak hw a x n y hp (S.linked.2 hl) ((S.isFunc n).2 hn), fun hs n c hn hc hr => ?_⟩
    refine C.strong hs n c ((S.hasCall _ _).2 hn) ((S.calls _).trans hc) ?_
    simp only [CallReady, S.joined]
    exact hr
  · intro C
    refine ⟨fun n x h => C.start n x ((hij n x).1 h), fun a x v y hp hl hv => C.values a x v y hp (S.linked.1 hl) ((S.isVar v).1 hv),
      fun hw a x n y hp hl hn => C.weak hw a x n y hp (S.linked.1 hl) ((S.isFunc n).1 hn), fun hs n c hn hc hr => ?_⟩
    refine C.strong hs n c ((S.hasCall _ _).1 hn) ((S.calls _).symm.trans hc) ?_
    simp only [CallReady, S.joined] at hr
    exact hr

/-- C43: the result does not depend on the order in which nodes, elements, edges or the start are listed. -/
theorem C43_order_independent {R : FCall → Prop} (hR : RecOk R) {f g : CFrame} (Hf : Wf R f) (Hg : Wf R g) (Lf : LabelsOk f) (Lg : LabelsOk g)
    (S : SameContent f g) (dir : Side) (how : How) {i j : SetDict} (hi : Inside f i) (hj : Inside g j) (hij : ∀ n x, InSet i n x ↔ InSet j n x)
    {r s : SetDict} (hr : f.reachableElts i dir how = .ok r) (hs : g.reachableElts j dir how = .ok s) (n x : String) :
    InSet r n x ↔ InSet s n x := by
  obtain ⟨r', h1, h2, h3, _⟩ := C43_least_closed hR Hf Lf dir how hi
  obtain ⟨s', g1, g2, g3, _⟩ := C43_least_closed hR Hg Lg dir how hj
  rw [hr] at h1; rw [hs] at g1
  cases h1; cases g1
  exact ⟨h3 _ ((S.reachClosed hij).2 g2) n x, g3 _ ((S.reachClosed hij).1 h2) n x⟩

/-- C43: starting from more reaches more; starting from what was reached reaches nothing new. -/
theorem C43_monotone_idempotent {R : FCall → Prop} (hR : RecOk R) {f : CFrame} (H : Wf R f) (L : LabelsOk f) (dir : Side) (how : How)
    {i j : SetDict} (hi : Inside f i) (hj : Inside f j) (hij : ∀ n x, InSet i n x → InSet j n x) {r s : SetDict}
    (hr : f.reachableElts i dir how = .ok r) (hs : f.reachableElts j dir how = .ok s) :
    (∀ n x, InSet r n x → InSet s n x) ∧ ∃ t, f.reachableElts r dir how = .ok t ∧ ∀ n x, InSet t n x ↔ InSet r n x := by
  obtain ⟨r', h1, hin, h2, h3, _⟩ := reachableElts_spec hR H L dir how hi
  obtain ⟨s', g1, g2, g3, _⟩ := C43_least_closed hR H L dir how hj
  rw [hr] at h1; rw [hs] at g1
  cases h1; cases g1
  refine ⟨h3 _ ⟨fun n x h => g2.start n x (hij n x h), g2.values, g2.weak, g2.strong⟩, ?_⟩
  obtain ⟨t, t1, t2, t3, _⟩ := C43_least_closed hR H L dir how hin
  exact ⟨t, t1, fun n x => ⟨t3 _ ⟨fun _ _ h => h, h2.values, h2.weak, h2.strong⟩ n x, t2.start n x⟩⟩

theorem labelsOk_of {f : CFrame} (h : (f.calls.all fun p => decide (p.2.op ≠ makeListName)) = true) : LabelsOk f := by
  intro s n l h' c _ _ hc hop
  exact absurd hop (of_decide_eq_true (List.all_eq_true.1 h _ (Dict.mem_of_get? hc)))

theorem inside_of {f : CFrame} {r : SetDict} (h : (r.all fun p => p.2.all fun x => decide (x ∈ getOr f.vs p.1 ∨ x ∈ getOr f.fs p.1)) = true) :
    Inside f r := by
  intro n x hx
  obtain ⟨s, hs, hx⟩ := hx
  have := of_decide_eq_true (List.all_eq_true.1 (List.all_eq_true.1 h _ (Dict.mem_of_get? hs)) x hx)
  rw [mem_getOr, mem_getOr] at this
  exact this

namespace Ex

/-- `y = f(x)`, `y2 = f(x2)`, `w = h(y, x2)` -/
def w : FRef := ⟨"w", "cw"⟩
def c4 : FCall := ⟨"c4", "h", [("p", y), ("q", x2)], [("output_0", w)]⟩
def recd4 : List FCall := [c1, c2, c4]
def buildFH : List FOp := [.addFunc "f", .addVar "a", .addEdge "a" "f" "a", .addVar "v", .addEdge "f" "v" "output_0",
  .addFunc "h", .addEdge "v" "h" "p", .addEdge "a" "h" "q", .addVar "o", .addEdge "h" "o" "output_0", .addCall "f" c1, .addCall "f" c2, .addCall "h" c4]
def frameFH : CFrame := ((runOps {} buildFH).toOption).getD {}
theorem recOk4 : RecOk (· ∈ recd4) := recOk_of (by decide +kernel)
theorem wf_frameFH : Wf (· ∈ recd4) frameFH := wf_builds recOk4 wf_empty (builds_of (by decide +kernel : buildB recd4 {} buildFH = some frameFH))

end Ex

example : Wf (· ∈ recd4) frameFH ∧ LabelsOk frameFH ∧ Inside frameFH [("a", ["x"])] :=
  ⟨wf_frameFH, labelsOk_of (by decide +kernel), inside_of (by decide +kernel)⟩

/-- From `x` alone: `h(y, x2)` is reached weakly, but not strongly because `x2` is missing. -/
example : frameFH.reachableElts [("a", ["x"])] .forward .strong =
    .ok [("a", ["x"]), ("v", ["y"]), ("o", []), ("f", ["c1"]), ("h", [])] := by decide +kernel
example : frameFH.reachableElts [("a", ["x"])] .forward .weak =
    .ok [("a", ["x"]), ("v", ["y"]), ("o", ["w"]), ("f", ["c1"]), ("h", ["c4"])] := by decide +kernel
/-- From `w` back: all of it but `f(x2)`. -/
example : frameFH.reachableElts [("o", ["w"])] .back .strong =
    .ok [("o", ["w"]), ("a", ["x", "x2"]), ("v", ["y"]), ("f", ["c1"]), ("h", ["c4"])] := by decide +kernel

end Verif.Props
