import Verif.Proofs.CFrameShow
import Verif.Props.FrameFilter
import Verif.Props.FrameTable
/-!
C81: the printed graph of a frame is its graph.
-/
namespace Verif.Props

open Verif CFrame Ex

/-- C81 (partial: every function has to have a call, and the outputs have to be outputs of the ops as they are now; see the refutations): a well-formed
frame can be printed, whatever order python goes through its sets in. Each function has exactly one line; the lines show exactly the edges of the frame;
the variables shown apart are those without edges; a function whose results are used by another (directly or not, and not the other way round) comes
first; and the outputs of a function come in the order of its results. -/
theorem C81_graph_partial {R : FCall → Prop} {f : CFrame} (H : Wf R f) {po : PyOrd} (hpo : po.Ok) {names : String → Option (List String)}
    (hnames : ∀ op ns, names op = some ns → ns.Nodup) (hE : f.NoEmptyFunc) (hO : f.Ordered names) :
    ∃ s, f.graphDesc po names = .ok s ∧ f.ShownAs names s :=
  graphDesc_ok hpo hnames H.graph hE (fun n h hh => H.call.calls h |>.2 ⟨n, hh⟩) hO

/-- C81: a frame with a function without calls cannot be printed at all, although it is well formed -/
theorem C81_refuted_empty {R : FCall → Prop} {f : CFrame} (H : Wf R f) {po : PyOrd} (hpo : po.Ok) (names : String → Option (List String)) {n : String}
    (hn : f.IsFunc n) (hno : ∀ h, ¬ f.HasCall n h) : f.graphDesc po names = .error .notImplemented :=
  graphDesc_empty hpo names H.graph (fun m h hh => H.call.calls h |>.2 ⟨m, hh⟩) hn hno

namespace Ex

theorem ordered_of {f : CFrame} (h : (f.out.all fun p => (Dict.keys p.2).all fun l => decide (p.1 ∉ f.fs.keys ∨ l = "output_0" ∨ l = "output_1")) = true) :
    f.Ordered fun _ => none := by
  intro n k c o l hc _ ho hl
  have := of_decide_eq_true (List.all_eq_true.1 (List.all_eq_true.1 h _ (Dict.mem_of_get? ho)) l hl)
  obtain ⟨s, hs, _⟩ := hc
  rcases this with h | h | h
  · exact absurd (Dict.mem_keys.2 ⟨s, hs⟩) h
  · exact ⟨0, "output", by decide, h⟩
  · exact ⟨1, "output", by decide, h⟩

theorem noEmpty_of {f : CFrame} (h : (f.fs.all fun p => decide (p.2 ≠ [])) = true) : f.NoEmptyFunc := by
  intro n hn
  obtain ⟨s, hs⟩ := Dict.mem_keys.1 hn
  have := of_decide_eq_true (List.all_eq_true.1 h _ (Dict.mem_of_get? hs))
  cases s with
  | nil => exact absurd rfl this
  | cons x s => exact ⟨x, _, hs, .head _⟩

/-- one function with two results, a function that uses both, and a variable without edges -/
def callsTwoOut : List FCall := [⟨"c1", "f", [("a", ref "x")], [("output_1", ref "z"), ("output_0", ref "y")]⟩,
  ⟨"c2", "g", [("p", ref "y"), ("q", ref "z")], [("output_0", ref "w")]⟩]
def buildTwoOut : List FOp := [.addFunc "g", .addFunc "f", .addVar "a", .addVar "y", .addVar "z", .addVar "t", .addVar "w", .addVar "b", .addEdge "a" "f" "a",
  .addEdge "f" "z" "output_1", .addEdge "f" "y" "output_0", .addEdge "y" "g" "p", .addEdge "z" "g" "q", .addEdge "g" "w" "output_0", .addEdge "b" "f" "a",
  .addRef "t" (ref "t")] ++ callsTwoOut.map fun c => .addCall c.op c
def frameTwoOut : CFrame := ((runOps {} buildTwoOut).toOption).getD {}
theorem recOkTwoOut : RecOk (· ∈ callsTwoOut) := recOk_of (by decide +kernel)
theorem wf_frameTwoOut : Wf (· ∈ callsTwoOut) frameTwoOut :=
  wf_builds recOkTwoOut wf_empty (builds_of (by decide +kernel : buildB callsTwoOut {} buildTwoOut = some frameTwoOut))

end Ex

/-- the hypotheses hold -/
example : Wf (· ∈ callsTwoOut) frameTwoOut ∧ frameTwoOut.NoEmptyFunc ∧ frameTwoOut.Ordered (fun _ => none) ∧ Wf (· ∈ recd4) frameFH ∧ frameFH.NoEmptyFunc ∧
    frameFH.Ordered (fun _ => none) ∧ po1.Ok ∧ po2.Ok :=
  ⟨wf_frameTwoOut, noEmpty_of (by decide +kernel), ordered_of (by decide +kernel), wf_frameFH, noEmpty_of (by decide +kernel), ordered_of (by decide +kernel),
    po1_ok, po2_ok⟩

example : (frameTwoOut.graphDesc po1 fun _ => none).toOption.map Shown.text = some "t\ny@output_0, z@output_1 = f(a=a | b)\nw@output_0 = g(p=y, q=z)" := by
  decide +kernel

example : (frameFH.graphDesc po1 fun _ => none).toOption.map Shown.text = some "v@output_0 = f(a=a)\no@output_0 = h(p=v, q=a)" := by
  decide +kernel

/-- C81: filtering (`isin`) leaves such frames: `h` has no call with the value `x`, and the result can be neither printed nor looked at (`repr`) -/
theorem C81_refuted_filtered : (frameFH.graphDesc po1 fun _ => none).toOption.isSome = true ∧
    ((frameFH.filterBy id (FilterEx.isOne ["x"])).bind fun g => (g.graphDesc po1 fun _ => none).map Shown.text) = .error .notImplemented := by decide +kernel

/-- C81: the storage keeps an op as it was at the first call. When the names of its outputs (`output_names`) were taken away later, or there are fewer of
them than outputs (the others are called `output_i`), a frame with the calls, well formed all the same, cannot be printed -/
theorem C81_refuted_names : (frameTwoOut.graphDesc po1 fun op => if op = "f" then some ["lo", "hi"] else none).map Shown.text = .error .keyError ∧
    (frameTwoOut.graphDesc po1 fun op => if op = "f" then some ["output_0"] else none).map Shown.text = .error .keyError := by decide +kernel

namespace Ex

def callsNamed : List FCall := [⟨"c1", "f", [("a", ref "x")], [("lo", ref "y"), ("hi", ref "z")]⟩]
def buildNamed : List FOp := [.addFunc "f", .addVar "a", .addVar "y", .addVar "z", .addEdge "a" "f" "a", .addEdge "f" "z" "hi", .addEdge "f" "y" "lo"] ++
  callsNamed.map fun c => .addCall c.op c
def frameNamed : CFrame := ((runOps {} buildNamed).toOption).getD {}
theorem recOkNamed : RecOk (· ∈ callsNamed) := recOk_of (by decide +kernel)
theorem wf_frameNamed : Wf (· ∈ callsNamed) frameNamed :=
  wf_builds recOkNamed wf_empty (builds_of (by decide +kernel : buildB callsNamed {} buildNamed = some frameNamed))

end Ex

/-- C81: nor can it be printed when the names were given after the first call (here the op is stored without names) -/
theorem C81_refuted_unnamed : Wf (· ∈ callsNamed) frameNamed ∧
    (frameNamed.graphDesc po1 fun _ => some ["lo", "hi"]).map Shown.text = .ok "y@lo, z@hi = f(a=a)" ∧
    (frameNamed.graphDesc po1 fun _ => none).map Shown.text = .error .indexError := ⟨wf_frameNamed, by decide +kernel, by decide +kernel⟩

end Verif.Props
