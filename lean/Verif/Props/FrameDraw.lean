import Verif.Proofs.CFrameDrawText
import Verif.Props.FrameShow
import Verif.Props.FrameReach
/-!
C90: the drawing of a frame shows the frame, and the dot program says what is drawn.
-/
namespace Verif.Props

open Verif CFrame Ex

/-- C90 (partial: every function has to have a call, see `C90_refuted_empty`): a well-formed frame can be drawn, whatever order python goes through its sets
in. There is exactly one box for each variable and each function, and one arrow for each edge. The box of a variable says how many values it has, and, when
`verbose`, how many of them no call of the frame is known to have made, and how many no call uses; the box of a function says its op, the number of its
calls and, when `verbose`, of their versions if there are several; an arrow has the name of the argument or result and, when `verbose`, the number of
values that the calls of the function took from there or put there. -/
theorem C90_draw_partial {R : FCall → Prop} {f : CFrame} (hR : RecOk R) (H : Wf R f) (L : LabelsOk f) {po : PyOrd} (hpo : po.Ok) (ver : String → String)
    (verbose : Bool) (hE : f.NoEmptyFunc) : ∃ op, GoesBy f op ∧ ∃ d, f.draw po ver verbose = .ok d ∧ DrawnAs ver verbose op f d :=
  ⟨firstOp po f, goesBy_first H hpo hE, draw_ok hR H L hpo ver verbose hE⟩

/-- C90: the numbers are those of the frame and of nothing else: `Numbers` determines them -/
theorem C90_numbers {P : String → Prop} {k m : Nat} (h1 : Numbers P k) (h2 : Numbers P m) : k = m := numbers_unique h1 h2

/-- C90 (partial: the names have to be plain, see `C90_refuted_names`): the dot program, read as such, has exactly the boxes that are drawn, each with its
name and its lines, and exactly the arrows, each with its label. -/
theorem C90_dot_partial {R : FCall → Prop} {f : CFrame} (hR : RecOk R) (H : Wf R f) (L : LabelsOk f) {po : PyOrd} (hpo : po.Ok) (ver : String → String)
    (verbose : Bool) (hE : f.NoEmptyFunc) (hP : PlainNames f) {rankdir : String} (hr : '\n' ∉ rankdir.toList) {d : Drawing}
    (hd : f.draw po ver verbose = .ok d) :
    dotRead (d.text rankdir).toList = d.nodes.map (fun b => .node b.name.toList (b.name.toList :: b.lines.map (·.toList))) ++
      d.edges.map fun e => .edge e.src.toList e.dst.toList e.label.toList := by
  obtain ⟨d', h1, h2⟩ := draw_ok hR H L hpo ver verbose hE
  rw [hd] at h1
  cases h1
  exact text_read hr (clean_nodes h2 (goesBy_first H hpo hE) hP) (clean_edges H.graph h2 hP)

/-- C90: the edges of the frame can be read off the dot program -/
theorem C90_dot_edges_partial {R : FCall → Prop} {f : CFrame} (hR : RecOk R) (H : Wf R f) (L : LabelsOk f) {po : PyOrd} (hpo : po.Ok) (ver : String → String)
    (verbose : Bool) (hE : f.NoEmptyFunc) (hP : PlainNames f) {rankdir : String} (hr : '\n' ∉ rankdir.toList) {d : Drawing}
    (hd : f.draw po ver verbose = .ok d) (a b : String) :
    (∃ l, DotStmt.edge a.toList b.toList l ∈ dotRead (d.text rankdir).toList) ↔ ∃ l, f.HasEdge a b l := by
  rw [C90_dot_partial hR H L hpo ver verbose hE hP hr hd]
  obtain ⟨d', h1, h2⟩ := draw_ok hR H L hpo ver verbose hE
  rw [hd] at h1
  cases h1
  obtain ⟨es, nd, h3, h4⟩ := h2.edges
  clear nd
  constructor
  · rintro ⟨l, h⟩
    rcases List.mem_append.1 h with h | h
    · obtain ⟨x, _, h⟩ := List.mem_map.1 h
      cases h
    · obtain ⟨x, hx, h⟩ := List.mem_map.1 h
      obtain ⟨e, he, e1, e2, _⟩ := forall₂_mem_right h4 hx
      injection h with ha hb _
      rw [← String.toList_inj.1 ha, ← String.toList_inj.1 hb, e1, e2]
      exact ⟨_, (h3 e).1 he⟩
  · rintro ⟨l, h⟩
    have he : (a, b, l) ∈ es := (h3 (a, b, l)).2 h
    clear h3 hd h2
    generalize d.nodes.map (fun b => DotStmt.node b.name.toList (b.name.toList :: b.lines.map (·.toList))) = ns
    generalize d.edges = xs at h4
    induction h4 with
    | nil => exact nomatch he
    | @cons e x es xs h1 _ ih =>
      rcases List.mem_cons.1 he with rfl | he
      · exact ⟨x.label.toList, by simp [h1.1, h1.2.1]⟩
      · obtain ⟨l', h'⟩ := ih he
        refine ⟨l', ?_⟩
        rcases List.mem_append.1 h' with h' | h'
        · exact List.mem_append.2 (.inl h')
        · exact List.mem_append.2 (.inr (by rw [List.map_cons]; exact List.mem_cons_of_mem _ h'))

/-- C90: a frame with a function without calls (as filtering leaves it) cannot be drawn at all -/
theorem C90_refuted_empty {f : CFrame} {po : PyOrd} (hpo : po.Ok) (ver : String → String) (verbose : Bool) {n : String} (hn : f.IsFunc n)
    (hno : ∀ h, ¬ f.HasCall n h) (d : Drawing) : f.draw po ver verbose ≠ .ok d := draw_empty hpo ver verbose hn hno d

namespace Ex

instance (s : String) : Decidable (PlainName s) := inferInstanceAs (Decidable (s ≠ "" ∧ ∀ c ∈ s.toList, c ∉ ['"', '\\', '\n', '<', '>', '&']))

theorem plainNames_of {f : CFrame} (h : ((f.vs.keys ++ f.fs.keys).all (fun n => decide (PlainName n)) && f.edges.all (fun e => decide (PlainName e.2.2)) &&
    f.calls.all fun p => decide (PlainName p.2.op)) = true) : PlainNames f := by
  simp only [Bool.and_eq_true, List.all_eq_true, decide_eq_true_eq] at h
  exact ⟨fun n hn => h.1.1 n (List.mem_append.2 hn), fun s d l he => h.1.2 _ (mem_edges.2 he), fun k c hc => h.2 _ (Dict.mem_of_get? hc)⟩

/-- a list of two values made with `__make_list__` by the frame, of which one was made by `f` twice over -/
def callsDraw : List FCall := [⟨"c1", "f", [("a", ref "x")], [("output_0", ref "y")]⟩, ⟨"c2", "f", [("a", ref "w")], [("output_0", ref "z")]⟩,
  ⟨"c3", "__make_list__", [("elts_0", ref "y"), ("elts_1", ref "z")], [("list", ref "l")]⟩]
def buildDraw : List FOp := [.addFunc "f", .addFunc "mk", .addVar "a", .addVar "v", .addVar "s", .addEdge "a" "f" "a", .addEdge "f" "v" "output_0",
  .addEdge "v" "mk" "elts", .addEdge "mk" "s" "list", .addRef "v" (ref "u")] ++ [.addCall "f" callsDraw[0], .addCall "f" callsDraw[1], .addCall "mk" callsDraw[2]]
def frameDraw : CFrame := ((runOps {} buildDraw).toOption).getD {}
theorem recOkDraw : RecOk (· ∈ callsDraw) := recOk_of (by decide +kernel)
theorem wf_frameDraw : Wf (· ∈ callsDraw) frameDraw :=
  wf_builds recOkDraw wf_empty (builds_of (by decide +kernel : buildB callsDraw {} buildDraw = some frameDraw))

theorem labelsOk_edges {f : CFrame} (h : (f.edges.all fun e => decide (isElt e.2.2 = false)) = true) : LabelsOk f :=
  fun s n l _ _ he _ _ _ => of_decide_eq_true (List.all_eq_true.1 h (s, n, l) (mem_edges.2 he))

/-- variables with names that dot reads otherwise -/
def frameQuotes : CFrame := ((runOps {} [.addVar "a\"b", .addVar "p<q", .addVar "ok", .addRef "ok" (ref "x")]).toOption).getD {}

end Ex

/-- the hypotheses hold -/
example : RecOk (· ∈ callsDraw) ∧ Wf (· ∈ callsDraw) frameDraw ∧ LabelsOk frameDraw ∧ frameDraw.NoEmptyFunc ∧ PlainNames frameDraw ∧
    RecOk (· ∈ recd4) ∧ Wf (· ∈ recd4) frameFH ∧ LabelsOk frameFH ∧ frameFH.NoEmptyFunc ∧ PlainNames frameFH ∧ po1.Ok ∧ po2.Ok ∧ '\n' ∉ "LR".toList :=
  ⟨recOkDraw, wf_frameDraw, labelsOk_edges (by decide +kernel), noEmpty_of (by decide +kernel), plainNames_of (by decide +kernel), recOk4, wf_frameFH,
    labelsOk_of (by decide +kernel), noEmpty_of (by decide +kernel), plainNames_of (by decide +kernel), po1_ok, po2_ok, by decide⟩

/-- two versions of `f`, a value in `v` that no call made, one that no call uses, and the elements of a list -/
example : (frameDraw.draw po1 (fun h => h) true).toOption = some ⟨
    [⟨"a", false, ["2 values (2 sources)"]⟩, ⟨"v", false, ["3 values (1 sources/1 sinks)"]⟩, ⟨"s", false, ["1 values (1 sinks)"]⟩,
     ⟨"f", true, ["@op:f (2 versions)", "2 calls"]⟩, ⟨"mk", true, ["@op:__make_list__", "1 calls"]⟩],
    [⟨"f", "v", "output_0\\n(2 values)"⟩, ⟨"mk", "s", "list\\n(1 values)"⟩, ⟨"a", "f", "a\\n(2 values)"⟩, ⟨"v", "mk", "*elts\\n(2 values)"⟩]⟩ := by
  decide +kernel

example : (frameFH.draw po1 (fun _ => "v") false).toOption = some ⟨
    [⟨"a", false, ["2 values"]⟩, ⟨"v", false, ["2 values"]⟩, ⟨"o", false, ["1 values"]⟩, ⟨"f", true, ["@op:f", "2 calls"]⟩, ⟨"h", true, ["@op:h", "1 calls"]⟩],
    [⟨"f", "v", "output_0"⟩, ⟨"a", "f", "a"⟩, ⟨"a", "h", "q"⟩, ⟨"v", "h", "p"⟩, ⟨"h", "o", "output_0"⟩]⟩ := by decide +kernel

/-- C90: filtering leaves functions without calls: `h` has no call with the value `x` -/
theorem C90_refuted_filtered : (frameFH.draw po1 (fun _ => "v") false).toOption.isSome = true ∧
    ((frameFH.filterBy id (FilterEx.isOne ["x"])).bind fun g => g.draw po1 (fun _ => "v") false) = .error .indexError := by decide +kernel

/-- C90: names go into the dot program as they are, so that a box can be missing from it (dot rejects the program, or reads other names) -/
theorem C90_refuted_names : ((frameQuotes.draw po1 (fun _ => "v") false).map fun d => d.nodes.map fun b => (b.name, dotStmt b.text.toList)) =
    .ok [("a\"b", none), ("p<q", some (.node "p<q".toList ["p".toList, "0 values".toList])), ("ok", some (.node "ok".toList ["ok".toList, "1 values".toList]))] := by
  decide +kernel

/-- C90: `draw(path=...)` writes svg, whatever the path says, and cuts the path at a space -/
theorem C90_refuted_path (tmp : String) : dotCommand "frame.png" tmp = "dot -T svg -o frame.png " ++ tmp ∧
    dotCommand "my frame.svg" tmp = "dot -T svg -o my frame.svg " ++ tmp := ⟨rfl, rfl⟩

end Verif.Props

