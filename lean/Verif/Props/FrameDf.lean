import Verif.Proofs.CFrameDf
import Verif.Props.FrameTable
/-!
C68, C69: the part of a frame between nodes, and the table of a frame.
-/
namespace Verif.Props

open Verif CFrame Ex

section
variable {R : FCall → Prop} {f : CFrame}

/-- C68 for frames in which no node can be reached from itself: `midstream` ends; its nodes are those on a path between two of the
given nodes, with all the edges between them; its elements are those that can be reached, in this part of the frame, from the elements
of the given nodes that nothing in this part leads to. It is consistent if and only if what calls need was reached with them, in all
variables. Missing: frames with cycles, see `C68_never_ends`. -/
theorem C68_midstream_partial (hR : RecOk R) (H : Wf R f) (L : LabelsOk f) (hc : f.NoCycle) (how : How) {ns : List String} (hns : ∀ n ∈ ns, f.IsVar n ∨ f.IsFunc n) :
    ∃ ms k init r g, (∀ n, n ∈ ms ↔ f.Between ns n) ∧ f.selectNodes ms = .ok k ∧ Wf R k ∧
      (∀ n x, InSet init n x ↔ n ∈ ns ∧ (k.HasRef n x ∨ k.HasCall n x) ∧ ¬ ∃ a y, (k.HasRef a y ∨ k.HasCall a y) ∧ Linked k .forward a y n x) ∧
      ReachClosed k .forward how init (InSet r) ∧ (∀ P, ReachClosed k .forward how init P → ∀ n x, InSet r n x → P n x) ∧
      (∃ K, ∀ fuel, K ≤ fuel → f.midstream fuel ns how = .ok g) ∧
      (∀ v, g.IsVar v ↔ f.IsVar v ∧ f.Between ns v) ∧ (∀ n, g.IsFunc n ↔ f.IsFunc n ∧ f.Between ns n) ∧
      (∀ s d l, g.HasEdge s d l ↔ f.HasEdge s d l ∧ f.Between ns s ∧ f.Between ns d) ∧
      (∀ v x, g.HasRef v x ↔ k.IsVar v ∧ InSet r v x) ∧ (∀ n x, g.HasCall n x ↔ k.IsFunc n ∧ InSet r n x) ∧ (g.check = true ↔ Closed k r) := by
  obtain ⟨ms, k, init, r, g, hb, hsub, hk, Wk, Lk, hinit, hrin, hC, hl, hg, hsel, hkeys⟩ := midstream_ok hR H L hc (Nat.le_refl _) how hns
  have hv : ∀ v h, k.IsVar v → InSet r v h → k.HasRef v h := fun v h hv hh => (hrin v h hh).elim id fun h' => absurd h'.key (Wk.graph.disj v hv)
  have hf : ∀ n h, k.IsFunc n → InSet r n h → k.HasCall n h := fun n h hv hh => (hrin n h hh).elim (fun h' => absurd hv (Wk.graph.disj n h'.key)) id
  obtain ⟨g', hg', g1, g2, g3, g4, g5, g6⟩ := C41_select_subsets_partial Wk hkeys hv hf
  rw [hsel] at hg'
  cases hg'
  obtain ⟨_, S⟩ := selectNodes_ok hk
  refine ⟨ms, k, init, r, g, hb, hk, Wk, hinit, hC, hl, ⟨_, fun fuel hf => midstream_more hf hg⟩, fun v => ?_, fun n => ?_, fun s d l => ?_, g4, g5, g6⟩
  · rw [g1, IsVar, S.vsKey, hb]
  · rw [g2, IsFunc, S.fsKey, hb]
  · rw [g3, HasEdge, S.out, hb, hb]

/-- C68: it is consistent if there are no two variables for an argument. (Missing otherwise: as for `downstream`, see C58.) -/
theorem C68_consistent_partial (hR : RecOk R) (H : Wf R f) (L : LabelsOk f) (hc : f.NoCycle) (hs : SingleEntry f .forward) {ns : List String}
    (hns : ∀ n ∈ ns, f.IsVar n ∨ f.IsFunc n) : ∃ g, (∃ K, ∀ fuel, K ≤ fuel → f.midstream fuel ns .strong = .ok g) ∧ g.check = true := by
  obtain ⟨ms, k, init, r, g, hb, hk, Wk, hinit, hC, hl, hg, _, _, _, _, _, hch⟩ := C68_midstream_partial hR H L hc .strong hns
  obtain ⟨_, S⟩ := selectNodes_ok hk
  refine ⟨g, hg, hch.2 (closed_reached Wk ?_ ?_ hC hl)⟩
  · intro n v w l hn h1 h2
    exact hs n v w l ((S.fsKey n).1 hn).1 ((S.out _ _ _).1 h1).1 ((S.out _ _ _).1 h2).1
  · intro n c hi hn hcc p hp v hj
    refine ((hinit n c.hid).1 hi).2.2 ⟨v, p.2.hid, .inl (Wk.ins n c p v hp ⟨hn, hcc, (Wk.graph.sym _ _ _).1 hj⟩).1, _, hj, .inl ⟨?_, hn, c, hcc, p, hp, rfl, rfl⟩⟩
    rcases Wk.graph.bip _ _ _ hj with h | h
    · exact h.1
    · exact absurd hn.key (Wk.graph.disj n h.2)

/-- C68: the part between all nodes of a frame without cycles and isolated nodes is the whole frame. -/
theorem C68_all_nodes_partial (hR : RecOk R) (ha : Acyclic R) (H : Wf R f) (L : LabelsOk f) (hc : f.NoCycle) (hi : f.NoIsolated) {ns : List String}
    (hns : ∀ n, n ∈ ns ↔ f.IsVar n ∨ f.IsFunc n) : ∃ g, (∃ K, ∀ fuel, K ≤ fuel → f.midstream fuel ns .strong = .ok g) ∧ SameContent f g := by
  obtain ⟨g, h1, h2, _⟩ := midstream_all hR ha H L hc hi (Nat.le_refl _) hns
  exact ⟨g, ⟨_, fun fuel hf => midstream_more hf h1⟩, h2⟩

/-- C69 for frames without cycles and isolated nodes in which every call has an output in a variable: if `df()` gives a table then

* it has a column for each variable and (if calls are asked for) each function that is not empty;
* every value and (if calls are asked for) every call of the frame is in some row, in the column of its node;
* every value that is not used is in some row together with its complete history;
* every row consists of the complete histories of some values;
* if values are asked for, they are loaded in the columns of all variables other than the lazy ones;

and it does give a table if the histories of the values that are not used have a node in common. Missing: what is excluded by the
hypotheses (see the refutations below), and tables of histories without a common node, of which python's set order decides (C67). -/
theorem C69_df_partial (hR : RecOk R) (ha : Acyclic R) (H : Wf R f) (L : LabelsOk f) {po : PyOrd} (hpo : po.Ok) (hc : f.NoCycle) (hi : f.NoIsolated)
    (hout : f.OutputsShown) (hne : ∃ v x, f.HasRef v x) : ∃ K, ∀ fuel, K ≤ fuel → ∀ objs lazyVars inc,
      (∀ a, f.df po fuel objs lazyVars inc .outer [] = .ok a →
        (a.table.cols.Nodup ∧ ∀ k, k ∈ a.table.cols ↔ (∃ x, f.HasRef k x) ∨ inc = true ∧ ∃ x, f.HasCall k x) ∧
        (∀ k ∈ a.table.cols, ∀ x, f.HasRef k x ∨ f.HasCall k x → ∃ row ∈ a.table.rows, ∃ s, row.get? k = some s ∧ x ∈ s) ∧
        (∀ v h, f.Unused v h → ∃ row ∈ a.table.rows, ∀ k ∈ a.table.cols, f.PastNode true v k → IsCell (f.Past true v h k) (row.get? k)) ∧
        (∀ row ∈ a.table.rows, ∃ chosen : List (String × String), chosen ≠ [] ∧
          (∀ p ∈ chosen, f.HasRef p.1 p.2 ∧ ∀ k ∈ a.table.cols, f.PastNode true p.1 k → IsCell (f.Past true p.1 p.2 k) (row.get? k)) ∧
          ∀ k, row.get? k ≠ none → k ∈ a.table.cols ∧ ∃ p ∈ chosen, f.PastNode true p.1 k) ∧
        ∀ k, k ∈ a.loaded ↔ objs = true ∧ k ∈ a.table.cols ∧ k ∉ lazyVars ∧ f.IsVar k) ∧
      ((∃ k, ∀ v x, f.Unused v x → f.PastNode true v k) → ∃ a, f.df po fuel objs lazyVars inc .outer [] = .ok a) := by
  have hns : ∀ n, n ∈ po.set f.nodes ↔ f.IsVar n ∨ f.IsFunc n := fun n => ((hpo.set f.nodes).mem_iff).trans mem_nodes
  obtain ⟨g, hg, S, Wg, Lg⟩ := midstream_all hR ha H L hc hi (Nat.le_refl _) hns
  obtain ⟨K, hK⟩ := histories_end hR ha Wg Lg (fun d k => (hpo.dict d k).1) true
  refine ⟨max K f.graphOf.mentioned.length, fun fuel hf objs lazyVars inc => ?_⟩
  obtain ⟨vs, hvs, _, hdf⟩ := dfOf_ok hR ha H.graph Wg Lg hpo (fun n hn => (hns n).1 hn) (midstream_more (by omega) hg) (hK fuel (by omega)) objs lazyVars inc .outer
  rw [← S.unused_eq] at hvs hdf
  have hall : ∀ {k x}, f.HasRef k x ∨ f.HasCall k x → ∃ v y, f.Unused v y ∧ f.Past true v y k x := fun h => all_in_pasts ha H hout h
  have hvne : vs ≠ [] := by
    obtain ⟨v, x, hx⟩ := hne
    obtain ⟨w, y, hw, _⟩ := hall (.inl hx)
    exact List.ne_nil_of_mem ((hvs w).2 ⟨y, hw⟩)
  obtain ⟨h1, h2⟩ := hdf hvne
  rw [← S.pastNode_eq] at h2
  refine ⟨fun a haa => ?_, h2⟩
  obtain ⟨t, J, ⟨c1, c2, c3⟩, hload⟩ := h1 a haa
  -- what the histories consist of
  have hstep : ∀ {p q : String × String}, f.MadeFrom true p q → f.HasRef q.1 q.2 ∨ f.HasCall q.1 q.2 := by
    intro p q m
    cases m with
    | input m hp he =>
      obtain ⟨_, m2, m3, _⟩ := m
      exact .inl (H.ins _ _ _ _ hp ⟨m3, m2, (H.graph.sym _ _ _).1 he⟩).1
    | call m _ => exact .inr m.2.2.1
  have hin : ∀ {v h k x}, f.HasRef v h → f.Past true v h k x → f.HasRef k x ∨ f.HasCall k x := by
    intro v h k x hv hp
    have : ∀ a b : String × String, Star (f.MadeFrom true) a b → (f.HasRef a.1 a.2 ∨ f.HasCall a.1 a.2) → f.HasRef b.1 b.2 ∨ f.HasCall b.1 b.2 := by
      intro a b s
      induction s with
      | refl => exact id
      | tail _ m _ => exact fun _ => hstep m
    exact this _ _ hp (.inl hv)
  have hcolt : ∀ k, k ∈ t.cols ↔ ∃ x, f.HasRef k x ∨ f.HasCall k x := by
    intro k
    rw [J.cols.2, ← S.pastNode_eq]
    constructor
    · rintro ⟨v, _, h, x, hv, hp⟩
      exact ⟨x, hin hv hp⟩
    · rintro ⟨x, hx⟩
      obtain ⟨w, y, hw, hp⟩ := hall hx
      exact ⟨w, (hvs w).2 ⟨y, hw⟩, y, x, hw.1, hp⟩
  have hcols : ∀ k, k ∈ a.table.cols ↔ (∃ x, f.HasRef k x) ∨ inc = true ∧ ∃ x, f.HasCall k x := by
    intro k
    rw [c2, hcolt, ← S.isFunc, hns]
    constructor
    · rintro ⟨_, ⟨x, hx⟩, hi⟩
      rcases hx with hx | hx
      · exact .inl ⟨x, hx⟩
      · exact .inr ⟨hi.elim id fun h => absurd hx.key h, x, hx⟩
    · rintro (⟨x, hx⟩ | ⟨hi, x, hx⟩)
      · exact ⟨.inl hx.key, ⟨x, .inl hx⟩, .inr (H.graph.disj k hx.key)⟩
      · exact ⟨.inr hx.key, ⟨x, .inr hx⟩, .inl hi⟩
  have hrow : ∀ v h, f.Unused v h → ∃ row ∈ a.table.rows, ∀ k ∈ a.table.cols, f.PastNode true v k → IsCell (f.Past true v h k) (row.get? k) := by
    intro v h hu
    obtain ⟨row, hr, hs⟩ := J.outer rfl v ((hvs v).2 ⟨h, hu⟩) h ((S.hasRef v h).1 hu.1)
    obtain ⟨row', hr', e⟩ := c3.mem_left hr
    refine ⟨row', hr', fun k hk hp => ?_⟩
    rw [e, if_pos hk, S.past_eq]
    exact hs k (S.pastNode_eq ▸ hp)
  refine ⟨⟨c1, hcols⟩, ?_, hrow, ?_, ?_⟩
  · intro k hk x hx
    obtain ⟨v, y, hu, hp⟩ := hall hx
    obtain ⟨row, hr, hs⟩ := hrow v y hu
    have := hs k hk ⟨y, x, hu.1, hp⟩
    refine ⟨row, hr, ?_⟩
    cases hg : row.get? k with
    | none => rw [hg] at this; exact absurd hp (this x)
    | some s => rw [hg] at this; exact ⟨s, rfl, (this.2.2.2 x).2 hp⟩
  · intro row' hr'
    obtain ⟨row, hr, e⟩ := c3.mem_right hr'
    obtain ⟨ch, h1, h2, h3, _⟩ := J.sound row hr
    refine ⟨ch, h1, fun p hp => ⟨(S.hasRef _ _).2 (h2 p hp).2.1, fun k hk hpn => ?_⟩, fun k hk => ?_⟩
    · rw [e, if_pos hk, S.past_eq]
      exact (h2 p hp).2.2 k (S.pastNode_eq ▸ hpn)
    · rw [e] at hk
      by_cases hkc : k ∈ a.table.cols
      · rw [if_pos hkc] at hk
        rw [S.pastNode_eq]
        exact ⟨hkc, h3 k hk⟩
      · rw [if_neg hkc] at hk
        exact absurd rfl hk
  · intro k
    rw [hload, ← S.isVar]
    constructor
    · rintro ⟨h1, _, h3⟩; exact ⟨h1, h3⟩
    · rintro ⟨h1, h3⟩
      refine ⟨h1, ?_, h3⟩
      obtain ⟨v, x, hx⟩ := hne
      obtain ⟨w, y, hw, _⟩ := hall (.inl hx)
      obtain ⟨row, hr, _⟩ := hrow w y hw
      exact List.ne_nil_of_mem hr

end

/-! ### concrete cases -/

theorem noCycle_of {f : CFrame} (rank : String → Nat) (h : (f.edges.all fun e => decide (rank e.1 < rank e.2.1)) = true) : f.NoCycle := by
  have h1 : ∀ a b, f.Next a b → rank a < rank b := fun a b ⟨l, hl⟩ => of_decide_eq_true (List.all_eq_true.1 h _ (mem_edges.2 hl))
  have h2 : ∀ a b, Star f.Next a b → rank a ≤ rank b := by
    intro a b s
    induction s with
    | refl => exact Nat.le_refl _
    | tail _ m ih => exact Nat.le_trans ih (Nat.le_of_lt (h1 _ _ m))
  intro a b hab hs
  have := h1 _ _ hab
  have := h2 _ _ hs
  omega

theorem noIsolated_of {f : CFrame} (h : (f.nodes.all fun n => f.edges.any fun e => decide (e.1 = n ∨ e.2.1 = n)) = true) : f.NoIsolated := by
  intro n hn
  obtain ⟨e, he, h'⟩ := List.any_eq_true.1 (List.all_eq_true.1 h n (mem_nodes.2 hn))
  rcases of_decide_eq_true h' with rfl | rfl
  · exact ⟨e.2.1, .inl ⟨_, mem_edges'.1 he⟩⟩
  · exact ⟨e.1, .inr ⟨_, mem_edges'.1 he⟩⟩

theorem outputsShown_of {f : CFrame} (h : (f.fs.all fun q => q.2.all fun h => (f.calls.get? h).all fun c => c.outputs.any fun p =>
    f.edges.any fun e => decide (e.1 = q.1 ∧ e.2.2 = nameProj c.op p.1)) = true) : f.OutputsShown := by
  intro n c ⟨s, hs, hx⟩ hc
  have := List.all_eq_true.1 (List.all_eq_true.1 h _ (Dict.mem_of_get? hs)) _ hx
  rw [hc] at this
  obtain ⟨p, hp, h1⟩ := List.any_eq_true.1 this
  obtain ⟨e, he, h2⟩ := List.any_eq_true.1 h1
  obtain ⟨h3, h4⟩ := of_decide_eq_true h2
  refine ⟨p, hp, e.2.1, ?_⟩
  have := mem_edges'.1 he
  rw [h3, h4] at this
  exact this

/-- the hypotheses of C68 and C69 -/
example : RecOk (· ∈ callsPair) ∧ Acyclic (· ∈ callsPair) ∧ Wf (· ∈ callsPair) framePair ∧ LabelsOk framePair ∧ framePair.NoCycle ∧ framePair.NoIsolated ∧
    framePair.OutputsShown ∧ framePair.HasRef "y" "y2" :=
  ⟨recOkPair, acyclicPair, wf_framePair, labelsOk_of (by decide +kernel),
    noCycle_of (fun n => if n = "x" then 0 else if n = "f" ∨ n = "g" then 1 else 2) (by decide +kernel), noIsolated_of (by decide +kernel), outputsShown_of (by decide +kernel),
    ["y1", "y2"], by decide +kernel, by decide⟩

/-- all values and calls; the values in the columns of the variables other than `x` are loaded -/
example : framePair.df po1 10 true ["x"] true .outer [] =
    .ok ⟨⟨["x", "g", "z", "f", "y"], [[("z", ["z1"]), ("x", ["x1"]), ("g", ["g1"]), ("y", ["y1"]), ("f", ["f1"])], [("z", ["z2"]), ("y", ["y2"])]]⟩, ["y", "z"]⟩ := by decide +kernel
example : framePair.df po1 10 false [] false .outer ["x", "y"] = .ok ⟨⟨["x", "y"], [[("y", ["y1"]), ("x", ["x1"])], [("y", ["y2"])]]⟩, []⟩ := by decide +kernel
example : (frameTwo.midstream 20 ["s", "u"] .strong).toOption.map (fun g => (g.vs, g.fs)) = some ([("u", ["u0", "u1"]), ("k", ["k0", "k1"]), ("s", ["s1"])], [("h", ["h0", "h1"]), ("q", ["q0", "q1"])]) := by
  decide +kernel

/-! ### what fails -/

/-- C69: two results computed from the same value: there is no path between them, so `df('y', 'z')` fails although their joint
history exists. -/
theorem C69_refuted_siblings : framePair.df po1 10 true [] true .outer ["y", "z"] = .error .indexError ∧
    ∃ t, framePair.jointHistory po1 true 10 .outer ["y", "z"] = .ok t ∧ t.rows.length = 2 := by
  refine ⟨by decide +kernel, ⟨["x", "g", "z", "f", "y"], [[("z", ["z1"]), ("x", ["x1"]), ("g", ["g1"]), ("y", ["y1"]), ("f", ["f1"])], [("z", ["z2"]), ("y", ["y2"])]]⟩, by decide +kernel, rfl⟩

/-- C69: for a single variable the refs are returned, although the default is to return the values; for a single function,
nothing. -/
theorem C69_refuted_single_node : framePair.df po1 10 true [] true .outer ["y"] = .ok ⟨⟨["y"], [[("y", ["y1"])], [("y", ["y2"])]]⟩, []⟩ ∧
    framePair.df po1 10 true [] true .outer ["f"] = .error .keyError := by decide +kernel

namespace Ex

/-- `y = f(x)` and a variable `z` with a value that has nothing to do with it -/
def buildLone : List FOp := [.addFunc "f", .addVar "x", .addVar "y", .addVar "z", .addEdge "x" "f" "a", .addEdge "f" "y" "output_0",
  .addCall "f" ⟨"f1", "f", [("a", ref "x1")], [("output_0", ref "y1")]⟩, .addRef "z" (ref "z1")]
def frameLone : CFrame := ((runOps {} buildLone).toOption).getD {}
theorem wf_frameLone : Wf (· ∈ callsPair) frameLone :=
  wf_builds recOkPair wf_empty (builds_of (by decide +kernel : buildB callsPair {} buildLone = some frameLone))

/-- `cf(z)` for a value that was not computed: one variable -/
def frameOne : CFrame := ((runOps {} [.addVar "z", .addRef "z" (ref "z1")]).toOption).getD {}
theorem wf_frameOne : Wf (· ∈ callsPair) frameOne :=
  wf_builds recOkPair wf_empty (builds_of (by decide +kernel : buildB callsPair {} [.addVar "z", .addRef "z" (ref "z1")] = some frameOne))

/-- a function without outputs, called on `x` -/
def callsSink : List FCall := [⟨"s1", "s", [("a", ref "x1")], []⟩]
def buildSink : List FOp := [.addFunc "s", .addVar "x", .addEdge "x" "s" "a", .addCall "s" ⟨"s1", "s", [("a", ref "x1")], []⟩]
def frameSink : CFrame := ((runOps {} buildSink).toOption).getD {}
theorem wf_frameSink : Wf (· ∈ callsSink) frameSink :=
  wf_builds (recOk_of (by decide +kernel)) wf_empty (builds_of (by decide +kernel : buildB callsSink {} buildSink = some frameSink))

end Ex

/-- C69: variables without edges are left out of `df()` without notice; -/
theorem C69_refuted_isolated : frameLone.HasRef "z" "z1" ∧ ∃ a, frameLone.df po1 10 true [] true .outer [] = .ok a ∧ a.table.cols = ["x", "f", "y"] ∧ a.table.rows.length = 1 :=
  ⟨⟨["z1"], by decide +kernel, by decide⟩, ⟨⟨["x", "f", "y"], [[("y", ["y1"]), ("x", ["x1"]), ("f", ["f1"])]]⟩, ["x", "y"]⟩, by decide +kernel, rfl, rfl⟩

/-- C69: if there is nothing else, `df()` fails; -/
theorem C69_refuted_one_variable : frameOne.HasRef "z" "z1" ∧ frameOne.df po1 10 true [] true .outer [] = .error .indexError :=
  ⟨⟨["z1"], by decide +kernel, by decide⟩, by decide +kernel⟩

/-- C69: and so it does if the values are used by functions without outputs. -/
theorem C69_refuted_no_outputs : frameSink.HasRef "x" "x1" ∧ frameSink.HasCall "s" "s1" ∧ frameSink.df po1 10 true [] true .outer [] = .error .indexError :=
  ⟨⟨["x1"], by decide +kernel, by decide⟩, ⟨["s1"], by decide +kernel, by decide⟩, by decide +kernel⟩

namespace Ex

/-- `f` and `g` map `x` to `x`, `f` also gives `y`, which `g` takes; `z` has no edges. -/
def buildDiv : List FOp := [.addVar "x", .addVar "y", .addFunc "f", .addFunc "g", .addFunc "z", .addEdge "x" "f" "a", .addEdge "x" "g" "a", .addEdge "y" "g" "b",
  .addEdge "f" "x" "output_0", .addEdge "f" "y" "output_1", .addEdge "g" "x" "output_0"]
def frameDiv : CFrame := ((runOps {} buildDiv).toOption).getD {}
theorem wf_frameDiv : Wf (· ∈ callsPair) frameDiv :=
  wf_builds recOkPair wf_empty (builds_of (by decide +kernel : buildB callsPair {} buildDiv = some frameDiv))

end Ex

/-- C68: with cycles `midstream` need not end: it exceeds any recursion depth (`ended` gives `unmodelled` for this). -/
theorem C68_never_ends (fuel : Nat) (how : How) : Wf (· ∈ callsPair) frameDiv ∧ frameDiv.midstream fuel ["x", "z"] how = .error .unmodelled := by
  refine ⟨wf_frameDiv, ?_⟩
  have hg : frameDiv.graphOf = divGraph := by decide +kernel
  unfold midstream pathNodes
  have : (["x", "z"].flatMap fun a => (["x", "z"].filter (a ≠ ·)).map fun b => (a, b)) = [("x", "z"), ("z", "x")] := by decide
  rw [this, List.mapM_cons, if_pos (by decide +kernel), hg, C47_diverges]
  rfl

end Verif.Props
