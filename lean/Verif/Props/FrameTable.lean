import Verif.Proofs.CFrameJoint
/-!
C65, C66, C67: tables of histories.
-/
namespace Verif.Props

open Verif CFrame Ex

section
variable {R : FCall → Prop} {f : CFrame}

/-- C65: `get_history_df` returns a table with exactly one row for each value of the variable. The row has, in each node, exactly
what the value was made from; the columns are the nodes where there is something, each once. -/
theorem C65_history_table (hR : RecOk R) (ha : Acyclic R) (H : Wf R f) (hL : f.LabelsOk) {po : PyOrd} (hpo : po.Ok) (inc : Bool) {v : String} (hv : f.IsVar v) :
    ∃ K, ∀ fuel, K ≤ fuel → ∃ t hs, f.historyTable po inc fuel v = .ok t ∧ t.cols.Nodup ∧ (∀ k, k ∈ t.cols ↔ f.PastNode inc v k) ∧
      hs.Nodup ∧ (∀ h, h ∈ hs ↔ f.HasRef v h) ∧ All2 (f.IsRowOf inc v) hs t.rows := by
  obtain ⟨K, hK⟩ := histories_end hR ha H hL (fun d k => (hpo.dict d k).1) inc
  refine ⟨K, fun fuel hf => ?_⟩
  obtain ⟨t, hs, h1, _, h2, h3, h4, h5, h6⟩ := historyTable_ok hR H hL hpo hv fun h hh => hK fuel hf v h hh
  exact ⟨t, hs, h1, h2, h3, h4, h5, h6⟩

/-- C66: whenever `get_joint_history_df` returns a table, it consists of complete histories: with `how="outer"` no value is lost,
with `how="inner"` exactly the combinations that agree are there (`JointOf`); and it does return one if the histories of all the
variables have some node in common. -/
theorem C66_joint_history (hR : RecOk R) (ha : Acyclic R) (H : Wf R f) (hL : f.LabelsOk) {po : PyOrd} (hpo : po.Ok) (inc : Bool) :
    ∃ K, ∀ fuel, K ≤ fuel → ∀ how vars, vars ≠ [] → (∀ v ∈ vars, f.IsVar v) →
      (∀ t, f.jointHistory po inc fuel how vars = .ok t → f.JointOf inc how vars t) ∧
      ((∃ k, ∀ v ∈ vars, f.PastNode inc v k) → ∃ t, f.jointHistory po inc fuel how vars = .ok t) := by
  obtain ⟨K, hK⟩ := histories_end hR ha H hL (fun d k => (hpo.dict d k).1) inc
  exact ⟨K, fun fuel hf how vars hne hvs => jointHistory_ok hR ha H hL hpo how hvs hne (hK fuel hf)⟩

theorem inner_rows_sub {inc : Bool} {vars vars' : List String} (hsame : ∀ v, v ∈ vars ↔ v ∈ vars') {t t' : Table} (J : f.JointOf inc .inner vars t)
    (J' : f.JointOf inc .inner vars' t') : ∀ row ∈ t.rows, ∃ row' ∈ t'.rows, ∀ k, row'.get? k = row.get? k := by
  intro row hrow
  obtain ⟨ch, _, h2, h3, h4⟩ := J.sound row hrow
  have hex : ∀ v, v ∈ vars → ∃ h, f.HasRef v h ∧ f.Shows inc v h row := by
    intro v hv
    obtain ⟨p, hp, rfl⟩ := h4 rfl v hv
    exact ⟨p.2, (h2 p hp).2⟩
  have hof : ∃ of : String → String, ∀ v, v ∈ vars → f.HasRef v (of v) ∧ f.Shows inc v (of v) row := by
    classical
    refine ⟨fun v => if h : v ∈ vars then Classical.choose (hex v h) else "", fun v hv => ?_⟩
    simp only [dif_pos hv]
    exact Classical.choose_spec (hex v hv)
  obtain ⟨of, hof⟩ := hof
  obtain ⟨row', hr', hs'⟩ := J'.inner of (fun v hv => (hof v ((hsame v).2 hv)).1) fun v hv w hw k hk hk' =>
    isCell_same ((hof v ((hsame v).2 hv)).2 k hk) ((hof w ((hsame w).2 hw)).2 k hk')
  refine ⟨row', hr', fun k => ?_⟩
  by_cases hk : ∃ v ∈ vars, f.PastNode inc v k
  · obtain ⟨v, hv, hk⟩ := hk
    exact isCell_unique (hs' v ((hsame v).1 hv) k hk) ((hof v hv).2 k hk)
  · have none : ∀ {vs : List String} {s : Table} {r : TRow}, (∀ v, v ∈ vs → v ∈ vars) → f.JointOf inc .inner vs s → r ∈ s.rows → r.get? k = none := by
      intro vs s r hvs Js hr
      obtain ⟨ch, _, g2, g3, _⟩ := Js.sound r hr
      refine Classical.byContradiction fun hn => ?_
      obtain ⟨p, hp, hpk⟩ := g3 k hn
      exact hk ⟨p.1, hvs _ (g2 p hp).1, hpk⟩
    rw [none (fun v => (hsame v).2) J' hr', none (fun _ h => h) J hrow]

/-- C67, for inner joins: the set of rows does not depend on the order in which the variables are given, nor on the order in which
python visits its sets. Missing: outer joins, see below, for which this is not so; and that two orders do not differ in whether
there is a result at all. -/
theorem C67_inner_rows_order_free_partial (hR : RecOk R) (ha : Acyclic R) (H : Wf R f) (hL : f.LabelsOk) {po po' : PyOrd} (hpo : po.Ok) (hpo' : po'.Ok) (inc : Bool) :
    ∃ K, ∀ fuel fuel', K ≤ fuel → K ≤ fuel' → ∀ vars vars', vars ≠ [] → (∀ v ∈ vars, f.IsVar v) → (∀ v, v ∈ vars ↔ v ∈ vars') →
      ∀ t t', f.jointHistory po inc fuel .inner vars = .ok t → f.jointHistory po' inc fuel' .inner vars' = .ok t' →
        (∀ k, k ∈ t.cols ↔ k ∈ t'.cols) ∧ (∀ row ∈ t.rows, ∃ row' ∈ t'.rows, ∀ k, row'.get? k = row.get? k) ∧
          ∀ row' ∈ t'.rows, ∃ row ∈ t.rows, ∀ k, row.get? k = row'.get? k := by
  obtain ⟨K, hK⟩ := C66_joint_history hR ha H hL hpo inc
  obtain ⟨K', hK'⟩ := C66_joint_history hR ha H hL hpo' inc
  refine ⟨K + K', fun fuel fuel' hf hf' vars vars' hne hv hsame t t' ht ht' => ?_⟩
  have hne' : vars' ≠ [] := by
    obtain ⟨v, hv⟩ := List.exists_mem_of_ne_nil _ hne
    exact List.ne_nil_of_mem ((hsame v).1 hv)
  have J := (hK fuel (by omega) .inner vars hne hv).1 t ht
  have J' := (hK' fuel' (by omega) .inner vars' hne' fun v h => hv v ((hsame v).2 h)).1 t' ht'
  refine ⟨fun k => ?_, inner_rows_sub hsame J J', inner_rows_sub (fun v => (hsame v).symm) J' J⟩
  rw [J.cols.2, J'.cols.2]
  constructor
  · rintro ⟨v, h, hk⟩; exact ⟨v, (hsame v).1 h, hk⟩
  · rintro ⟨v, h, hk⟩; exact ⟨v, (hsame v).2 h, hk⟩

end

/-! ### concrete cases -/

namespace Ex

/-- sets are visited in the order of insertion; -/
def po1 : PyOrd := ⟨fun d => d.keys, id, fun a b => a ≤ b, fun a b => a ≤ b⟩
/-- in the opposite order -/
def po2 : PyOrd := ⟨fun d => d.keys, List.reverse, fun a b => a ≤ b, fun a b => a ≤ b⟩
theorem po1_ok : po1.Ok := ⟨fun _ _ => .rfl, fun _ => .refl _⟩
theorem po2_ok : po2.Ok := ⟨fun _ _ => .rfl, fun l => List.reverse_perm l⟩

def ref (h : String) : FRef := ⟨h, "c" ++ h⟩

/-- `y1 = f(x1)` and `z1 = g(x1)`; `y2` and `z2` are values given by the user. -/
def callsPair : List FCall := [⟨"f1", "f", [("a", ref "x1")], [("output_0", ref "y1")]⟩, ⟨"g1", "g", [("a", ref "x1")], [("output_0", ref "z1")]⟩]
def buildPair : List FOp := [.addFunc "f", .addVar "x", .addVar "y", .addVar "z", .addEdge "x" "f" "a", .addEdge "f" "y" "output_0",
  .addFunc "g", .addEdge "x" "g" "a", .addEdge "g" "z" "output_0", .addCall "f" ⟨"f1", "f", [("a", ref "x1")], [("output_0", ref "y1")]⟩,
  .addCall "g" ⟨"g1", "g", [("a", ref "x1")], [("output_0", ref "z1")]⟩, .addRef "y" (ref "y2"), .addRef "z" (ref "z2")]
def framePair : CFrame := ((runOps {} buildPair).toOption).getD {}
theorem recOkPair : RecOk (· ∈ callsPair) := recOk_of (by decide +kernel)
theorem wf_framePair : Wf (· ∈ callsPair) framePair :=
  wf_builds recOkPair wf_empty (builds_of (by decide +kernel : buildB callsPair {} buildPair = some framePair))
theorem acyclicPair : Acyclic (· ∈ callsPair) := by
  refine ⟨fun h => if h = "x1" then 0 else 1, ?_⟩
  decide +kernel

/-- `u = h(k)`, `w = g(j)`, `v = p(j, k)`. -/
def callsOrd : List FCall := [⟨"h1", "h", [("k", ref "k1")], [("output_0", ref "u1")]⟩, ⟨"g1", "g", [("j", ref "j1")], [("output_0", ref "w1")]⟩,
  ⟨"p1", "p", [("k", ref "k1"), ("j", ref "j1")], [("output_0", ref "v1")]⟩]
def nodesOrd : List FOp := [.addVar "u", .addVar "v", .addVar "w", .addVar "k", .addVar "j", .addFunc "h", .addFunc "g", .addFunc "p",
  .addEdge "k" "h" "k", .addEdge "h" "u" "output_0", .addEdge "j" "g" "j", .addEdge "g" "w" "output_0", .addEdge "k" "p" "k", .addEdge "j" "p" "j",
  .addEdge "p" "v" "output_0"]
def buildOrd : List FOp := nodesOrd ++ [.addCall "h" ⟨"h1", "h", [("k", ref "k1")], [("output_0", ref "u1")]⟩,
  .addCall "g" ⟨"g1", "g", [("j", ref "j1")], [("output_0", ref "w1")]⟩, .addCall "p" ⟨"p1", "p", [("k", ref "k1"), ("j", ref "j1")], [("output_0", ref "v1")]⟩]
def frameOrd : CFrame := ((runOps {} buildOrd).toOption).getD {}
theorem recOkOrd : RecOk (· ∈ callsOrd) := recOk_of (by decide +kernel)
theorem wf_frameOrd : Wf (· ∈ callsOrd) frameOrd :=
  wf_builds recOkOrd wf_empty (builds_of (by decide +kernel : buildB callsOrd {} buildOrd = some frameOrd))
theorem acyclicOrd : Acyclic (· ∈ callsOrd) := by
  refine ⟨fun h => if h = "k1" ∨ h = "j1" then 0 else 1, ?_⟩
  decide +kernel

/-- The same with two values of `j` and `k`, all made from `s1` (and another argument that is not in the frame); `p` has been
computed for one pair only. -/
def callsTwo : List FCall := [⟨"q0", "q", [("s", ref "s1"), ("n", ref "0")], [("output_0", ref "k0")]⟩, ⟨"q1", "q", [("s", ref "s1"), ("n", ref "1")], [("output_0", ref "k1")]⟩,
  ⟨"r0", "r", [("s", ref "s1"), ("n", ref "0")], [("output_0", ref "j0")]⟩, ⟨"r1", "r", [("s", ref "s1"), ("n", ref "1")], [("output_0", ref "j1")]⟩,
  ⟨"h0", "h", [("k", ref "k0")], [("output_0", ref "u0")]⟩, ⟨"h1", "h", [("k", ref "k1")], [("output_0", ref "u1")]⟩,
  ⟨"g0", "g", [("j", ref "j0")], [("output_0", ref "w0")]⟩, ⟨"g1", "g", [("j", ref "j1")], [("output_0", ref "w1")]⟩,
  ⟨"p0", "p", [("k", ref "k0"), ("j", ref "j0")], [("output_0", ref "v0")]⟩]
def buildTwo : List FOp := nodesOrd ++ [.addVar "s", .addFunc "q", .addFunc "r", .addEdge "s" "q" "s", .addEdge "s" "r" "s", .addEdge "q" "k" "output_0",
  .addEdge "r" "j" "output_0"] ++ callsTwo.map fun c => .addCall c.op c
def frameTwo : CFrame := ((runOps {} buildTwo).toOption).getD {}
theorem recOkTwo : RecOk (· ∈ callsTwo) := recOk_of (by decide +kernel)
theorem wf_frameTwo : Wf (· ∈ callsTwo) frameTwo :=
  wf_builds recOkTwo wf_empty (builds_of (by decide +kernel : buildB callsTwo {} buildTwo = some frameTwo))
theorem acyclicTwo : Acyclic (· ∈ callsTwo) := by
  refine ⟨fun h => if h ∈ ["s1", "0", "1"] then 0 else if h ∈ ["k0", "k1", "j0", "j1"] then 1 else 2, ?_⟩
  decide +kernel

end Ex

/-- the hypotheses of C65, C66 and C67 hold for these frames -/
example : RecOk (· ∈ callsPair) ∧ Acyclic (· ∈ callsPair) ∧ Wf (· ∈ callsPair) framePair ∧ LabelsOk framePair ∧ po1.Ok ∧ po2.Ok ∧ (∀ v ∈ ["y", "z"], framePair.IsVar v) ∧
    RecOk (· ∈ callsTwo) ∧ Acyclic (· ∈ callsTwo) ∧ Wf (· ∈ callsTwo) frameTwo ∧ LabelsOk frameTwo :=
  ⟨recOkPair, acyclicPair, wf_framePair, labelsOk_of (by decide +kernel), po1_ok, po2_ok, by decide +kernel, recOkTwo, acyclicTwo, wf_frameTwo, labelsOk_of (by decide +kernel)⟩

/-- an iterated function: the inputs are in a cell together -/
example : frameIter.historyRow po1 true 10 "o" "u2" =
    .ok [("o", ["u2"]), ("v", ["u1", "x", "y"]), ("w", ["x2"]), ("g", ["e2"]), ("f", ["e0", "e1"])] := by decide +kernel

example : framePair.jointHistory po1 false 10 .outer ["y", "z"] =
    .ok ⟨["x", "z", "y"], [[("z", ["z1"]), ("x", ["x1"]), ("y", ["y1"])], [("z", ["z2"]), ("y", ["y2"])]]⟩ := by decide +kernel

/-- C66: it is not so that values in a row have anything to do with each other: empty cells are taken to be equal when histories
are joined, so that values without history are put in one row. Here `y2` and `z2` are given by the user independently of each
other, and there is no other row with either of them. -/
theorem C66_unrelated_values_in_one_row : ∃ t, framePair.jointHistory po1 false 10 .outer ["y", "z"] = .ok t ∧
    (∃ row ∈ t.rows, row.get? "y" = some ["y2"] ∧ row.get? "z" = some ["z2"]) ∧ (∀ k x, framePair.Past false "y" "y2" k x ↔ (k = "y" ∧ x = "y2")) ∧
    ∀ k x, framePair.Past false "z" "z2" k x ↔ (k = "z" ∧ x = "z2") := by
  have hc : ∀ h, framePair.creator.get? h ≠ none → h = "y1" ∨ h = "z1" := by
    intro h hn
    have : h ∈ framePair.creator.keys := by
      cases hg : framePair.creator.get? h with
      | none => exact absurd hg hn
      | some c => exact Dict.mem_keys.2 ⟨c, hg⟩
    have hk : framePair.creator.keys = ["y1", "z1"] := by decide +kernel
    rw [hk] at this
    simpa using this
  have hpast : ∀ v h, h ≠ "y1" → h ≠ "z1" → ∀ k x, framePair.Past false v h k x ↔ (k = v ∧ x = h) := by
    intro v h h1 h2 k x
    constructor
    · intro hp
      have hno : ∀ b, ¬ framePair.MadeFrom false (v, h) b := by
        intro b hb
        have hcr : framePair.creator.get? h ≠ none := by
          cases hb with
          | input hm _ _ => rw [hm.1]; simp
          | call hm _ => rw [hm.1]; simp
        rcases hc h hcr with h | h
        · exact h1 h
        · exact h2 h
      rcases Star.head_cases hp with h | ⟨b, hb, _⟩
      · cases h; exact ⟨rfl, rfl⟩
      · exact absurd hb (hno b)
    · rintro ⟨rfl, rfl⟩
      exact .refl
  exact ⟨_, (by decide +kernel : framePair.jointHistory po1 false 10 .outer ["y", "z"] =
    .ok ⟨["x", "z", "y"], [[("z", ["z1"]), ("x", ["x1"]), ("y", ["y1"])], [("z", ["z2"]), ("y", ["y2"])]]⟩), by decide +kernel,
    hpast "y" "y2" (by decide) (by decide), hpast "z" "z2" (by decide) (by decide)⟩

/-- C67: the order in which python visits its sets (which depends on the hash seed of the process) decides whether there is a
result at all: tables of variables that have nothing in common may have to be joined before the one that connects them. -/
theorem C67_result_depends_on_set_order : (∃ t, frameOrd.jointHistory po1 false 10 .outer ["u", "v", "w"] = .ok t) ∧
    frameOrd.jointHistory po2 false 10 .outer ["u", "v", "w"] = .error .indexError :=
  ⟨⟨⟨["j", "w", "k", "v", "u"], [[("w", ["w1"]), ("j", ["j1"]), ("v", ["v1"]), ("k", ["k1"]), ("u", ["u1"])]]⟩, by decide +kernel⟩, by decide +kernel⟩

/-- C67: and, with an outer join, which rows it has. -/
theorem C67_outer_rows_depend_on_set_order : ∃ t t', frameTwo.jointHistory po1 false 10 .outer ["u", "v", "w"] = .ok t ∧
    frameTwo.jointHistory po2 false 10 .outer ["u", "v", "w"] = .ok t' ∧ t.rows.length = 3 ∧ t'.rows.length = 4 := by
  have h : ∀ (e : Except Err Table) (n : Nat), (e.toOption.map fun t => t.rows.length) = some n → ∃ t, e = .ok t ∧ t.rows.length = n := by
    intro e n he
    cases e with
    | error e => cases he
    | ok t => exact ⟨t, rfl, by simpa [Except.toOption] using he⟩
  obtain ⟨t, h1, h2⟩ := h (frameTwo.jointHistory po1 false 10 .outer ["u", "v", "w"]) 3 (by decide +kernel)
  obtain ⟨t', h3, h4⟩ := h (frameTwo.jointHistory po2 false 10 .outer ["u", "v", "w"]) 4 (by decide +kernel)
  exact ⟨t, t', h1, h3, h2, h4⟩

/-- the inner join of the same is the same for both -/
example : frameTwo.jointHistory po1 false 10 .inner ["u", "v", "w"] =
      .ok ⟨["s", "j", "w", "k", "v", "u"], [[("w", ["w0"]), ("j", ["j0"]), ("s", ["s1"]), ("v", ["v0"]), ("k", ["k0"]), ("u", ["u0"])]]⟩ ∧
    frameTwo.jointHistory po2 false 10 .inner ["w", "v", "u"] =
      .ok ⟨["s", "k", "u", "j", "w", "v"], [[("u", ["u0"]), ("k", ["k0"]), ("s", ["s1"]), ("w", ["w0"]), ("j", ["j0"]), ("v", ["v0"])]]⟩ := by
  decide +kernel

end Verif.Props
