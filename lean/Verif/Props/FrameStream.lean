import Verif.Props.FrameReach
import Verif.Props.FrameGraph
/-!
C58: restricting a frame to what is upstream or downstream of some nodes, dropping what is unreachable, taking differences.
-/
namespace Verif.Props

open Verif CFrame Ex

/-! ### reached sets of elements are closed under inputs and outputs -/

/-- Going in the direction, every function takes what belongs to a label from a single variable. -/
def SingleEntry (f : CFrame) (dir : Side) : Prop := ∀ n v w l, f.IsFunc n → Joined f dir v n l → Joined f dir w n l → v = w

/-- The calls among the starting elements have no inputs (outputs, going back) in the frame. -/
def StartOk (f : CFrame) (dir : Side) (init : SetDict) : Prop :=
  ∀ n c, InSet init n c.hid → f.HasCall n c.hid → f.calls.get? c.hid = some c → ∀ p ∈ ioRefs dir c, ∀ v, ¬ Joined f dir v n (nameProj c.op p.1)

/-- Every call that is strongly reached, other than the starting ones, has all it needs among what is reached. -/
theorem reached_ready {R : FCall → Prop} {f : CFrame} (H : Wf R f) {dir : Side} {init r : SetDict} (C : ReachClosed f dir .strong init (InSet r))
    (hl : ∀ P, ReachClosed f dir .strong init P → ∀ n x, InSet r n x → P n x) {n h : String} (hn : f.HasCall n h) (hr : InSet r n h) :
    InSet init n h ∨ ∃ c, f.calls.get? h = some c ∧ CallReady f dir (InSet r) n c := by
  refine (hl (fun n x => InSet r n x ∧ (f.HasCall n x → InSet init n x ∨ ∃ c, f.calls.get? x = some c ∧ CallReady f dir (InSet r) n c)) ?_ n h hr).2 hn
  refine ⟨fun n x h => ⟨C.start n x h, fun _ => .inl h⟩, fun a x v y h hlk hv => ⟨C.values a x v y h.1 hlk hv, fun hc => absurd hc.key (H.graph.disj v hv)⟩, nofun, ?_⟩
  intro _ n c hn hc ⟨h1, h2⟩
  have hr : CallReady f dir (InSet r) n c := ⟨h1, fun p hp hv => (h2 p hp hv).imp fun v h => ⟨h.1, h.2.1⟩⟩
  exact ⟨C.strong rfl n c hn hc hr, fun _ => .inr ⟨c, hc, hr⟩⟩

theorem closed_reached {R : FCall → Prop} {f : CFrame} (H : Wf R f) {dir : Side} (hs : SingleEntry f dir) {init r : SetDict} (hi : StartOk f dir init)
    (C : ReachClosed f dir .strong init (InSet r)) (hl : ∀ P, ReachClosed f dir .strong init P → ∀ n x, InSet r n x → P n x) : Closed f r := by
  have entry : ∀ n c p v, InSet r n c.hid → f.HasCall n c.hid → f.calls.get? c.hid = some c → p ∈ ioRefs dir c → Joined f dir v n (nameProj c.op p.1) →
      InSet r v p.2.hid := by
    intro n c p v hr hn hc hp hj
    rcases reached_ready H C hl hn hr with h | ⟨c', hc', hrd⟩
    · exact absurd hj (hi n c h hn hc p hp v)
    · rw [hc] at hc'
      cases hc'
      obtain ⟨w, hw, hwr⟩ := hrd.2 p hp ⟨v, hj⟩
      obtain rfl := hs n v w _ hn.key hj hw
      exact hwr
  intro n c p v hr hpt
  cases dir with
  | forward =>
    rcases hpt with ⟨hp, t1, t2, t3⟩ | ⟨hp, t1, t2, t3⟩
    · exact entry n c p v hr t1 t2 hp ((H.graph.sym v n _).2 t3)
    · have hv := (H.outs n c p v hp ⟨t1, t2, t3⟩).1
      exact C.values n c.hid v _ hr ⟨_, t3, .inr ⟨t1.key, hv, c, t2, p, hp, rfl, rfl⟩⟩ hv.key
  | back =>
    rcases hpt with ⟨hp, t1, t2, t3⟩ | ⟨hp, t1, t2, t3⟩
    · have hv := (H.ins n c p v hp ⟨t1, t2, t3⟩).1
      exact C.values n c.hid v _ hr ⟨_, (H.graph.sym v n _).2 t3, .inr ⟨t1.key, hv, c, t2, p, hp, rfl, rfl⟩⟩ hv.key
    · exact entry n c p v hr t1 t2 hp t3

/-! ### upstream and downstream -/

theorem labelsOk_select {f g : CFrame} (L : LabelsOk f) {ns : List String} (S : Selects f g ns) (H : f.Consistent)
    (hsym : ∀ s d l, InAdj f.out s l d ↔ InAdj f.inp d l s) (hg : f.selectNodes ns = .ok g) : LabelsOk g := by
  intro s n l h c he hn hc hop
  obtain ⟨_, _, _, _, _, _, _, _, hcalls⟩ := (C40_select_nodes H hsym ns).2 g hg
  exact L s n l h c ((S.out s l n).1 he).1 ((S.fs n h).1 hn).1 ((hcalls h c).1 hc).1 hop

theorem viewOf_ok {f : CFrame} (H : GraphWf f) {ns : List String} (h : ∀ n ∈ ns, f.IsVar n ∨ f.IsFunc n) :
    ∃ r, f.viewOf ns = .ok r ∧ (∀ n, n ∈ r.keys ↔ n ∈ ns) ∧ ∀ n x, InSet r n x ↔ n ∈ ns ∧ (f.HasRef n x ∨ f.HasCall n x) := by
  refine ⟨ns.map fun n => (n, (f.setOf n).getD []), ?_, fun n => ?_, fun n x => ?_⟩
  · unfold viewOf
    refine mapM_ok fun n hn => ?_
    have : ∃ s, f.setOf n = some s := by
      unfold CFrame.setOf
      rcases h n hn with h | h
      · obtain ⟨s, hs⟩ := Dict.mem_keys.1 h
        cases f.fs.get? n with
        | none => exact ⟨s, by rw [hs]; rfl⟩
        | some t => exact ⟨t, rfl⟩
      · obtain ⟨s, hs⟩ := Dict.mem_keys.1 h
        exact ⟨s, by rw [hs]; rfl⟩
    obtain ⟨s, hs⟩ := this
    rw [hs]; rfl
  · simp [Dict.keys]
  · have hget : Dict.get? (ns.map fun n => (n, (f.setOf n).getD [])) n = if n ∈ ns then some ((f.setOf n).getD []) else none := by
      clear h
      induction ns with
      | nil => rfl
      | cons m ns ih =>
        rw [List.map_cons, Dict.get?_cons]
        by_cases e : m = n
        · subst e; simp
        · have e' : ¬ n = m := fun h => e h.symm
          simp only [e, if_false, ih, List.mem_cons, e', false_or]
    unfold InSet
    rw [hget]
    by_cases hn : n ∈ ns
    · simp only [hn, if_true, Option.some.injEq, exists_eq_left', true_and]
      rcases h n hn with hv | hv
      · have := setOf_var H hv (h := x)
        have hnf : ¬ f.HasCall n x := fun h => H.disj n hv h.key
        rw [← this]
        constructor
        · intro hx
          cases hs : f.setOf n with
          | none => rw [hs] at hx; simp at hx
          | some s => rw [hs] at hx; exact .inl ⟨s, rfl, hx⟩
        · rintro (⟨s, hs, hx⟩ | h')
          · rw [hs]; exact hx
          · exact absurd h' hnf
      · have := setOf_func hv (h := x)
        have hnf : ¬ f.HasRef n x := fun h => H.disj n h.key hv
        rw [← this]
        constructor
        · intro hx
          cases hs : f.setOf n with
          | none => rw [hs] at hx; simp at hx
          | some s => rw [hs] at hx; exact .inr ⟨s, rfl, hx⟩
        · rintro (h' | ⟨s, hs, hx⟩)
          · exact absurd h' hnf
          · rw [hs]; exact hx
    · simp [hn]

/-- An element is restricted to nodes that are downstream (upstream) of `ns`. -/
def Within (f : CFrame) (dir : Side) (ns : List String) (x : String) : Prop :=
  match dir with
  | .forward => ∃ n ∈ ns, Star (fun a b => ∃ l, f.HasEdge a b l) n x
  | .back => ∃ n ∈ ns, Star (fun a b => ∃ l, f.HasEdge a b l) x n

/-- C58, content: `downstream(*ns)` (`upstream(*ns)`) succeeds, with all nodes that are downstream (upstream) of `ns` and, in
them, what is reached from the elements of `ns` inside the subframe of these nodes. It passes the check exactly when the inputs
and outputs of all the calls that were reached were reached as well. -/
theorem C58_stream_content {R : FCall → Prop} (hR : RecOk R) {f : CFrame} (H : Wf R f) (L : LabelsOk f) (dir : Side) (how : How) {ns : List String}
    (hns : ∀ n ∈ ns, f.IsVar n ∨ f.IsFunc n) :
    ∃ ms k init r g, (∀ n, n ∈ ms ↔ Within f dir ns n) ∧ f.selectNodes ms = .ok k ∧ Wf R k ∧
      (∀ n x, InSet init n x ↔ n ∈ ns ∧ (f.HasRef n x ∨ f.HasCall n x)) ∧
      ReachClosed k dir how init (InSet r) ∧ (∀ P, ReachClosed k dir how init P → ∀ n x, InSet r n x → P n x) ∧
      f.stream ns dir how = .ok g ∧ (∀ v, g.IsVar v ↔ k.IsVar v) ∧ (∀ n, g.IsFunc n ↔ k.IsFunc n) ∧ (∀ s d l, g.HasEdge s d l ↔ k.HasEdge s d l) ∧
      (∀ v x, g.HasRef v x ↔ k.IsVar v ∧ InSet r v x) ∧ (∀ n x, g.HasCall n x ↔ k.IsFunc n ∧ InSet r n x) ∧ (g.check = true ↔ Closed k r) := by
  have hns' : ∀ n ∈ PySet.ofList ns, f.IsVar n ∨ f.IsFunc n := fun n hn => hns n (PySet.mem_ofList.1 hn)
  have hex : ∃ ms, f.reachableNodes (PySet.ofList ns) dir = .ok ms ∧ ∀ n, n ∈ ms ↔ Within f dir ns n := by
    cases dir with
    | forward =>
      obtain ⟨ms, h1, h2⟩ := (C44_reachable_nodes H.graph hns').1
      exact ⟨ms, h1, fun n => by rw [h2]; simp only [PySet.mem_ofList]; rfl⟩
    | back =>
      obtain ⟨ms, h1, h2⟩ := (C44_reachable_nodes H.graph hns').2
      exact ⟨ms, h1, fun n => by rw [h2]; simp only [PySet.mem_ofList]; rfl⟩
  obtain ⟨ms, hms, hw⟩ := hex
  have hin : ∀ n ∈ ns, n ∈ ms := fun n hn => (hw n).2 (by cases dir <;> exact ⟨n, hn, .refl⟩)
  have hsub : ∀ n ∈ ms, n ∈ f.nodes := by
    intro n hn
    have := (hw n).1 hn
    have key : ∀ a b, Star (fun a b => ∃ l, f.HasEdge a b l) a b → (a ∈ f.nodes ↔ b ∈ f.nodes) := by
      intro a b hs
      induction hs with
      | refl => exact Iff.rfl
      | tail _ hl ih =>
        obtain ⟨l, hl⟩ := hl
        refine ih.trans ⟨fun _ => ?_, fun _ => ?_⟩
        · rw [mem_nodes]; rcases H.graph.bip _ _ _ hl with h | h
          · exact .inr h.2
          · exact .inl h.2
        · rw [mem_nodes]; rcases H.graph.bip _ _ _ hl with h | h
          · exact .inl h.1
          · exact .inr h.1
    cases dir with
    | forward => obtain ⟨m, hm, hs⟩ := this; exact (key _ _ hs).1 (mem_nodes.2 (hns m hm))
    | back => obtain ⟨m, hm, hs⟩ := this; exact (key _ _ hs).2 (mem_nodes.2 (hns m hm))
  obtain ⟨k, hk⟩ := selectNodes_total hsub
  obtain ⟨_, S⟩ := selectNodes_ok hk
  have Wk := wf_selectNodes hsub S H
  have Lk := labelsOk_select L S H.consistent H.graph.sym hk
  have hnk : ∀ n ∈ PySet.ofList ns, k.IsVar n ∨ k.IsFunc n := by
    intro n hn
    have hn := PySet.mem_ofList.1 hn
    rcases hns n hn with h | h
    · exact .inl ((S.vsKey n).2 ⟨h, hin n hn⟩)
    · exact .inr ((S.fsKey n).2 ⟨h, hin n hn⟩)
  obtain ⟨init, hi, hikey, hinit⟩ := viewOf_ok Wk.graph hnk
  have hinside : Inside k init := fun n x h => ((hinit n x).1 h).2
  obtain ⟨r, hr, hrin, hC, hleast, hkeys⟩ := reachableElts_spec hR Wk Lk dir how hinside
  have hkeys' : ∀ n, n ∈ r.keys ↔ k.IsVar n ∨ k.IsFunc n := by
    intro n
    rw [hkeys, hikey, mem_nodes]
    exact ⟨fun h => h.elim id fun h => hnk n h, .inl⟩
  have hv : ∀ v h, k.IsVar v → InSet r v h → k.HasRef v h := fun v h hv hh => (hrin v h hh).elim id fun h' => absurd h'.key (Wk.graph.disj v hv)
  have hf : ∀ n h, k.IsFunc n → InSet r n h → k.HasCall n h := fun n h hv hh => (hrin n h hh).elim (fun h' => absurd hv (Wk.graph.disj n h'.key)) id
  obtain ⟨g, hg, g1, g2, g3, g4, g5, g6⟩ := C41_select_subsets_partial Wk hkeys' hv hf
  refine ⟨ms, k, init, r, g, hw, hk, Wk, ?_, hC, hleast, ?_, g1, g2, g3, g4, g5, g6⟩
  · intro n x
    rw [hinit, PySet.mem_ofList]
    constructor
    · rintro ⟨h1, h2⟩
      exact ⟨h1, h2.imp (fun h => ((S.vs n x).1 h).1) (fun h => ((S.fs n x).1 h).1)⟩
    · rintro ⟨h1, h2⟩
      exact ⟨h1, h2.imp (fun h => (S.vs n x).2 ⟨h, hin n h1⟩) (fun h => (S.fs n x).2 ⟨h, hin n h1⟩)⟩
  · unfold stream
    simp only [hms, hk, hi, hr, hg, bind, Except.bind]

/-- C58, consistency (partial): `downstream(*vars)` and `upstream(*vars)` for variables, with the default `how="strong"`, is
consistent when each function takes what belongs to a label from a single variable. -/
theorem C58_stream_consistent_partial {R : FCall → Prop} (hR : RecOk R) {f : CFrame} (H : Wf R f) (L : LabelsOk f) (dir : Side) {vars : List String}
    (hv : ∀ v ∈ vars, f.IsVar v) (hs : SingleEntry f dir) : ∃ g, f.stream vars dir .strong = .ok g ∧ g.check = true := by
  obtain ⟨ms, k, init, r, g, _, hk, Wk, hi, hC, hl, hg, _, _, _, _, _, hch⟩ := C58_stream_content hR H L dir .strong (fun n hn => .inl (hv n hn))
  obtain ⟨_, S⟩ := selectNodes_ok hk
  refine ⟨g, hg, hch.2 (closed_reached Wk ?_ ?_ hC hl)⟩
  · intro n v w l hn h1 h2
    refine hs n v w l ((S.fsKey n).1 hn).1 ?_ ?_
    · cases dir
      · exact ((S.out _ _ _).1 h1).1
      · exact ((S.out _ _ _).1 h1).1
    · cases dir
      · exact ((S.out _ _ _).1 h2).1
      · exact ((S.out _ _ _).1 h2).1
  · intro n c h hn
    exact absurd ((S.fsKey n).1 hn.key).1 (H.graph.disj n (hv n ((hi n _).1 h).1))

/-! ### dropping what is unreachable -/

theorem getOr_allElts {f : CFrame} (n : String) : getOr f.allElts n = (f.setOf n).getD [] := by
  unfold allElts getOr
  have hget : ∀ ns : List String, Dict.get? (ns.map fun n => (n, (f.setOf n).getD [])) n = if n ∈ ns then some ((f.setOf n).getD []) else none := by
    intro ns
    induction ns with
    | nil => rfl
    | cons m ns ih =>
      rw [List.map_cons, Dict.get?_cons]
      by_cases e : m = n
      · subst e; simp
      · have e' : ¬ n = m := fun h => e h.symm
        simp only [e, if_false, ih, List.mem_cons, e', false_or]
  rw [hget]
  by_cases hn : n ∈ f.nodes
  · simp [hn]
  · rw [if_neg hn]
    rw [mem_nodes, not_or] at hn
    unfold CFrame.setOf
    rw [Dict.get?_eq_none.2 hn.1, Dict.get?_eq_none.2 hn.2]
    rfl

theorem inSet_allElts {f : CFrame} (H : GraphWf f) {n x : String} : InSet f.allElts n x ↔ f.HasRef n x ∨ f.HasCall n x := by
  rw [← mem_getOr, getOr_allElts]
  by_cases hn : f.IsVar n ∨ f.IsFunc n
  · rcases hn with hv | hv
    · have := setOf_var H hv (h := x)
      constructor
      · intro hx
        cases hs : f.setOf n with
        | none => rw [hs] at hx; simp at hx
        | some s => rw [hs] at hx; exact .inl (this.1 ⟨s, hs, hx⟩)
      · rintro (h | h)
        · obtain ⟨s, hs, hx⟩ := this.2 h
          rw [hs]; exact hx
        · exact absurd h.key (H.disj n hv)
    · have := setOf_func hv (h := x)
      constructor
      · intro hx
        cases hs : f.setOf n with
        | none => rw [hs] at hx; simp at hx
        | some s => rw [hs] at hx; exact .inr (this.1 ⟨s, hs, hx⟩)
      · rintro (h | h)
        · exact absurd hv (H.disj n h.key)
        · obtain ⟨s, hs, hx⟩ := this.2 h
          rw [hs]; exact hx
  · rw [not_or] at hn
    have e : f.setOf n = none := by
      unfold CFrame.setOf
      rw [Dict.get?_eq_none.2 hn.1, Dict.get?_eq_none.2 hn.2]
      rfl
    rw [e]
    constructor
    · simp
    · rintro (h | h)
      · exact absurd h.key hn.1
      · exact absurd h.key hn.2

/-- `get_source_elts` and `get_sink_elts`: the elements that nothing in the frame leads to. -/
theorem endElts_spec {R : FCall → Prop} (hR : RecOk R) {f : CFrame} (H : Wf R f) (L : LabelsOk f) (dir : Side) :
    ∃ r, f.endElts dir = .ok r ∧ (∀ n, n ∈ r.keys ↔ n ∈ f.nodes) ∧
      ∀ n x, InSet r n x ↔ (f.HasRef n x ∨ f.HasCall n x) ∧ ¬ ∃ a y, (f.HasRef a y ∨ f.HasCall a y) ∧ Linked f dir a y n x := by
  have hin : Inside f f.allElts := fun n x h => (inSet_allElts H.graph).1 h
  have hG : ∀ n, ∃ ys, f.adjFrom f.allElts dir (f.edgesAt dir n) = .ok ys ∧ ∀ y, y ∈ ys ↔ ∃ a x, InSet f.allElts a x ∧ Linked f dir a x n y :=
    fun n => adjFrom_ok hR H L hin
  let G : String → List String := fun n => (hG n).choose
  have hG1 : ∀ n, f.adjFrom f.allElts dir (f.edgesAt dir n) = .ok (G n) := fun n => (hG n).choose_spec.1
  have hG2 : ∀ n y, y ∈ G n ↔ ∃ a x, InSet f.allElts a x ∧ Linked f dir a x n y := fun n => (hG n).choose_spec.2
  refine ⟨f.nodes.map fun n => (n, PySet.diff ((f.setOf n).getD []) (G n)), ?_, fun n => by simp [Dict.keys], fun n x => ?_⟩
  · unfold endElts
    refine mapM_ok fun n _ => ?_
    have := hG1 n
    unfold adjFrom at this
    simp only [getOr_allElts] at this
    rw [this]
    rfl
  · have hget : ∀ ns : List String, Dict.get? (ns.map fun n => (n, PySet.diff ((f.setOf n).getD []) (G n))) n =
        if n ∈ ns then some (PySet.diff ((f.setOf n).getD []) (G n)) else none := by
      intro ns
      induction ns with
      | nil => rfl
      | cons m ns ih =>
        rw [List.map_cons, Dict.get?_cons]
        by_cases e : m = n
        · subst e; simp
        · have e' : ¬ n = m := fun h => e h.symm
          simp only [e, if_false, ih, List.mem_cons, e', false_or]
    have hb := inSet_allElts H.graph (n := n) (x := x)
    rw [← mem_getOr, getOr_allElts] at hb
    unfold InSet
    rw [hget]
    by_cases hn : n ∈ f.nodes
    · simp only [hn, if_true, Option.some.injEq, exists_eq_left', PySet.mem_diff, hb, hG2, inSet_allElts H.graph]
    · simp only [hn, if_false, reduceCtorEq, false_and, exists_false, false_iff]
      rintro ⟨h, _⟩
      exact hn (mem_nodes.2 (h.imp (·.key) (·.key)))

/-- C58 (partial): `drop_unreachable` with `how="strong"` keeps exactly what is reached from the elements nothing leads to, and
the result is consistent when each function takes what belongs to a label from a single variable. -/
theorem C58_drop_unreachable_partial {R : FCall → Prop} (hR : RecOk R) {f : CFrame} (H : Wf R f) (L : LabelsOk f) (dir : Side) (hs : SingleEntry f dir) :
    ∃ init r g, (∀ n x, InSet init n x ↔ (f.HasRef n x ∨ f.HasCall n x) ∧ ¬ ∃ a y, (f.HasRef a y ∨ f.HasCall a y) ∧ Linked f dir a y n x) ∧
      ReachClosed f dir .strong init (InSet r) ∧ (∀ P, ReachClosed f dir .strong init P → ∀ n x, InSet r n x → P n x) ∧
      f.dropUnreachable dir .strong = .ok g ∧ g.check = true ∧ (∀ v x, g.HasRef v x ↔ f.IsVar v ∧ InSet r v x) ∧
      (∀ n x, g.HasCall n x ↔ f.IsFunc n ∧ InSet r n x) := by
  obtain ⟨init, hi, hikey, hinit⟩ := endElts_spec hR H L dir
  obtain ⟨r, hr, hrin, hC, hleast, hkeys⟩ := reachableElts_spec hR H L dir .strong (fun n x h => ((hinit n x).1 h).1)
  have hkeys' : ∀ n, n ∈ r.keys ↔ f.IsVar n ∨ f.IsFunc n := by
    intro n
    rw [hkeys, hikey, or_self, mem_nodes]
  have hv : ∀ v h, f.IsVar v → InSet r v h → f.HasRef v h := fun v h hv hh => (hrin v h hh).elim id fun h' => absurd h'.key (H.graph.disj v hv)
  have hf : ∀ n h, f.IsFunc n → InSet r n h → f.HasCall n h := fun n h hv hh => (hrin n h hh).elim (fun h' => absurd hv (H.graph.disj n h'.key)) id
  obtain ⟨g, hg, _, _, _, g4, g5, g6⟩ := C41_select_subsets_partial H hkeys' hv hf
  refine ⟨init, r, g, hinit, hC, hleast, ?_, g6.2 (closed_reached H hs ?_ hC hleast), g4, g5⟩
  · unfold dropUnreachable
    simp only [hi, hr, hg, bind, Except.bind]
  · intro n c hin hn hc p hp v hj
    refine ((hinit n c.hid).1 hin).2 ⟨v, p.2.hid, ?_⟩
    cases dir with
    | forward =>
      have hvr := (H.ins n c p v hp ⟨hn, hc, (H.graph.sym v n _).1 hj⟩).1
      exact ⟨.inl hvr, _, hj, .inl ⟨hvr.key, hn, c, hc, p, hp, rfl, rfl⟩⟩
    | back =>
      have hvr := H.outs n c p v hp ⟨hn, hc, hj⟩
      exact ⟨.inl hvr.1, _, hj, .inl ⟨hvr.1.key, hn, hvr.2⟩⟩

/-! ### examples and refutations -/

def singleB (f : CFrame) (dir : Side) : Bool :=
  f.edges.all fun e => f.edges.all fun e' =>
    decide (f.IsFunc (endOf dir e) → endOf dir e = endOf dir e' → e.2.2 = e'.2.2 → startOf dir e = startOf dir e')

theorem single_of {f : CFrame} {dir : Side} (h : singleB f dir = true) : SingleEntry f dir := by
  intro n v w l hn h1 h2
  obtain ⟨e, he, rfl, rfl⟩ := joined_iff.1 h1
  obtain ⟨e', he', rfl, hl⟩ := joined_iff.1 h2
  rw [mem_edgesAt] at he he'
  have := List.all_eq_true.1 (List.all_eq_true.1 h e (mem_edges'.2 he.1)) e' (mem_edges'.2 he'.1)
  exact of_decide_eq_true this (he.2 ▸ hn) (he.2.trans he'.2.symm) hl.symm

example : SingleEntry frameFH .forward ∧ SingleEntry frameFH .back := ⟨single_of (by decide +kernel), single_of (by decide +kernel)⟩
example : (frameFH.stream ["v"] .forward .strong).toOption.map (fun g => (g.vs, g.fs)) = some ([("v", ["y", "y2"]), ("o", ["w"])], [("h", ["c4"])]) := by
  decide +kernel
example : (frameFH.stream ["v"] .back .strong).toOption.map (fun g => (g.vs, g.fs)) = some ([("a", ["x", "x2"]), ("v", ["y", "y2"])], [("f", ["c1", "c2"])]) := by
  decide +kernel

namespace Ex
/-- `y = f(x)`, `w = h(y, x2)`, with both arguments of `h` in the variable `v` -/
def buildWeak : List FOp := [.addFunc "f", .addVar "a", .addEdge "a" "f" "a", .addVar "v", .addEdge "f" "v" "output_0",
  .addFunc "h", .addEdge "v" "h" "p", .addEdge "v" "h" "q", .addVar "o", .addEdge "h" "o" "output_0", .addRef "v" x2, .addCall "f" c1, .addCall "h" c4]
def frameWeak : CFrame := ((runOps {} buildWeak).toOption).getD {}
theorem wf_frameWeak : Wf (· ∈ recd4) frameWeak := wf_builds recOk4 wf_empty (builds_of (by decide +kernel : buildB recd4 {} buildWeak = some frameWeak))
end Ex

/-- Refutation for `how="weak"`: the call `h(y, x2)` is reached through `y`, but its other argument, which is in the same
variable of the result, is not. -/
theorem C58_refuted_weak : frameWeak.check = true ∧ (frameWeak.stream ["a"] .forward .weak).toOption.map (fun g => (g.vs, g.fs)) =
      some ([("a", ["x"]), ("v", ["y"]), ("o", ["w"])], [("f", ["c1"]), ("h", ["c4"])]) ∧
    (frameWeak.stream ["a"] .forward .weak).toOption.map check = some false ∧ (frameWeak.stream ["a"] .forward .strong).toOption.map check = some true := by
  decide +kernel

namespace Ex
/-- `y = f(x)`, `z = g(y)`, in a loop of two functions that is entered from two variables -/
def c5 : FCall := ⟨"c5", "g", [("a", y)], [("output_0", z)]⟩
def buildLoop : List FOp := [.addFunc "f", .addVar "v", .addEdge "v" "f" "a", .addVar "w", .addEdge "w" "f" "a", .addVar "o", .addEdge "f" "o" "output_0",
  .addFunc "g", .addEdge "o" "g" "a", .addEdge "g" "w" "output_0", .addCall "f" c1, .addCall "g" c5]
def frameLoop : CFrame := ((runOps {} buildLoop).toOption).getD {}
theorem wf_frameLoop : Wf (· ∈ [c1, c5]) frameLoop :=
  wf_builds (recOk_of (by decide +kernel)) wf_empty (builds_of (by decide +kernel : buildB [c1, c5] {} buildLoop = some frameLoop))
end Ex

/-- Refutation for `how="strong"` with two variables for the same argument: the value is reached in one of them only. -/
theorem C58_refuted_two_entries : frameLoop.check = true ∧ (frameLoop.stream ["v"] .forward .strong).toOption.map (fun g => (g.vs, g.fs)) =
      some ([("v", ["x"]), ("w", ["z"]), ("o", ["y"])], [("f", ["c1"]), ("g", ["c5"])]) ∧
    (frameLoop.stream ["v"] .forward .strong).toOption.map check = some false := by
  decide +kernel

/-- Refutation for differences, although `_binary_setwise_difference` ends with `drop_unreachable` to "fix the mess" (cf.py lines 863-865): taking
the values of a variable away leaves the calls that use them, because these calls now count as sources. -/
theorem C58_refuted_difference :
    let b := ((runOps {} [.addVar "a", .addRef "a" x]).toOption).getD {}
    frameF.check = true ∧ b.check = true ∧ (frameF.setwiseDiff b).toOption.map (fun g => (g.vs, g.fs)) = some ([("a", []), ("var_0", ["y"])], [("f", ["c1"])]) ∧
    (frameF.setwiseDiff b).toOption.map check = some false := by
  decide +kernel

end Verif.Props
