import Verif.Proofs.CFrameJoint
import Verif.Props.FrameStream
import Verif.Props.Paths
/-!
The part of a frame between given nodes, and the table of the whole frame.
-/
namespace Verif

open Props CFrame

section
variable {R : FCall → Prop} {f : CFrame}

theorem keys_graphOf (f : CFrame) : (f.graphOf).keys = f.nodes := keys_mapKeys _ _

theorem edge_graphOf (G : GraphWf f) {a b : String} : f.graphOf.Edge a b ↔ f.Next a b := by
  unfold Graph.Edge Graph.nbrs graphOf
  rw [get?_mapKeys]
  have hb : b ∈ PySet.ofList ((f.edges.filter fun e => e.1 = a).map (·.2.1)) ↔ f.Next a b := by
    rw [PySet.mem_ofList, List.mem_map]
    constructor
    · rintro ⟨e, he, rfl⟩
      obtain ⟨h1, h2⟩ := List.mem_filter.1 he
      simp only [decide_eq_true_eq] at h2
      subst h2
      exact ⟨_, mem_edges'.1 h1⟩
    · rintro ⟨l, hl⟩
      exact ⟨(a, b, l), List.mem_filter.2 ⟨mem_edges.2 hl, by simp⟩, rfl⟩
  split
  · exact hb
  · rename_i hn
    simp only [Option.getD_none, List.not_mem_nil, false_iff]
    rintro ⟨l, hl⟩
    apply hn
    rw [mem_nodes]
    rcases G.bip _ _ _ hl with h | h
    · exact .inl h.1
    · exact .inr h.1

theorem edge_graphOf_eq (G : GraphWf f) : f.graphOf.Edge = f.Next := funext fun _ => funext fun _ => propext (edge_graphOf G)

theorem walk_of_star {E : String → String → Prop} {a b : String} (h : Star E a b) : ∃ q, Walk E a q b := by
  induction h with
  | refl => exact ⟨[], .nil⟩
  | tail _ hr ih =>
    obtain ⟨q, hq⟩ := ih
    exact ⟨q ++ [_], walk_append hq (.cons hr .nil)⟩

/-- The nodes on a walk, if it is not empty. -/
theorem walk_nodes {E : String → String → Prop} {a b : String} {q : List (String × String)} (h : Walk E a q b) {e : String × String} (he : e ∈ q) :
    Star E a e.1 ∧ E e.1 e.2 ∧ Star E e.2 b := by
  induction h with
  | nil => cases he
  | cons hab hw ih =>
    rcases List.mem_cons.1 he with rfl | he
    · exact ⟨.refl, hab, walk_star hw⟩
    · obtain ⟨h1, h2, h3⟩ := ih he
      exact ⟨.head hab h1, h2, h3⟩

theorem walk_last {E : String → String → Prop} {a b : String} {q : List (String × String)} (h : Walk E a q b) (hab : a ≠ b) : ∃ e ∈ q, e.2 = b := by
  induction h with
  | nil => exact absurd rfl hab
  | @cons x y z q' hxy hw ih =>
    by_cases hyz : y = z
    · exact ⟨(x, y), by simp, hyz⟩
    · obtain ⟨e, he, h⟩ := ih hyz
      exact ⟨e, by simp [he], h⟩

theorem walk_through {E : String → String → Prop} {a n b : String} (hab : a ≠ b) (h1 : Star E a n) (h2 : Star E n b) :
    ∃ q, Walk E a q b ∧ ∃ e ∈ q, e.1 = n ∨ e.2 = n := by
  rcases Star.head_cases h2 with rfl | ⟨c, hc, hcb⟩
  · obtain ⟨q, hq⟩ := walk_of_star h1
    obtain ⟨e, he, h⟩ := walk_last hq hab
    exact ⟨q, hq, e, he, .inr h⟩
  · obtain ⟨q1, w1⟩ := walk_of_star h1
    obtain ⟨q2, w2⟩ := walk_of_star hcb
    exact ⟨q1 ++ (n, c) :: q2, walk_append w1 (.cons hc w2), (n, c), by simp, .inl rfl⟩

theorem pathNodes_ok (G : GraphWf f) (hc : f.NoCycle) {fuel : Nat} (hf : f.graphOf.mentioned.length ≤ fuel) {ns : List String} (hns : ∀ n ∈ ns, f.IsVar n ∨ f.IsFunc n) :
    ∃ ms, f.pathNodes fuel ns = .ok ms ∧ ∀ n, n ∈ ms ↔ f.Between ns n := by
  have hac : f.graphOf.Acyclic := by
    intro a b hab
    rw [edge_graphOf_eq G] at hab ⊢
    exact hc a b hab
  have hex : ∀ a b, ∃ es, a ∈ ns → edgesInPaths f.graphOf fuel a b = some es ∧ ∀ e, e ∈ es ↔ ∃ q, SimplePath f.graphOf.Edge a q b ∧ e ∈ q := by
    intro a b
    by_cases ha : a ∈ ns
    · obtain ⟨es, h1, h2⟩ := C47_edges_on_simple_paths_partial f.graphOf hac a b (by rw [keys_graphOf]; exact mem_nodes.2 (hns a ha)) fuel hf
      exact ⟨es, fun _ => ⟨h1, h2⟩⟩
    · exact ⟨[], fun h => absurd h ha⟩
  let E : String × String → List (String × String) := fun p => Classical.choose (hex p.1 p.2)
  have hE : ∀ p : String × String, p.1 ∈ ns → edgesInPaths f.graphOf fuel p.1 p.2 = some (E p) ∧ ∀ e, e ∈ E p ↔ ∃ q, SimplePath f.graphOf.Edge p.1 q p.2 ∧ e ∈ q :=
    fun p => Classical.choose_spec (hex p.1 p.2)
  have hpairs : ∀ p : String × String, p ∈ (ns.flatMap fun a => (ns.filter (a ≠ ·)).map fun b => (a, b)) ↔ p.1 ∈ ns ∧ p.2 ∈ ns ∧ p.1 ≠ p.2 := by
    intro p
    simp only [List.mem_flatMap, List.mem_map, List.mem_filter, decide_eq_true_eq]
    constructor
    · rintro ⟨a, ha, b, ⟨hb, hab⟩, rfl⟩
      exact ⟨ha, hb, hab⟩
    · rintro ⟨h1, h2, h3⟩
      exact ⟨p.1, h1, p.2, ⟨h2, h3⟩, rfl⟩
  have hm : (ns.flatMap fun a => (ns.filter (a ≠ ·)).map fun b => (a, b)).mapM (fun p =>
      if p.1 ∈ f.nodes then ended (edgesInPaths f.graphOf fuel p.1 p.2) else (.error .keyError : Except Err (List (String × String)))) =
      .ok ((ns.flatMap fun a => (ns.filter (a ≠ ·)).map fun b => (a, b)).map E) := by
    refine mapM_ok fun p hp => ?_
    have hp1 := ((hpairs p).1 hp).1
    rw [if_pos (mem_nodes.2 (hns _ hp1)), (hE p hp1).1]
    rfl
  refine ⟨_, by unfold pathNodes; rw [hm]; rfl, fun n => ?_⟩
  rw [PySet.mem_ofList, List.mem_flatMap]
  constructor
  · rintro ⟨e, he, hn⟩
    obtain ⟨l, hl, he⟩ := List.mem_flatten.1 he
    obtain ⟨p, hp, rfl⟩ := List.mem_map.1 hl
    obtain ⟨h1, h2, h3⟩ := (hpairs p).1 hp
    obtain ⟨q, hq, heq⟩ := ((hE p h1).2 e).1 he
    have hw := hq.1
    rw [edge_graphOf_eq G] at hw
    obtain ⟨w1, w2, w3⟩ := walk_nodes hw heq
    refine ⟨p.1, h1, p.2, h2, h3, ?_⟩
    simp only [List.mem_cons, List.not_mem_nil, or_false] at hn
    rcases hn with rfl | rfl
    · exact ⟨w1, .head w2 w3⟩
    · exact ⟨.tail w1 w2, w3⟩
  · rintro ⟨a, ha, b, hb, hab, s1, s2⟩
    obtain ⟨q, hw, e, he, hn⟩ := walk_through hab s1 s2
    rw [← edge_graphOf_eq G] at hw
    refine ⟨e, List.mem_flatten.2 ⟨E (a, b), List.mem_map.2 ⟨(a, b), (hpairs _).2 ⟨ha, hb, hab⟩, rfl⟩, ((hE (a, b) ha).2 e).2 ⟨q, walk_simple hac hw, he⟩⟩, ?_⟩
    rcases hn with rfl | rfl <;> simp

theorem inSet_filter {d : SetDict} {ns : List String} {n x : String} : InSet (d.filter fun p => p.1 ∈ ns) n x ↔ n ∈ ns ∧ InSet d n x := by
  unfold InSet
  rw [get?_filter_keys d (· ∈ ns) n]
  by_cases h : n ∈ ns <;> simp [h]

/-- `midstream`: the nodes between the given ones, and what is reached in them from the elements of the given nodes that nothing
leads to. -/
theorem midstream_ok (hR : RecOk R) (H : Wf R f) (L : LabelsOk f) (hc : f.NoCycle) {fuel : Nat} (hf : f.graphOf.mentioned.length ≤ fuel) (how : How) {ns : List String}
    (hns : ∀ n ∈ ns, f.IsVar n ∨ f.IsFunc n) :
    ∃ ms k init r g, (∀ n, n ∈ ms ↔ f.Between ns n) ∧ (∀ n ∈ ms, n ∈ f.nodes) ∧ f.selectNodes ms = .ok k ∧ Wf R k ∧ LabelsOk k ∧
      (∀ n x, InSet init n x ↔ n ∈ ns ∧ (k.HasRef n x ∨ k.HasCall n x) ∧ ¬ ∃ a y, (k.HasRef a y ∨ k.HasCall a y) ∧ Linked k .forward a y n x) ∧
      Inside k r ∧ ReachClosed k .forward how init (InSet r) ∧ (∀ P, ReachClosed k .forward how init P → ∀ n x, InSet r n x → P n x) ∧
      f.midstream fuel ns how = .ok g ∧ k.selectSubsets r = .ok g ∧ (∀ n, n ∈ r.keys ↔ k.IsVar n ∨ k.IsFunc n) := by
  obtain ⟨ms, hms, hb⟩ := pathNodes_ok H.graph hc hf hns
  have hsub : ∀ n ∈ ms, n ∈ f.nodes := by
    intro n hn
    obtain ⟨a, ha, b, hb', hab, h1, h2⟩ := (hb n).1 hn
    rcases Star.head_cases h2 with rfl | ⟨c, ⟨l, hc⟩, _⟩
    · exact mem_nodes.2 (hns _ hb')
    · rw [mem_nodes]
      rcases H.graph.bip _ _ _ hc with h | h
      · exact .inl h.1
      · exact .inr h.1
  obtain ⟨k, hk⟩ := selectNodes_total hsub
  obtain ⟨_, S⟩ := selectNodes_ok hk
  have Wk := wf_selectNodes hsub S H
  have Lk := labelsOk_select L S H.consistent H.graph.sym hk
  obtain ⟨ends, he, hekey, hends⟩ := endElts_spec hR Wk Lk .forward
  have hinit : ∀ n x, InSet (ends.filter fun p => p.1 ∈ ns) n x ↔ n ∈ ns ∧ (k.HasRef n x ∨ k.HasCall n x) ∧
      ¬ ∃ a y, (k.HasRef a y ∨ k.HasCall a y) ∧ Linked k .forward a y n x := fun n x => by rw [inSet_filter, hends]
  obtain ⟨r, hr, hrin, hC, hleast, hkeys⟩ := reachableElts_spec hR Wk Lk .forward how (init := ends.filter fun p => p.1 ∈ ns)
    (fun n x h => ((hinit n x).1 h).2.1)
  have hkeys' : ∀ n, n ∈ r.keys ↔ k.IsVar n ∨ k.IsFunc n := by
    intro n
    rw [hkeys, mem_nodes]
    constructor
    · rintro (h | h)
      · exact h
      · obtain ⟨e, he, rfl⟩ := List.mem_map.1 h
        have := (hekey e.1).1 (List.mem_map.2 ⟨e, (List.mem_filter.1 he).1, rfl⟩)
        exact mem_nodes.1 this
    · exact .inl
  have hv : ∀ v h, k.IsVar v → InSet r v h → k.HasRef v h := fun v h hv hh => (hrin v h hh).elim id fun h' => absurd h'.key (Wk.graph.disj v hv)
  have hf : ∀ n h, k.IsFunc n → InSet r n h → k.HasCall n h := fun n h hv hh => (hrin n h hh).elim (fun h' => absurd hv (Wk.graph.disj n h'.key)) id
  obtain ⟨g, hg, _⟩ := C41_select_subsets_partial Wk hkeys' hv hf
  refine ⟨ms, k, _, r, g, hb, hsub, hk, Wk, Lk, hinit, hrin, hC, hleast, ?_, hg, hkeys'⟩
  unfold midstream
  simp only [hms, hk, he, hr, hg, bind, Except.bind]

/-- If no value is made from itself, everything is reached from the elements nothing leads to. -/
theorem all_reached (ha : Acyclic R) (H : Wf R f) {P : String → String → Prop} {init : SetDict}
    (hinit : ∀ n x, (f.HasRef n x ∨ f.HasCall n x) → (¬ ∃ a y, (f.HasRef a y ∨ f.HasCall a y) ∧ Linked f .forward a y n x) → InSet init n x)
    (C : ReachClosed f .forward .strong init P) : ∀ n x, f.HasRef n x ∨ f.HasCall n x → P n x := by
  obtain ⟨rank, hrk⟩ := ha
  have hcall : ∀ n c, f.HasCall n c.hid → f.calls.get? c.hid = some c →
      (∀ p ∈ c.inputs, ∀ v, f.HasEdge v n (nameProj c.op p.1) → P v p.2.hid) → P n c.hid := by
    intro n c hn hc hin
    by_cases hr : CallReady f .forward P n c
    · exact C.strong rfl n c hn hc hr
    · refine C.start _ _ (hinit n c.hid (.inr hn) ?_)
      rintro ⟨a, y, _, l, hj, hl⟩
      rcases hl with ⟨_, _, c', hc', p, hp, rfl, _⟩ | ⟨_, hr', _⟩
      · rw [hc] at hc'
        cases hc'
        exact hr ⟨⟨p, hp, a, hj⟩, fun q hq ⟨v, hv⟩ => ⟨v, hv, hin q hq v hv⟩⟩
      · exact H.graph.disj n hr'.key hn.key
  have hval : ∀ N v x, rank x < N → f.HasRef v x → P v x := by
    intro N
    induction N with
    | zero => intro v x h; omega
    | succ N ih =>
      intro v x hN hv
      by_cases hl : ∃ a y, (f.HasRef a y ∨ f.HasCall a y) ∧ Linked f .forward a y v x
      · obtain ⟨a, y, hay, l, hj, hl⟩ := hl
        rcases hl with ⟨_, hc, _⟩ | ⟨hfa, _, c, hc, p, hp, rfl, rfl⟩
        · exact absurd hc.key (H.graph.disj v hv.key)
        · have hay : f.HasCall a y := hay.elim (fun h => absurd hfa (H.graph.disj a h.key)) id
          have hcy := (H.call.callOk _ _ hc)
          obtain ⟨rfl, hRc⟩ := hcy
          refine C.values a c.hid v _ (hcall a c hay hc fun q hq w hw => ?_) ⟨_, hj, .inr ⟨hfa, hv, c, hc, p, hp, rfl, rfl⟩⟩ hv.key
          have hw' := (H.ins a c q w hq ⟨hay, hc, (H.graph.sym _ _ _).1 hw⟩).1
          have := hrk c hRc q hq p hp
          exact ih w _ (by omega) hw'
      · exact C.start _ _ (hinit v x (.inl hv) hl)
  intro n x h
  rcases h with h | h
  · exact hval _ n x (Nat.lt_succ_self _) h
  · obtain ⟨c, hc⟩ := Dict.mem_keys.1 ((H.call.calls x).2 ⟨n, h⟩)
    obtain ⟨rfl, _⟩ := H.call.callOk _ _ hc
    exact hcall n c h hc fun p hp v hv => hval _ v _ (Nat.lt_succ_self _) (H.ins n c p v hp ⟨h, hc, (H.graph.sym _ _ _).1 hv⟩).1

/-- The part of the frame between all of its nodes is all of it, if there are no isolated nodes. -/
theorem midstream_all (hR : RecOk R) (ha : Acyclic R) (H : Wf R f) (L : LabelsOk f) (hc : f.NoCycle) (hi : f.NoIsolated) {fuel : Nat}
    (hf : f.graphOf.mentioned.length ≤ fuel) {ns : List String} (hns : ∀ n, n ∈ ns ↔ f.IsVar n ∨ f.IsFunc n) :
    ∃ g, f.midstream fuel ns .strong = .ok g ∧ SameContent f g ∧ Wf R g ∧ LabelsOk g := by
  obtain ⟨ms, k, init, r, g, hb, hsub, hk, Wk, Lk, hinit, hrin, hC, _, hg, hsel, hkeys⟩ := midstream_ok hR H L hc hf .strong fun n hn => (hns n).1 hn
  have hms : ∀ n, f.IsVar n ∨ f.IsFunc n → n ∈ ms := by
    intro n hn
    have hnode : ∀ a b, f.Next a b → a ∈ ns ∧ b ∈ ns ∧ a ≠ b := by
      rintro a b ⟨l, hl⟩
      rcases H.graph.bip _ _ _ hl with h | h
      · exact ⟨(hns a).2 (.inl h.1), (hns b).2 (.inr h.2), fun e => H.graph.disj a h.1 (e ▸ h.2)⟩
      · exact ⟨(hns a).2 (.inr h.1), (hns b).2 (.inl h.2), fun e => H.graph.disj b h.2 (e ▸ h.1)⟩
    obtain ⟨m, hm | hm⟩ := hi n hn
    · obtain ⟨h1, h2, h3⟩ := hnode _ _ hm
      exact (hb n).2 ⟨n, h1, m, h2, h3, .refl, .single hm⟩
    · obtain ⟨h1, h2, h3⟩ := hnode _ _ hm
      exact (hb n).2 ⟨m, h1, n, h2, h3, .single hm, .refl⟩
  obtain ⟨_, S⟩ := selectNodes_ok hk
  have hall : ∀ n x, k.HasRef n x ∨ k.HasCall n x → InSet r n x := by
    refine all_reached ha Wk (fun n x h1 h2 => (hinit n x).2 ⟨(hns n).2 ?_, h1, h2⟩) hC
    rcases h1 with h | h
    · exact .inl ((S.vsKey n).1 h.key).1
    · exact .inr ((S.fsKey n).1 h.key).1
  obtain ⟨W, T⟩ := selectSubsets_ok hsel
  have Wg : Wf R g := by
    refine wf_subsets Wk W T ?_ ?_
    · intro n c p v hn ht
      rcases ht with ⟨hp, ht⟩ | ⟨hp, ht⟩
      · exact hall v _ (.inl (Wk.ins n c p v hp ht).1)
      · exact hall v _ (.inl (Wk.outs n c p v hp ht).1)
    · exact ⟨fun v h _ hv => hall v h (.inl hv), fun n h _ hn => hall n h (.inr hn)⟩
  have hkr : ∀ v h, k.IsVar v ∧ InSet r v h ↔ k.HasRef v h := by
    intro v h
    constructor
    · rintro ⟨h1, h2⟩
      exact (hrin v h h2).elim id fun h' => absurd h'.key (Wk.graph.disj v h1)
    · exact fun h' => ⟨h'.key, hall v h (.inl h')⟩
  have hkc : ∀ v h, k.IsFunc v ∧ InSet r v h ↔ k.HasCall v h := by
    intro v h
    constructor
    · rintro ⟨h1, h2⟩
      exact (hrin v h h2).elim (fun h' => absurd h1 (Wk.graph.disj v h'.key)) id
    · exact fun h' => ⟨h'.key, hall v h (.inr h')⟩
  have hvar : ∀ v, f.IsVar v ↔ g.IsVar v := fun v => (by
    unfold IsVar
    rw [T.vsKey, IsVar, S.vsKey]
    exact ⟨fun h => ⟨h, hms v (.inl h)⟩, fun h => h.1⟩)
  have hfun : ∀ v, f.IsFunc v ↔ g.IsFunc v := fun v => (by
    unfold IsFunc
    rw [T.fsKey, IsFunc, S.fsKey]
    exact ⟨fun h => ⟨h, hms v (.inr h)⟩, fun h => h.1⟩)
  have href : ∀ v h, f.HasRef v h ↔ g.HasRef v h := fun v h => (by
    unfold HasRef
    rw [T.vs, hkr, HasRef, S.vs]
    exact ⟨fun h => ⟨h, hms v (.inl h.key)⟩, fun h => h.1⟩)
  have hcal : ∀ v h, f.HasCall v h ↔ g.HasCall v h := fun v h => (by
    unfold HasCall
    rw [T.fs, hkc, HasCall, S.fs]
    exact ⟨fun h => ⟨h, hms v (.inr h.key)⟩, fun h => h.1⟩)
  have hedge : ∀ s d l, f.HasEdge s d l ↔ g.HasEdge s d l := fun s d l => (by
    unfold HasEdge
    rw [T.out, S.out]
    constructor
    · intro h
      refine ⟨h, ?_⟩
      rcases H.graph.bip _ _ _ h with h | h
      · exact ⟨hms _ (.inl h.1), hms _ (.inr h.2)⟩
      · exact ⟨hms _ (.inr h.1), hms _ (.inl h.2)⟩
    · exact fun h => h.1)
  have eqOpt : ∀ {α : Type} {a b : Option α}, (∀ x, a = some x ↔ b = some x) → a = b := by
    intro α a b h
    cases b with
    | some x => exact (h x).2 rfl
    | none =>
      cases a with
      | none => rfl
      | some x => exact absurd ((h x).1 rfl) (by simp)
  have hcalls : ∀ h, f.calls.get? h = g.calls.get? h := fun h => eqOpt fun c => (by
    rw [T.calls, S.calls]
    constructor
    · intro hc
      obtain ⟨n, hn⟩ := (H.call.calls h).1 (Dict.mem_keys.2 ⟨c, hc⟩)
      have hn' : k.HasCall n h := (S.fs n h).2 ⟨hn, hms n (.inr hn.key)⟩
      exact ⟨⟨hc, n, hn, hms n (.inr hn.key)⟩, n, hn'.key, hall n h (.inr hn')⟩
    · exact fun h => h.1.1)
  have hcreator : ∀ h, f.creator.get? h = g.creator.get? h := fun h => eqOpt fun c => (by
    rw [T.creator, S.creator]
    constructor
    · intro hc
      obtain ⟨⟨v, hv⟩, call, hcall, _⟩ := H.creator _ _ hc
      obtain ⟨n, hn⟩ := (H.call.calls c).1 (Dict.mem_keys.2 ⟨call, hcall⟩)
      have hn' : k.HasCall n c := (S.fs n c).2 ⟨hn, hms n (.inr hn.key)⟩
      have hv' : k.HasRef v h := (S.vs v h).2 ⟨hv, hms v (.inl hv.key)⟩
      exact ⟨⟨hc, ⟨v, hv, hms v (.inl hv.key)⟩, n, hn, hms n (.inr hn.key)⟩, ⟨v, hv'.key, hall v h (.inl hv')⟩, n, hn'.key, hall n c (.inr hn')⟩
    · exact fun h => h.1.1)
  refine ⟨g, hg, ⟨hvar, hfun, href, hcal, hedge, hcalls, hcreator⟩, Wg, ?_⟩
  intro s n l h c he hn hc hop
  exact L s n l h c ((hedge _ _ _).2 he) ((hcal _ _).2 hn) ((hcalls h).trans hc) hop

/-! ### more depth changes nothing -/

theorem mapM_more {α β : Type} {F G : α → Except Err β} {l : List α} {bs : List β} (h : ∀ a ∈ l, ∀ b, F a = .ok b → G a = .ok b) (hl : l.mapM F = .ok bs) :
    l.mapM G = .ok bs := by
  induction l generalizing bs with
  | nil => exact hl
  | cons a l ih =>
    rw [List.mapM_cons] at hl ⊢
    cases ha : F a with
    | error e => rw [ha] at hl; cases hl
    | ok b =>
      rw [ha] at hl
      rw [h a (by simp) b ha]
      cases hb : l.mapM F with
      | error e => simp only [hb, bind, Except.bind] at hl; cases hl
      | ok bs' =>
        rw [hb] at hl
        rw [ih (fun a ha => h a (by simp [ha])) hb]
        exact hl

theorem pathNodes_more {fuel fuel' : Nat} (hf : fuel ≤ fuel') {ns ms : List String} (h : f.pathNodes fuel ns = .ok ms) : f.pathNodes fuel' ns = .ok ms := by
  unfold pathNodes at h ⊢
  cases hm : (ns.flatMap fun a => (ns.filter (a ≠ ·)).map fun b => (a, b)).mapM (fun p =>
      if p.1 ∈ f.nodes then ended (edgesInPaths f.graphOf fuel p.1 p.2) else (.error .keyError : Except Err (List (String × String)))) with
  | error e => rw [hm] at h; cases h
  | ok es =>
    rw [hm] at h
    rw [mapM_more (F := fun p => if p.1 ∈ f.nodes then ended (edgesInPaths f.graphOf fuel p.1 p.2) else (.error .keyError : Except Err (List (String × String)))) ?_ hm]
    · exact h
    · intro p _ b hb
      by_cases hn : p.1 ∈ f.nodes
      · rw [if_pos hn] at hb ⊢
        unfold edgesInPaths at hb ⊢
        cases hd : pathDfs f.graphOf p.2 fuel p.1 [] ⟨[], []⟩ with
        | none => rw [hd] at hb; cases hb
        | some s =>
          rw [hd] at hb
          rw [pathDfs_mono_le hf hd]
          exact hb
      · rw [if_neg hn] at hb
        cases hb

theorem midstream_more {fuel fuel' : Nat} (hf : fuel ≤ fuel') {ns : List String} {how : How} {g : CFrame} (h : f.midstream fuel ns how = .ok g) :
    f.midstream fuel' ns how = .ok g := by
  unfold midstream at h ⊢
  cases hp : f.pathNodes fuel ns with
  | error e => rw [hp] at h; cases h
  | ok ms =>
    rw [hp] at h
    rw [pathNodes_more hf hp]
    exact h

/-! ### what is not used -/

theorem keys_of_mapM {α β : Type} {F : α → Except Err (α × β)} (hF : ∀ a b, F a = .ok b → b.1 = a) {l : List α} {d : List (α × β)} (h : l.mapM F = .ok d) :
    d.map (·.1) = l := by
  induction l generalizing d with
  | nil => cases h; rfl
  | cons a l ih =>
    rw [List.mapM_cons] at h
    cases ha : F a with
    | error e => rw [ha] at h; cases h
    | ok b =>
      rw [ha] at h
      cases hb : l.mapM F with
      | error e => rw [hb] at h; cases h
      | ok bs =>
        rw [hb] at h
        cases h
        rw [List.map_cons, ih hb, hF a b ha]

theorem sinkVars_ok (hR : RecOk R) (H : Wf R f) (L : LabelsOk f) : ∃ vs, f.sinkVars = .ok vs ∧ ∀ v, v ∈ vs ↔ ∃ x, f.Unused v x := by
  obtain ⟨ends, he, hekey, hends⟩ := endElts_spec hR H L .back
  have hkeys : ends.keys = f.nodes := by
    refine keys_of_mapM (fun n b hb => ?_) he
    cases hl : (f.edgesAt .back n).foldlM (fun acc e => do
        let hs ← f.adjEltsEdge e ((f.setOf (startOf .back e)).getD []) .back
        .ok (PySet.union acc hs)) [] with
    | error e => rw [hl] at hb; cases hb
    | ok l => rw [hl] at hb; cases hb; rfl
  have hnd : ends.keys.Nodup := hkeys ▸ nodup_nodes f
  refine ⟨_, by unfold sinkVars; rw [he]; rfl, fun v => ?_⟩
  have hun : ∀ x, f.Unused v x ↔ f.IsVar v ∧ InSet ends v x := by
    intro x
    rw [hends]
    constructor
    · rintro ⟨h1, h2⟩
      refine ⟨h1.key, .inl h1, ?_⟩
      rintro ⟨a, y, hay, l, hj, hl⟩
      rcases hl with ⟨_, hc, _⟩ | ⟨hfa, _, c, hc, p, hp, rfl, hpx⟩
      · exact H.graph.disj v h1.key hc.key
      · obtain ⟨rfl, _⟩ := H.call.callOk _ _ hc
        have hay : f.HasCall a c.hid := hay.elim (fun h => absurd hfa (H.graph.disj a h.key)) id
        exact h2 a c p hp hay hc hj hpx
    · rintro ⟨hv, h1, h2⟩
      have h1 : f.HasRef v x := h1.elim id fun h => absurd h.key (H.graph.disj v hv)
      exact ⟨h1, fun n c p hp hn hc he hpx => h2 ⟨n, c.hid, .inr hn, _, he, .inr ⟨hn.key, h1, c, hc, p, hp, rfl, hpx⟩⟩⟩
  simp only [List.mem_map, List.mem_filter, decide_eq_true_eq]
  constructor
  · rintro ⟨e, ⟨he, hv, hne⟩, rfl⟩
    obtain ⟨x, hx⟩ := List.exists_mem_of_ne_nil _ hne
    exact ⟨x, (hun x).2 ⟨hv, e.2, (Dict.get?_eq_some_iff hnd).2 he, hx⟩⟩
  · rintro ⟨x, hx⟩
    obtain ⟨hv, s, hs, hx⟩ := (hun x).1 hx
    exact ⟨(v, s), ⟨Dict.mem_of_get? hs, hv, List.ne_nil_of_mem hx⟩, rfl⟩

/-- Everything in the frame is in the history of a value that is not used. -/
theorem all_in_pasts (ha : Acyclic R) (H : Wf R f) (ho : f.OutputsShown) {k x : String} (h : f.HasRef k x ∨ f.HasCall k x) :
    ∃ v y, f.Unused v y ∧ f.Past true v y k x := by
  obtain ⟨rank, hrk⟩ := ha
  have hb : ∀ l : List String, ∃ N, ∀ h ∈ l, rank h < N := by
    intro l
    induction l with
    | nil => exact ⟨0, by simp⟩
    | cons h hs ih =>
      obtain ⟨N, hN⟩ := ih
      refine ⟨N + rank h + 1, ?_⟩
      intro x hx
      rcases List.mem_cons.1 hx with rfl | hx
      · omega
      · have := hN x hx; omega
  obtain ⟨N, hN⟩ := hb f.refs.keys
  have hval : ∀ d v x, N - rank x ≤ d → f.HasRef v x → ∃ w y, f.Unused w y ∧ f.Past true w y v x := by
    intro d
    induction d with
    | zero =>
      intro v x hd hv
      have := hN x ((H.ref.refs x).2 ⟨v, hv⟩)
      omega
    | succ d ih =>
      intro v x hd hv
      by_cases hu : f.Unused v x
      · exact ⟨v, x, hu, .refl⟩
      · have : ∃ n c p, p ∈ c.inputs ∧ f.HasCall n c.hid ∧ f.calls.get? c.hid = some c ∧ f.HasEdge v n (nameProj c.op p.1) ∧ p.2.hid = x := by
          refine Classical.byContradiction fun hn => hu ⟨hv, fun n c p hp hc hcc he hpx => hn ⟨n, c, p, hp, hc, hcc, he, hpx⟩⟩
        obtain ⟨n, c, p, hp, hn, hc, he, rfl⟩ := this
        obtain ⟨q, hq, w, hw⟩ := ho n c hn hc
        have hwr := (H.outs n c q w hq ⟨hn, hc, hw⟩).1
        have hlt := hrk c (H.call.callOk _ _ hc).2 p hp q hq
        have hwN := hN _ ((H.ref.refs _).2 ⟨w, hwr⟩)
        obtain ⟨w', y, hu', hpast⟩ := ih w q.2.hid (by omega) hwr
        exact ⟨w', y, hu', .tail hpast (.input ((C45_creator H).2 n c q w hq hn hc hw) hp he)⟩
  rcases h with h | h
  · exact hval _ k x (Nat.le_refl _) h
  · obtain ⟨c, hc⟩ := Dict.mem_keys.1 ((H.call.calls x).2 ⟨k, h⟩)
    obtain ⟨rfl, _⟩ := H.call.callOk _ _ hc
    obtain ⟨q, hq, w, hw⟩ := ho k c h hc
    obtain ⟨w', y, hu', hpast⟩ := hval _ w q.2.hid (Nat.le_refl _) (H.outs k c q w hq ⟨h, hc, hw⟩).1
    exact ⟨w', y, hu', .tail hpast (.call ((C45_creator H).2 k c q w hq h hc hw) rfl)⟩

/-! ### the same content, the same histories -/

theorem Props.SameContent.symm {f g : CFrame} (S : SameContent f g) : SameContent g f :=
  ⟨fun v => (S.isVar v).symm, fun v => (S.isFunc v).symm, fun v h => (S.hasRef v h).symm, fun v h => (S.hasCall v h).symm, fun a b l => (S.hasEdge a b l).symm,
    fun h => (S.calls h).symm, fun h => (S.creator h).symm⟩

theorem Props.SameContent.madeBy {f g : CFrame} (S : SameContent f g) {v h n : String} {c : FCall} (m : f.MadeBy v h n c) : g.MadeBy v h n c := by
  obtain ⟨h1, h2, h3, l, h4⟩ := m
  exact ⟨(S.creator _).symm.trans h1, (S.calls _).symm.trans h2, (S.hasCall _ _).1 h3, l, (S.hasEdge _ _ _).1 h4⟩

theorem Props.SameContent.madeFrom {f g : CFrame} (S : SameContent f g) {inc : Bool} {a b : String × String} (m : f.MadeFrom inc a b) : g.MadeFrom inc a b := by
  cases m with
  | input h1 h2 h3 => exact .input (S.madeBy h1) h2 ((S.hasEdge _ _ _).1 h3)
  | call h1 h2 => exact .call (S.madeBy h1) h2

theorem Props.SameContent.past_eq {f g : CFrame} (S : SameContent f g) : f.Past = g.Past := by
  funext inc v h k x
  have : f.MadeFrom inc = g.MadeFrom inc := funext fun a => funext fun b => propext ⟨S.madeFrom, S.symm.madeFrom⟩
  unfold Past
  rw [this]

theorem Props.SameContent.hasRef_eq {f g : CFrame} (S : SameContent f g) : f.HasRef = g.HasRef := funext fun v => funext fun h => propext (S.hasRef v h)

theorem Props.SameContent.pastNode_eq {f g : CFrame} (S : SameContent f g) : f.PastNode = g.PastNode := by
  funext inc v k
  unfold PastNode
  rw [S.hasRef_eq, S.past_eq]

theorem Props.SameContent.unused_eq {f g : CFrame} (S : SameContent f g) : f.Unused = g.Unused := by
  funext v x
  have h1 : f.HasCall = g.HasCall := funext fun v => funext fun h => propext (S.hasCall v h)
  have h2 : f.HasEdge = g.HasEdge := funext fun v => funext fun h => funext fun l => propext (S.hasEdge v h l)
  unfold Unused
  rw [S.hasRef_eq, h1, h2]
  simp only [S.calls]

/-! ### `df` -/

theorem row_select (cols : List String) (r : TRow) (k : String) : Dict.get? (r.filter fun p => p.1 ∈ cols) k = if k ∈ cols then Dict.get? r k else none :=
  get?_filter_keys r (· ∈ cols) k

theorem all2_map {α β : Type} {P : α → β → Prop} {F : α → β} (l : List α) (h : ∀ a ∈ l, P a (F a)) : All2 P l (l.map F) := by
  induction l with
  | nil => exact .nil
  | cons a l ih => exact .cons (h a (by simp)) (ih fun a ha => h a (by simp [ha]))

theorem dfOf_ok (hR : RecOk R) (ha : Acyclic R) {g : CFrame} (G : GraphWf f) (Wg : Wf R g) (Lg : LabelsOk g) {po : PyOrd} (hpo : po.Ok) {fuel : Nat} {ns : List String}
    (hns : ∀ n ∈ ns, f.IsVar n ∨ f.IsFunc n) (hm : f.midstream fuel ns .strong = .ok g)
    (hend : ∀ v h, g.HasRef v h → ∃ r, g.totalHistory po.dict true fuel v [h] none = .ok r) (objs : Bool) (lazyVars : List String) (inc : Bool) (how : Join) :
    ∃ vs, (∀ v, v ∈ vs ↔ ∃ x, g.Unused v x) ∧ (vs = [] → f.dfOf po fuel objs lazyVars inc how ns = .error .indexError) ∧ (vs ≠ [] →
      (∀ a, f.dfOf po fuel objs lazyVars inc how ns = .ok a → ∃ t, g.JointOf true how vs t ∧ ColsOf g inc ns t a.table ∧
        ∀ k, k ∈ a.loaded ↔ objs = true ∧ a.table.rows ≠ [] ∧ k ∈ a.table.cols ∧ k ∉ lazyVars ∧ g.IsVar k) ∧
      ((∃ k, ∀ v x, g.Unused v x → g.PastNode true v k) → ∃ a, f.dfOf po fuel objs lazyVars inc how ns = .ok a)) := by
  obtain ⟨vs, hvs, hmem⟩ := sinkVars_ok hR Wg Lg
  refine ⟨vs, hmem, ?_, fun hne => ?_⟩
  · rintro rfl
    obtain ⟨l, hl, _, hl'⟩ := sortIn_ok hpo Wg.graph []
    have : l = [] := List.eq_nil_iff_forall_not_mem.2 fun x hx => by simpa using (hl' x).1 hx
    subst this
    unfold dfOf jointHistory
    simp only [hm, hvs, hl, bind, Except.bind]
    rfl
  have hvar : ∀ v ∈ vs, g.IsVar v := fun v hv => ((hmem v).1 hv).elim fun x hx => hx.1.key
  obtain ⟨J1, J2⟩ := jointHistory_ok hR ha Wg Lg hpo how hvar hne hend
  have key : ∀ t, g.jointHistory po true fuel how vs = .ok t → ∃ a, f.dfOf po fuel objs lazyVars inc how ns = .ok a ∧ ColsOf g inc ns t a.table ∧
      ∀ k, k ∈ a.loaded ↔ objs = true ∧ a.table.rows ≠ [] ∧ k ∈ a.table.cols ∧ k ∉ lazyVars ∧ g.IsVar k := by
    intro t ht
    let t1 := if inc then t else t.select (t.cols.filter (· ∉ g.fs.keys))
    let t2 := t1.select (ns.filter (· ∈ t1.cols))
    have hc1 : ∀ k, k ∈ t1.cols ↔ k ∈ t.cols ∧ (inc = true ∨ ¬ g.IsFunc k) := by
      intro k
      cases inc with
      | true => simp [t1]
      | false => simp [t1, Table.select, IsFunc]
    have hc2 : ∀ k, k ∈ t2.cols ↔ k ∈ ns ∧ k ∈ t.cols ∧ (inc = true ∨ ¬ g.IsFunc k) := by
      intro k
      rw [← hc1]
      simp [t2, Table.select]
    have hr : All2 (fun (r r' : TRow) => ∀ k, r'.get? k = if k ∈ t2.cols then r.get? k else none) t.rows t2.rows := by
      cases inc with
      | true =>
        refine all2_map t.rows fun r _ k => ?_
        rw [row_select]
        rfl
      | false =>
        have : t2.rows = t.rows.map fun r => (r.filter fun p => p.1 ∈ t1.cols).filter fun p => p.1 ∈ t2.cols := by
          have : t1.rows = t.rows.map fun r => r.filter fun p => p.1 ∈ t1.cols := rfl
          show t1.rows.map _ = _
          rw [this, List.map_map]
          rfl
        rw [this]
        refine all2_map t.rows fun r _ k => ?_
        rw [row_select, row_select]
        by_cases hk : k ∈ t2.cols
        · rw [if_pos hk, if_pos hk, if_pos ((hc1 k).2 ((hc2 k).1 hk).2)]
        · rw [if_neg hk, if_neg hk]
    obtain ⟨t', h1, h2, h3, h4⟩ := sortTable_ok hpo G (t := t2) fun k hk => hns k ((hc2 k).1 hk).1
    refine ⟨⟨t', g.loadedCols t2 objs lazyVars⟩, ?_, ⟨h3, fun k => (h4 k).trans (hc2 k), ?_⟩, fun k => ?_⟩
    · unfold dfOf
      simp only [hm, hvs, ht, bind, Except.bind]
      simp only [t2, t1] at h1
      rw [h1]
    · simp only [h2, h4]
      exact hr
    · simp only [h2, h4]
      unfold loadedCols
      by_cases ho : objs = true ∧ t2.rows ≠ []
      · rw [if_pos ho]
        simp only [List.mem_filter, decide_eq_true_eq]
        exact ⟨fun h => ⟨ho.1, ho.2, h.1, h.2.1, h.2.2⟩, fun h => ⟨h.2.2.1, h.2.2.2.1, h.2.2.2.2⟩⟩
      · rw [if_neg ho]
        exact ⟨fun h => absurd h (by simp), fun h => absurd ⟨h.1, h.2.1⟩ ho⟩
  constructor
  · intro a h
    cases hj : g.jointHistory po true fuel how vs with
    | error e =>
      unfold dfOf at h
      simp only [hm, hvs, hj, bind, Except.bind] at h
      cases h
    | ok t =>
      obtain ⟨a', h1, h2, h3⟩ := key t hj
      rw [h] at h1
      cases h1
      exact ⟨t, J1 t hj, h2, h3⟩
  · rintro ⟨k, hk⟩
    obtain ⟨t, ht⟩ := J2 ⟨k, fun v hv => ((hmem v).1 hv).elim fun x hx => hk v x hx⟩
    obtain ⟨a, ha, _⟩ := key t ht
    exact ⟨a, ha⟩

end

end Verif
