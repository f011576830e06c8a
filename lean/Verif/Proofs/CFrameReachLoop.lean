import Verif.Proofs.CFrameReach
/-!
`get_reachable_elts` computes the least closed set of elements: the loop.
-/
namespace Verif

open Props

namespace CFrame

variable {R : FCall → Prop} {f : CFrame}

theorem mem_edgesAt {dir : Side} {n : String} {e : String × String × String} :
    e ∈ f.edgesAt dir n ↔ f.HasEdge e.1 e.2.1 e.2.2 ∧ endOf dir e = n := by
  obtain ⟨s, d, l⟩ := e
  cases dir
  · simp only [edgesAt, outEdges, endOf, PySet.mem_ofList, List.mem_filter, decide_eq_true_eq]
    rw [mem_edges]
  · simp only [edgesAt, inEdges, endOf, PySet.mem_ofList, List.mem_filter, decide_eq_true_eq]
    rw [mem_edges]

theorem joined_iff {dir : Side} {v n l : String} : Joined f dir v n l ↔ ∃ e ∈ f.edgesAt dir n, startOf dir e = v ∧ e.2.2 = l := by
  simp only [mem_edgesAt]
  cases dir
  · constructor
    · intro h; exact ⟨(n, v, l), ⟨h, rfl⟩, rfl, rfl⟩
    · rintro ⟨⟨s, d, l'⟩, ⟨h, rfl⟩, rfl, rfl⟩; exact h
  · constructor
    · intro h; exact ⟨(v, n, l), ⟨h, rfl⟩, rfl, rfl⟩
    · rintro ⟨⟨s, d, l'⟩, ⟨h, rfl⟩, rfl, rfl⟩; exact h

theorem adjFrom_spec (hR : RecOk R) (H : Wf R f) (L : LabelsOk f) {dir : Side} {r : SetDict} (hr : Inside f r) {n : String} :
    ∀ (es : List (String × String × String)), (∀ e ∈ es, e ∈ f.edgesAt dir n) → ∀ acc, ∃ ys,
    es.foldlM (fun acc e => do
      let hs ← f.adjEltsEdge e (getOr r (startOf dir e)) dir
      .ok (PySet.union acc hs)) acc = .ok ys ∧
    ∀ y, y ∈ ys ↔ y ∈ acc ∨ ∃ e ∈ es, ∃ x, InSet r (startOf dir e) x ∧ LeadsTo f dir e.2.2 (startOf dir e) x n y := by
  intro es
  induction es with
  | nil => intro _ acc; exact ⟨acc, rfl, by simp⟩
  | cons e es ih =>
    intro hes acc
    obtain ⟨he, hend⟩ := mem_edgesAt.1 (hes e (by simp))
    obtain ⟨s, d, l⟩ := e
    obtain ⟨hs, h1, h2⟩ := adjEltsEdge_spec hR H L he (dir := dir) (hids := getOr r (startOf dir (s, d, l))) (fun x hx => hr _ _ (mem_getOr.1 hx))
    obtain ⟨ys, h3, h4⟩ := ih (fun e h => hes e (by simp [h])) (PySet.union acc hs)
    refine ⟨ys, ?_, ?_⟩
    · rw [List.foldlM_cons]
      simp only [h1, bind, Except.bind] at h3 ⊢
      exact h3
    · intro y
      rw [h4, PySet.mem_union, h2]
      rw [show endOf dir ((s, d, l).1, (s, d, l).2.1, (s, d, l).2.2) = n from hend]
      simp only [List.mem_cons, exists_eq_or_imp, mem_getOr, or_assoc]

theorem adjFrom_ok (hR : RecOk R) (H : Wf R f) (L : LabelsOk f) {dir : Side} {r : SetDict} (hr : Inside f r) {n : String} :
    ∃ ys, f.adjFrom r dir (f.edgesAt dir n) = .ok ys ∧ ∀ y, y ∈ ys ↔ ∃ a x, InSet r a x ∧ Linked f dir a x n y := by
  obtain ⟨ys, h1, h2⟩ := adjFrom_spec hR H L hr (n := n) (f.edgesAt dir n) (fun _ h => h) []
  refine ⟨ys, h1, fun y => (h2 y).trans ?_⟩
  constructor
  · rintro (h | ⟨e, he, x, hx, hl⟩)
    · cases h
    · exact ⟨_, x, hx, e.2.2, joined_iff.2 ⟨e, he, rfl, rfl⟩, hl⟩
  · rintro ⟨a, x, hx, l, hj, hl⟩
    obtain ⟨e, he, rfl, rfl⟩ := joined_iff.1 hj
    exact .inr ⟨e, he, x, hx, hl⟩

/-! ### strong reachability of a call -/

theorem ioRefs_nodup (hR : RecOk R) {c : FCall} (hc : R c) (dir : Side) : (ioRefs dir c).keys.Nodup := by
  cases dir
  · exact hR.outputs c hc
  · exact hR.inputs c hc

theorem stronglyReachable_spec (hR : RecOk R) (H : Wf R f) {dir : Side} {r : SetDict} {n h : String} {c : FCall}
    (hc : f.calls.get? h = some c) (hn : ¬ InSet r n h) :
    ∃ b, f.stronglyReachable r n h (f.edgesAt dir n) dir = .ok b ∧ (b = true ↔ CallReady f dir (InSet r) n c) := by
  obtain ⟨_, rc⟩ := H.call.callOk h c hc
  have hnd := ioRefs_nodup hR rc dir
  generalize hio : ioRefs dir c = io at hnd
  generalize hes : f.edgesAt dir n = es
  let m : Dict String String := io.map fun p => (p.1, nameProj c.op p.1)
  let ls : Dict String (List String) := restrict (invertDict m) (es.map (·.2.2))
  have hlabels : ∀ l ns, ls.get? l = some ns ↔ (∃ e ∈ es, e.2.2 = l) ∧ l ∈ m.vals ∧ ns = (m.filter fun p => decide (p.2 = l)).map (·.1) := by
    intro l ns
    simp only [ls]
    rw [get?_restrict, C55_invert_groups_keys]
    by_cases h1 : l ∈ es.map (·.2.2)
    · have h1' : ∃ e ∈ es, e.2.2 = l := by simpa using h1
      rw [if_pos h1]
      by_cases h2 : l ∈ m.vals
      · rw [if_pos h2]
        simp only [Option.some.injEq, h1', h2, true_and]
        exact eq_comm
      · rw [if_neg h2]; simp [h2]
    · have h1' : ¬ ∃ e ∈ es, e.2.2 = l := by simpa using h1
      rw [if_neg h1]
      simp [h1']
  -- the names that have to be found
  let rel : List String := (io.filter fun p => decide (nameProj c.op p.1 ∈ es.map (·.2.2))).map (·.1)
  have hrel : ∀ nm, nm ∈ rel ↔ ∃ p ∈ io, p.1 = nm ∧ ∃ e ∈ es, e.2.2 = nameProj c.op nm := by
    intro nm
    simp only [rel, List.mem_map, List.mem_filter, decide_eq_true_eq]
    constructor
    · rintro ⟨p, ⟨hp, e, he, hl⟩, rfl⟩
      exact ⟨p, hp, rfl, e, he, hl⟩
    · rintro ⟨p, hp, rfl, e, he, hl⟩
      exact ⟨p, ⟨hp, e, he, hl⟩, rfl⟩
  have hreln : rel.Nodup := by
    have : rel.Sublist io.keys := List.filter_sublist.map _
    exact this.nodup hnd
  have hm : ∀ q, q ∈ m ↔ ∃ p ∈ io, q = (p.1, nameProj c.op p.1) := by
    intro q
    simp only [m, List.mem_map]
    exact ⟨fun ⟨p, hp, e⟩ => ⟨p, hp, e.symm⟩, fun ⟨p, hp, e⟩ => ⟨p, hp, e.symm⟩⟩
  have htotal : ((PySet.ofList ls.keys).map fun l => (getOr ls l).length).sum = rel.length := by
    have h1 : ((PySet.ofList ls.keys).map fun l => (getOr ls l).length) =
        (PySet.ofList ls.keys).map fun l => (m.filter fun p => decide (p.2 = l)).length := by
      refine List.map_congr_left fun l hl => ?_
      rw [PySet.mem_ofList] at hl
      obtain ⟨ns, hns⟩ := Dict.mem_keys.1 hl
      rw [getOr, hns]
      rw [((hlabels l ns).1 hns).2.2]
      simp
    rw [h1, sum_groups m (PySet.nodup_ofList _)]
    simp only [m, rel, List.filter_map, List.length_map]
    congr 1
    refine List.filter_congr fun p hp => ?_
    rw [Function.comp_apply, decide_eq_decide, PySet.mem_ofList, Dict.mem_keys]
    simp only [hlabels]
    constructor
    · rintro ⟨ns, ⟨e, he, hl⟩, _⟩
      exact List.mem_map.2 ⟨e, he, hl⟩
    · intro h
      obtain ⟨e, he, hl⟩ := List.mem_map.1 h
      refine ⟨_, ⟨e, he, hl⟩, ?_, rfl⟩
      exact List.mem_map.2 ⟨(p.1, nameProj c.op p.1), (hm _).2 ⟨p, hp, rfl⟩, rfl⟩
  -- the names found
  let step : List String → String × String × String → List String := fun found e =>
    match ls.get? e.2.2 with
    | none => found
    | some names => PySet.union found (names.filter fun nm => (io.get? nm).any fun x => x.hid ∈ getOr r (startOf dir e))
  have hfound : ∀ (es' : List (String × String × String)), (∀ e ∈ es', e ∈ es) → ∀ acc, acc.Nodup →
      (es'.foldl step acc).Nodup ∧
      ∀ nm, nm ∈ es'.foldl step acc ↔ nm ∈ acc ∨ ∃ e ∈ es', ∃ p ∈ io, p.1 = nm ∧ nameProj c.op nm = e.2.2 ∧ InSet r (startOf dir e) p.2.hid := by
    intro es'
    induction es' with
    | nil => intro _ acc ha; exact ⟨ha, by simp⟩
    | cons e es' ih =>
      intro he' acc ha
      have hstep : (step acc e).Nodup ∧ ∀ nm, nm ∈ step acc e ↔ nm ∈ acc ∨
          ∃ p ∈ io, p.1 = nm ∧ nameProj c.op nm = e.2.2 ∧ InSet r (startOf dir e) p.2.hid := by
        simp only [step]
        cases hl : ls.get? e.2.2 with
        | none =>
          refine ⟨ha, fun nm => ⟨.inl, ?_⟩⟩
          rintro (h | ⟨p, hp, rfl, hpl, _⟩)
          · exact h
          · exfalso
            have := (hlabels e.2.2 _).2 ⟨⟨e, he' e (by simp), rfl⟩, List.mem_map.2 ⟨(p.1, nameProj c.op p.1), (hm _).2 ⟨p, hp, rfl⟩, hpl⟩, rfl⟩
            rw [hl] at this
            cases this
        | some names =>
          refine ⟨PySet.nodup_union ha _, fun nm => ?_⟩
          dsimp only
          rw [PySet.mem_union, List.mem_filter, ((hlabels _ _).1 hl).2.2]
          refine or_congr Iff.rfl ?_
          simp only [List.mem_map, List.mem_filter, decide_eq_true_eq, hm]
          constructor
          · rintro ⟨⟨q, ⟨⟨p, hp, rfl⟩, hq⟩, rfl⟩, hany⟩
            dsimp only at hq hany ⊢
            rw [(Dict.get?_eq_some_iff hnd).2 hp] at hany
            exact ⟨p, hp, rfl, hq, mem_getOr.1 (by simpa using hany)⟩
          · rintro ⟨p, hp, rfl, hpl, hx⟩
            refine ⟨⟨(p.1, nameProj c.op p.1), ⟨⟨p, hp, rfl⟩, hpl⟩, rfl⟩, ?_⟩
            rw [(Dict.get?_eq_some_iff hnd).2 hp]
            simpa using mem_getOr.2 hx
      obtain ⟨h1, h2⟩ := ih (fun e h => he' e (by simp [h])) (step acc e) hstep.1
      refine ⟨h1, fun nm => ?_⟩
      rw [List.foldl_cons, h2, hstep.2]
      simp only [List.mem_cons, exists_eq_or_imp, or_assoc]
  obtain ⟨fnd, hf⟩ := hfound es (fun _ h => h) [] (by simp)
  have hsub : ∀ nm ∈ es.foldl step [], nm ∈ rel := by
    intro nm hnm
    rcases (hf nm).1 hnm with h | ⟨e, he, p, hp, e1, hl, _⟩
    · cases h
    · exact (hrel nm).2 ⟨p, hp, e1, e, he, hl.symm⟩
  have hready : CallReady f dir (InSet r) n c ↔ rel ≠ [] ∧ ∀ nm ∈ rel, nm ∈ es.foldl step [] := by
    unfold CallReady
    rw [hio]
    simp only [joined_iff, hes]
    constructor
    · rintro ⟨⟨p, hp, v, e, he, hv, hl⟩, h2⟩
      refine ⟨List.ne_nil_of_mem ((hrel p.1).2 ⟨p, hp, rfl, e, he, hl⟩), fun nm hnm => ?_⟩
      obtain ⟨p, hp, rfl, e, he, hl⟩ := (hrel nm).1 hnm
      obtain ⟨v, ⟨e', he', rfl, hl'⟩, hx⟩ := h2 p hp ⟨_, e, he, rfl, hl⟩
      exact (hf p.1).2 (.inr ⟨e', he', p, hp, rfl, hl'.symm, hx⟩)
    · rintro ⟨h1, h2⟩
      constructor
      · obtain ⟨nm, hnm⟩ := List.exists_mem_of_ne_nil _ h1
        obtain ⟨p, hp, rfl, e, he, hl⟩ := (hrel nm).1 hnm
        exact ⟨p, hp, _, e, he, rfl, hl⟩
      · rintro p hp ⟨v, e, he, rfl, hl⟩
        rcases (hf p.1).1 (h2 p.1 ((hrel p.1).2 ⟨p, hp, rfl, e, he, hl⟩)) with h | ⟨e', he', p', hp', e1, hl', hx⟩
        · cases h
        · have : p' = p := by
            have a := (Dict.get?_eq_some_iff hnd).2 hp
            have b := (Dict.get?_eq_some_iff hnd).2 hp'
            rw [e1, a] at b
            exact Prod.ext e1 (Option.some.inj b).symm
          subst this
          exact ⟨_, ⟨e', he', rfl, hl'.symm⟩, hx⟩
  unfold stronglyReachable
  simp only [getE_ok.2 hc, bind, Except.bind, hio]
  have hin : h ∉ getOr r n := fun h' => hn (mem_getOr.1 h')
  have htot' : ((PySet.ofList (restrict (invertDict (io.map fun p => (p.1, nameProj c.op p.1))) (es.map fun x => x.2.2)).keys).map
      fun l => (getOr (restrict (invertDict (io.map fun p => (p.1, nameProj c.op p.1))) (es.map fun x => x.2.2)) l).length).sum = rel.length := htotal
  rw [htot']
  by_cases h0 : rel.length = 0
  · rw [if_pos ⟨h0, hin⟩]
    refine ⟨false, rfl, ?_⟩
    rw [hready]
    simp [List.length_eq_zero_iff.1 h0]
  · rw [if_neg fun h => h0 h.1]
    refine ⟨_, rfl, ?_⟩
    rw [hready, decide_eq_true_eq]
    change (es.foldl step []).length = rel.length ↔ _
    constructor
    · intro hl
      exact ⟨fun h => h0 (by rw [h]; rfl), nodup_subset_of_length fnd hsub (by omega)⟩
    · rintro ⟨_, h2⟩
      have := nodup_subset_length fnd hsub
      have := nodup_subset_length hreln h2
      omega

end CFrame
end Verif
