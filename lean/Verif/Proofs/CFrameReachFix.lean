import Mathlib.Data.List.Nodup
import Verif.Proofs.CFrameReachLoop
/-!
`get_reachable_elts` computes the least closed set of elements: passes over the nodes until nothing changes.
-/
namespace Verif

open Props

namespace CFrame

variable {R : FCall → Prop} {f : CFrame}

/-- What closedness asks for at the node `n`. -/
def Asks (f : CFrame) (dir : Side) (how : How) (P : String → String → Prop) (n y : String) : Prop :=
  ((f.IsVar n ∨ how = .weak) ∧ ∃ a x, P a x ∧ Linked f dir a x n y) ∨
  (how = .strong ∧ f.IsFunc n ∧ ∃ c, c.hid = y ∧ f.HasCall n y ∧ f.calls.get? y = some c ∧ CallReady f dir P n c)

theorem leadsTo_inside {dir : Side} {l a x b y : String} (h : LeadsTo f dir l a x b y) : f.HasRef b y ∨ f.HasCall b y := by
  cases dir <;> rcases h with ⟨_, h, _⟩ | ⟨_, h, _⟩
  · exact .inr h
  · exact .inl h
  · exact .inr h
  · exact .inl h

theorem adds_inside {dir : Side} {how : How} {P : String → String → Prop} {n y : String} (h : Asks f dir how P n y) :
    f.HasRef n y ∨ f.HasCall n y := by
  rcases h with ⟨_, a, x, _, l, _, h⟩ | ⟨_, _, c, _, h, _⟩
  · exact leadsTo_inside h
  · exact .inr h

theorem CallReady.mono {dir : Side} {P Q : String → String → Prop} (h : ∀ a x, P a x → Q a x) {n : String} {c : FCall}
    (hc : CallReady f dir P n c) : CallReady f dir Q n c :=
  ⟨hc.1, fun p hp hv => let ⟨v, hj, hx⟩ := hc.2 p hp hv; ⟨v, hj, h _ _ hx⟩⟩

theorem Asks.mono {dir : Side} {how : How} {P Q : String → String → Prop} (h : ∀ a x, P a x → Q a x) {n y : String}
    (ha : Asks f dir how P n y) : Asks f dir how Q n y := by
  rcases ha with ⟨h1, a, x, hp, hl⟩ | ⟨h1, h2, c, h3, h4, h5, h6⟩
  · exact .inl ⟨h1, a, x, h _ _ hp, hl⟩
  · exact .inr ⟨h1, h2, c, h3, h4, h5, h6.mono h⟩

/-- Closed sets are those with everything that closedness asks for. -/
theorem reachClosed_iff {dir : Side} {how : How} {init : SetDict} {P : String → String → Prop} :
    ReachClosed f dir how init P ↔ (∀ n x, InSet init n x → P n x) ∧ ∀ n y, (f.IsVar n ∨ f.IsFunc n) → Asks f dir how P n y → P n y := by
  constructor
  · intro C
    refine ⟨C.start, fun n y hn ha => ?_⟩
    rcases ha with ⟨h1, a, x, hp, hl⟩ | ⟨h1, h2, c, rfl, h4, h5, h6⟩
    · rcases h1 with h1 | h1
      · exact C.values a x n y hp hl h1
      · rcases hn with hn | hn
        · exact C.values a x n y hp hl hn
        · exact C.weak h1 a x n y hp hl hn
    · exact C.strong h1 n c h4 h5 h6
  · rintro ⟨h1, h2⟩
    refine ⟨h1, ?_, ?_, ?_⟩
    · intro a x v y hp hl hv
      exact h2 v y (.inl hv) (.inl ⟨.inl hv, a, x, hp, hl⟩)
    · intro hw a x n y hp hl hn
      exact h2 n y (.inr hn) (.inl ⟨.inr hw, a, x, hp, hl⟩)
    · intro hs n c hn hc hr
      exact h2 n c.hid (.inr hn.key) (.inr ⟨hs, hn.key, c, rfl, hn, hc, hr⟩)

theorem toAdd_spec (hR : RecOk R) (H : Wf R f) (L : LabelsOk f) (dir : Side) (how : How) {r : SetDict} (hr : Inside f r) {n : String}
    (hn : n ∈ f.nodes) : ∃ new, f.toAdd dir how r n = .ok new ∧ (∀ y ∈ new, Asks f dir how (InSet r) n y) ∧
      ∀ y, Asks f dir how (InSet r) n y → y ∈ new ∨ InSet r n y := by
  obtain ⟨ys, h1, h2⟩ := adjFrom_ok hR H L hr (dir := dir) (n := n)
  unfold toAdd
  dsimp only
  by_cases hv : f.IsVar n
  · rw [if_pos (Dict.has_iff.2 hv)]
    refine ⟨ys, h1, fun y hy => .inl ⟨.inl hv, (h2 y).1 hy⟩, fun y hy => ?_⟩
    rcases hy with ⟨_, hy⟩ | ⟨_, hf, _⟩
    · exact .inl ((h2 y).2 hy)
    · exact absurd hf (H.graph.disj n hv)
  · rw [if_neg (by rw [Dict.has_iff]; exact hv)]
    have hf : f.IsFunc n := (mem_nodes.1 hn).resolve_left hv
    cases how with
    | weak =>
      refine ⟨ys, h1, fun y hy => .inl ⟨.inr rfl, (h2 y).1 hy⟩, fun y hy => ?_⟩
      rcases hy with ⟨_, hy⟩ | ⟨h, _⟩
      · exact .inl ((h2 y).2 hy)
      · cases h
    | strong =>
      obtain ⟨cs, hcs⟩ := Dict.mem_keys.1 hf
      have key : ∀ (hs : List String), (∀ h ∈ hs, f.HasCall n h ∧ ¬ InSet r n h) → ∀ acc, ∃ new,
          hs.foldlM (fun acc h => do
            let b ← f.stronglyReachable r n h (f.edgesAt dir n) dir
            .ok (if b then PySet.add acc h else acc)) acc = .ok new ∧
          ∀ y, y ∈ new ↔ y ∈ acc ∨ (y ∈ hs ∧ ∃ c, f.calls.get? y = some c ∧ CallReady f dir (InSet r) n c) := by
        intro hs
        induction hs with
        | nil => intro _ acc; exact ⟨acc, rfl, by simp⟩
        | cons h hs ih =>
          intro hhs acc
          obtain ⟨hc, hnr⟩ := hhs h (by simp)
          obtain ⟨c, hc', _⟩ := H.get_call hc
          obtain ⟨b, hb, hb'⟩ := stronglyReachable_spec hR H (dir := dir) hc' hnr
          obtain ⟨new, h3, h4⟩ := ih (fun x hx => hhs x (by simp [hx])) (if b then PySet.add acc h else acc)
          refine ⟨new, ?_, fun y => ?_⟩
          · rw [List.foldlM_cons]
            simp only [hb, bind, Except.bind] at h3 ⊢
            exact h3
          · have hm : y ∈ (if b = true then PySet.add acc h else acc) ↔ y ∈ acc ∨ (y = h ∧ b = true) := by
              cases b
              · simp
              · simp [PySet.mem_add]
            rw [h4, hm, List.mem_cons, or_assoc]
            refine or_congr Iff.rfl ?_
            constructor
            · rintro (⟨rfl, h⟩ | ⟨h, h'⟩)
              · exact ⟨.inl rfl, c, hc', hb'.1 h⟩
              · exact ⟨.inr h, h'⟩
            · rintro ⟨rfl | h, c', h1, h2⟩
              · rw [hc'] at h1; cases h1
                exact .inl ⟨rfl, hb'.2 h2⟩
              · exact .inr ⟨h, c', h1, h2⟩
      obtain ⟨new, h3, h4⟩ := key (PySet.diff cs (getOr r n)) (fun h hh => by
        rw [PySet.mem_diff, mem_getOr] at hh
        exact ⟨(inSet_iff_mem hcs).2 hh.1, hh.2⟩) []
      refine ⟨new, ?_, fun y hy => ?_, fun y hy => ?_⟩
      · simp only [getE_ok.2 hcs, bind, Except.bind] at h3 ⊢
        exact h3
      · rcases (h4 y).1 hy with h | ⟨h, c, hc, hrd⟩
        · cases h
        · rw [PySet.mem_diff] at h
          exact .inr ⟨rfl, hf, c, (H.call.callOk y c hc).1, (inSet_iff_mem hcs).2 h.1, hc, hrd⟩
      · rcases hy with ⟨h | h, _⟩ | ⟨_, _, c, _, hy, hc, hrd⟩
        · exact absurd h hv
        · cases h
        · by_cases hin : InSet r n y
          · exact .inr hin
          · refine .inl ((h4 y).2 (.inr ⟨?_, c, hc, hrd⟩))
            rw [PySet.mem_diff, mem_getOr]
            exact ⟨(inSet_iff_mem hcs).1 hy, hin⟩

/-! ### the pass over all nodes -/

theorem pass_spec (hR : RecOk R) (H : Wf R f) (L : LabelsOk f) (dir : Side) (how : How) : ∀ (ns : List String), (∀ n ∈ ns, n ∈ f.nodes) →
    ∀ {r : SetDict}, Inside f r → ∃ r', ns.foldlM (fun r n => do
      let new ← f.toAdd dir how r n
      .ok (r.set n (PySet.union new (getOr r n)))) r = .ok r' ∧ Inside f r' ∧ (∀ n x, InSet r n x → InSet r' n x) ∧
      (∀ P : String → String → Prop, (∀ n y, (f.IsVar n ∨ f.IsFunc n) → Asks f dir how P n y → P n y) → (∀ n x, InSet r n x → P n x) → ∀ n x, InSet r' n x → P n x) ∧
      ((∀ n x, InSet r' n x → InSet r n x) → ∀ n ∈ ns, ∀ y, Asks f dir how (InSet r) n y → InSet r n y) ∧
      ∀ k, k ∈ r'.keys ↔ k ∈ ns ∨ k ∈ r.keys := by
  intro ns
  induction ns with
  | nil =>
    intro _ r hr
    exact ⟨r, rfl, hr, fun _ _ h => h, fun P _ h => h, (fun _ n h => (by cases h)), by simp⟩
  | cons n ns ih =>
    intro hns r hr
    have hn := hns n (by simp)
    obtain ⟨new, h1, h2, h3⟩ := toAdd_spec hR H L dir how hr hn
    have hset : ∀ m x, InSet (r.set n (PySet.union new (getOr r n))) m x ↔ InSet r m x ∨ (m = n ∧ x ∈ new) := by
      intro m x
      rw [inSet_set]
      by_cases e : n = m
      · subst e
        rw [if_pos rfl, PySet.mem_union, mem_getOr]
        simp [or_comm]
      · rw [if_neg e]
        simp [Ne.symm e]
    have hr1 : Inside f (r.set n (PySet.union new (getOr r n))) := by
      intro m x hx
      rcases (hset m x).1 hx with h | ⟨rfl, h⟩
      · exact hr m x h
      · exact adds_inside (h2 x h)
    obtain ⟨r', h4, h5, h6, h7, h8, h9⟩ := ih (fun x hx => hns x (by simp [hx])) hr1
    refine ⟨r', ?_, h5, ?_, ?_, ?_, ?_⟩
    · rw [List.foldlM_cons]
      simp only [h1, bind, Except.bind] at h4 ⊢
      exact h4
    · intro m x hx
      exact h6 m x ((hset m x).2 (.inl hx))
    · intro P hP hPr
      refine h7 P hP ?_
      intro m x hx
      rcases (hset m x).1 hx with h | ⟨rfl, h⟩
      · exact hPr m x h
      · exact hP m x (mem_nodes.1 hn) ((h2 x h).mono hPr)
    · intro hback m hm y hy
      have same : ∀ a x, InSet (r.set n (PySet.union new (getOr r n))) a x → InSet r a x := fun a x hx => hback a x (h6 a x hx)
      rcases List.mem_cons.1 hm with rfl | hm
      · rcases h3 y hy with h | h
        · exact same m y ((hset m y).2 (.inr ⟨rfl, h⟩))
        · exact h
      · refine same m y (h8 ?_ m hm y (hy.mono fun a x hx => (hset a x).2 (.inl hx)))
        intro a x hx
        exact (hset a x).2 (.inl (hback a x hx))
    · intro k
      rw [h9, Dict.mem_keys_set, List.mem_cons]
      constructor
      · rintro (h | rfl | h)
        · exact .inl (.inr h)
        · exact .inl (.inl rfl)
        · exact .inr h
      · rintro ((rfl | h) | h)
        · exact .inr (.inl rfl)
        · exact .inl h
        · exact .inr (.inr h)

/-! ### counting -/

/-- All pairs (node, element) of a view. -/
def viewPairs (r : SetDict) : List (String × String) := (PySet.ofList r.keys).flatMap fun k => (PySet.ofList (getOr r k)).map fun x => (k, x)

theorem length_viewPairs (r : SetDict) : (viewPairs r).length = viewSize r := by
  unfold viewPairs viewSize setLen
  rw [List.length_flatMap]
  simp

theorem mem_viewPairs {r : SetDict} {p : String × String} : p ∈ viewPairs r ↔ InSet r p.1 p.2 := by
  unfold viewPairs
  simp only [List.mem_flatMap, List.mem_map, PySet.mem_ofList, mem_getOr]
  constructor
  · rintro ⟨k, _, x, hx, rfl⟩; exact hx
  · intro h; exact ⟨p.1, h.key, p.2, h, rfl⟩

theorem nodup_viewPairs (r : SetDict) : (viewPairs r).Nodup := by
  unfold viewPairs
  rw [List.nodup_flatMap]
  constructor
  · intro k _
    exact (PySet.nodup_ofList _).map fun _ _ h => by cases h; rfl
  · refine (PySet.nodup_ofList r.keys).imp fun {a b} hab => ?_
    intro p h1 h2
    obtain ⟨x, _, rfl⟩ := List.mem_map.1 h1
    obtain ⟨y, _, e⟩ := List.mem_map.1 h2
    exact hab (congrArg Prod.fst e).symm

theorem viewSize_le {r r' : SetDict} (h : ∀ n x, InSet r n x → InSet r' n x) : viewSize r ≤ viewSize r' := by
  rw [← length_viewPairs, ← length_viewPairs]
  exact nodup_subset_length (nodup_viewPairs r) fun p hp => mem_viewPairs.2 (h _ _ (mem_viewPairs.1 hp))

theorem of_viewSize_eq {r r' : SetDict} (h : ∀ n x, InSet r n x → InSet r' n x) (he : viewSize r' = viewSize r) :
    ∀ n x, InSet r' n x → InSet r n x := by
  rw [← length_viewPairs, ← length_viewPairs] at he
  have := nodup_subset_of_length (nodup_viewPairs r) (fun p hp => mem_viewPairs.2 (h _ _ (mem_viewPairs.1 hp))) (by omega)
  intro n x hx
  exact mem_viewPairs.1 (this (n, x) (mem_viewPairs.2 hx))

theorem inSet_allElts (H : Wf R f) {n x : String} : InSet f.allElts n x ↔ f.HasRef n x ∨ f.HasCall n x := by
  have hget : f.allElts.get? n = if n ∈ f.nodes then some ((f.setOf n).getD []) else none := get?_mapKeys _ _ _
  unfold InSet
  rw [hget]
  by_cases hn : n ∈ f.nodes
  · rw [if_pos hn]
    rcases mem_nodes.1 hn with h | h
    · obtain ⟨s, hs⟩ := Dict.mem_keys.1 h
      have hnf : f.fs.get? n = none := Dict.get?_eq_none.2 (H.graph.disj n h)
      simp [setOf, HasRef, HasCall, InSet, hnf, hs]
    · obtain ⟨s, hs⟩ := Dict.mem_keys.1 h
      have hnv : f.vs.get? n = none := Dict.get?_eq_none.2 fun h' => H.graph.disj n h' h
      simp [setOf, HasRef, HasCall, InSet, hnv, hs]
  · rw [if_neg hn]
    simp only [reduceCtorEq, false_and, exists_false, false_iff]
    rw [mem_nodes] at hn
    rintro (h | h)
    · exact hn (.inl (InSet.key h))
    · exact hn (.inr (InSet.key h))

/-! ### the loop -/

theorem reachLoop_spec (hR : RecOk R) (H : Wf R f) (L : LabelsOk f) (dir : Side) (how : How) : ∀ (k : Nat) {r : SetDict}, Inside f r →
    viewSize f.allElts < viewSize r + k → ∃ r', f.reachLoop dir how k r = .ok r' ∧ Inside f r' ∧ (∀ n x, InSet r n x → InSet r' n x) ∧
      (∀ P : String → String → Prop, (∀ n y, (f.IsVar n ∨ f.IsFunc n) → Asks f dir how P n y → P n y) → (∀ n x, InSet r n x → P n x) → ∀ n x, InSet r' n x → P n x) ∧
      (∀ n ∈ f.nodes, ∀ y, Asks f dir how (InSet r') n y → InSet r' n y) ∧ ∀ k, k ∈ r'.keys ↔ k ∈ f.nodes ∨ k ∈ r.keys := by
  intro k
  induction k with
  | zero =>
    intro r hr hk
    have : viewSize r ≤ viewSize f.allElts := viewSize_le fun n x hx => (inSet_allElts H).2 (hr n x hx)
    omega
  | succ k ih =>
    intro r hr hk
    obtain ⟨r', h1, h2, h3, h4, h5, h6⟩ := pass_spec hR H L dir how f.nodes (fun _ h => h) hr
    have h1' : f.reachPass dir how r = .ok r' := h1
    unfold reachLoop
    simp only [h1', bind, Except.bind]
    by_cases he : viewSize r' = viewSize r
    · rw [if_pos he]
      have back := of_viewSize_eq h3 he
      refine ⟨r', rfl, h2, h3, h4, ?_, h6⟩
      intro n hn y hy
      exact h3 n y (h5 back n hn y (hy.mono back))
    · rw [if_neg he]
      have := viewSize_le h3
      obtain ⟨r'', g1, g2, g3, g4, g5, g6⟩ := ih h2 (by omega)
      refine ⟨r'', g1, g2, fun n x hx => g3 n x (h3 n x hx), ?_, g5, ?_⟩
      · intro P hP hr n x hx
        exact g4 P hP (h4 P hP hr) n x hx
      · intro k
        rw [g6, h6]
        exact ⟨fun h => h.elim .inl id, .inr⟩

theorem reachableElts_spec (hR : RecOk R) (H : Wf R f) (L : LabelsOk f) (dir : Side) (how : How) {init : SetDict} (hi : Inside f init) :
    ∃ r, f.reachableElts init dir how = .ok r ∧ Inside f r ∧ ReachClosed f dir how init (InSet r) ∧
      (∀ P, ReachClosed f dir how init P → ∀ n x, InSet r n x → P n x) ∧ ∀ k, k ∈ r.keys ↔ k ∈ f.nodes ∨ k ∈ init.keys := by
  obtain ⟨r, h1, h2, h3, h4, h5, h6⟩ := reachLoop_spec hR H L dir how (viewSize f.allElts + 1) hi (by omega)
  have hpad : PySet.diff f.nodes r.keys = [] := by
    apply List.eq_nil_iff_forall_not_mem.2
    intro k hk
    rw [PySet.mem_diff] at hk
    exact hk.2 ((h6 k).2 (.inl hk.1))
  refine ⟨r, ?_, h2, ?_, ?_, h6⟩
  · unfold reachableElts
    simp only [h1, bind, Except.bind, hpad, List.foldl_nil]
  · rw [reachClosed_iff]
    exact ⟨h3, fun n y hn ha => h5 n (mem_nodes.2 hn) y ha⟩
  · intro P hP
    rw [reachClosed_iff] at hP
    exact h4 P hP.2 hP.1

end CFrame
end Verif
