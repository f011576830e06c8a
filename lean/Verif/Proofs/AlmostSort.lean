import Verif.Proofs.Scc
/-!
The super graph of the components, and the almost topological sort.
-/
namespace Verif

section
variable {K : Type} [DecidableEq K]

theorem foldl_set_spec {x : K} (i : Nat) (c : List K) : ∀ (d : Dict K Nat),
    (c.foldl (fun d n => d.set n i) d).get? x = if x ∈ c then some i else d.get? x := by
  induction c with
  | nil => simp
  | cons a c ih =>
    intro d
    rw [List.foldl_cons, ih, Dict.get?_set]
    simp only [List.mem_cons]
    by_cases h : x ∈ c
    · simp [h]
    · by_cases ha : a = x
      · simp [ha]
      · simp [h, ha, Ne.symm ha]

theorem nodeToScc_fold {x : K} (ps : List (List K × Nat)) : ∀ (d : Dict K Nat),
    ((∃ p ∈ ps, x ∈ p.1 ∧ (ps.foldl (fun d p => p.1.foldl (fun d n => d.set n p.2) d) d).get? x = some p.2) ∨
      (∀ p ∈ ps, x ∉ p.1) ∧ (ps.foldl (fun d p => p.1.foldl (fun d n => d.set n p.2) d) d).get? x = d.get? x) := by
  induction ps with
  | nil => simp
  | cons p ps ih =>
    intro d
    rw [List.foldl_cons]
    rcases ih (p.1.foldl (fun d n => d.set n p.2) d) with ⟨q, hq, h1, h2⟩ | ⟨h1, h2⟩
    · exact .inl ⟨q, List.mem_cons_of_mem _ hq, h1, h2⟩
    · rw [h2, foldl_set_spec]
      by_cases hx : x ∈ p.1
      · exact .inl ⟨p, by simp, hx, by simp [hx]⟩
      · refine .inr ⟨?_, by simp [hx]⟩
        intro q hq
        rcases List.mem_cons.1 hq with rfl | hq
        · exact hx
        · exact h1 q hq

/-- Every node of the components is mapped to the position of a component that contains it. -/
theorem nodeToScc_spec {cs : List (List K)} {x : K} (hx : x ∈ cs.flatten) :
    ∃ i c, (nodeToScc cs).get? x = some i ∧ cs[i]? = some c ∧ x ∈ c := by
  unfold nodeToScc
  rcases nodeToScc_fold (x := x) cs.zipIdx [] with ⟨p, hp, h1, h2⟩ | ⟨h1, _⟩
  · have := List.mem_zipIdx_iff_getElem?.1 hp
    exact ⟨p.2, p.1, h2, this, h1⟩
  · obtain ⟨c, hc, hxc⟩ := List.mem_flatten.1 hx
    obtain ⟨i, hi⟩ := List.getElem?_of_mem hc
    exact absurd hxc (h1 (c, i) (List.mem_zipIdx_iff_getElem?.2 hi))

omit [DecidableEq K] in
/-- With disjoint components the position is determined. -/
theorem scc_unique : ∀ {cs : List (List K)}, cs.flatten.Nodup → ∀ {i j : Nat} {c d : List K} {x : K}, cs[i]? = some c → cs[j]? = some d →
    x ∈ c → x ∈ d → i = j
  | [], _, i, j, c, d, x, h1, _, _, _ => by simp at h1
  | e :: cs, hn, i, j, c, d, x, h1, h2, h3, h4 => by
    rw [List.flatten_cons, List.nodup_append] at hn
    obtain ⟨_, hn2, hn3⟩ := hn
    cases i with
    | zero =>
      cases j with
      | zero => rfl
      | succ j =>
        simp only [List.getElem?_cons_zero, Option.some.injEq, List.getElem?_cons_succ] at h1 h2
        subst h1
        exact absurd rfl (hn3 x h3 x (List.mem_flatten.2 ⟨d, List.mem_of_getElem? h2, h4⟩))
    | succ i =>
      cases j with
      | zero =>
        simp only [List.getElem?_cons_zero, Option.some.injEq, List.getElem?_cons_succ] at h1 h2
        subst h2
        exact absurd rfl (hn3 x h4 x (List.mem_flatten.2 ⟨c, List.mem_of_getElem? h1, h3⟩))
      | succ j =>
        simp only [List.getElem?_cons_succ] at h1 h2
        rw [scc_unique hn2 h1 h2 h3 h4]

theorem edge_set {g : Graph K} {a b c : K} {l : List K} : Graph.Edge (g.set a l) b c ↔ if a = b then c ∈ l else Graph.Edge g b c := by
  unfold Graph.Edge Graph.nbrs
  rw [Dict.get?_set]
  split <;> simp

variable {I : Type} [DecidableEq I]

omit [DecidableEq K] in
/-- The inner loop of `create_super_graph`. -/
theorem super_inner (id : K → I) (a : K) (ms : List K) : ∀ (sg : Graph I), id a ∈ sg.keys →
    (∀ i, i ∈ (ms.foldl (fun sg m => if id a ≠ id m then sg.set (id a) (PySet.add (Graph.nbrs sg (id a)) (id m)) else sg) sg).keys ↔ i ∈ sg.keys) ∧
    ∀ i j, Graph.Edge (ms.foldl (fun sg m => if id a ≠ id m then sg.set (id a) (PySet.add (Graph.nbrs sg (id a)) (id m)) else sg) sg) i j ↔
      Graph.Edge sg i j ∨ i = id a ∧ ∃ m ∈ ms, id m = j ∧ i ≠ j := by
  induction ms with
  | nil => simp
  | cons m ms ih =>
    intro sg hk
    rw [List.foldl_cons]
    by_cases h : id a ≠ id m
    · rw [if_pos h]
      obtain ⟨h1, h2⟩ := ih (sg.set (id a) (PySet.add (Graph.nbrs sg (id a)) (id m))) (Dict.mem_keys_set.2 (.inl rfl))
      constructor
      · intro i
        rw [h1, Dict.mem_keys_set]
        constructor
        · rintro (rfl | h) <;> assumption
        · exact .inr
      · intro i j
        rw [h2, edge_set]
        by_cases hi : id a = i
        · subst hi
          rw [if_pos rfl, PySet.mem_add]
          constructor
          · rintro ((h3 | h3) | ⟨_, m', hm', h4⟩)
            · exact .inl h3
            · exact .inr ⟨rfl, m, by simp, h3.symm, by rw [h3]; exact h⟩
            · exact .inr ⟨rfl, m', List.mem_cons_of_mem _ hm', h4⟩
          · rintro (h3 | ⟨_, m', hm', h4, h5⟩)
            · exact .inl (.inl h3)
            · rcases List.mem_cons.1 hm' with rfl | hm'
              · exact .inl (.inr h4.symm)
              · exact .inr ⟨rfl, m', hm', h4, h5⟩
        · rw [if_neg hi]
          have : ¬ i = id a := fun e => hi e.symm
          simp [this]
    · rw [if_neg h]
      obtain ⟨h1, h2⟩ := ih sg hk
      refine ⟨h1, ?_⟩
      intro i j
      rw [h2]
      simp only [ne_eq, Classical.not_not] at h
      constructor
      · rintro (h3 | ⟨h3, m', hm', h4⟩)
        · exact .inl h3
        · exact .inr ⟨h3, m', List.mem_cons_of_mem _ hm', h4⟩
      · rintro (h3 | ⟨h3, m', hm', h4, h5⟩)
        · exact .inl h3
        · rcases List.mem_cons.1 hm' with rfl | hm'
          · exact absurd (h3.trans (h.trans h4)) h5
          · exact .inr ⟨h3, m', hm', h4, h5⟩

omit [DecidableEq K] in
theorem super_fold (id : K → I) (es : List (K × List K)) : ∀ (sg : Graph I),
    (∀ i, i ∈ (es.foldl (fun sg p =>
        (p.2.foldl (fun sg m => if id p.1 ≠ id m then Dict.set sg (id p.1) (PySet.add (Graph.nbrs sg (id p.1)) (id m)) else sg)
          (if Dict.has sg (id p.1) then sg else Dict.set sg (id p.1) []))) sg).keys ↔ i ∈ sg.keys ∨ ∃ p ∈ es, id p.1 = i) ∧
    ∀ i j, Graph.Edge (es.foldl (fun sg p =>
        (p.2.foldl (fun sg m => if id p.1 ≠ id m then Dict.set sg (id p.1) (PySet.add (Graph.nbrs sg (id p.1)) (id m)) else sg)
          (if Dict.has sg (id p.1) then sg else Dict.set sg (id p.1) []))) sg) i j ↔
      Graph.Edge sg i j ∨ i ≠ j ∧ ∃ p ∈ es, id p.1 = i ∧ ∃ m ∈ p.2, id m = j := by
  induction es with
  | nil => simp
  | cons p es ih =>
    intro sg
    have hbase : (∀ i, i ∈ (if sg.has (id p.1) then sg else sg.set (id p.1) []).keys ↔ i ∈ sg.keys ∨ id p.1 = i) ∧
        ∀ i j, Graph.Edge (if sg.has (id p.1) then sg else sg.set (id p.1) []) i j ↔ Graph.Edge sg i j := by
      by_cases h : sg.has (id p.1) = true
      · rw [if_pos h]
        rw [Dict.has_iff] at h
        refine ⟨fun i => ⟨.inl, ?_⟩, fun _ _ => Iff.rfl⟩
        rintro (h' | rfl) <;> assumption
      · rw [if_neg h]
        rw [Dict.has_iff] at h
        refine ⟨fun i => by rw [Dict.mem_keys_set, Or.comm, eq_comm], fun i j => ?_⟩
        rw [edge_set]
        by_cases hi : id p.1 = i
        · subst hi
          simp only [if_true, List.not_mem_nil, false_iff]
          exact fun hh => h (edge_key hh)
        · simp [hi]
    obtain ⟨h1, h2⟩ := super_inner id p.1 p.2 _ ((hbase.1 (id p.1)).2 (.inr rfl))
    rw [List.foldl_cons]
    obtain ⟨h3, h4⟩ := ih (p.2.foldl (fun sg m => if id p.1 ≠ id m then Dict.set sg (id p.1) (PySet.add (Graph.nbrs sg (id p.1)) (id m)) else sg)
      (if sg.has (id p.1) then sg else sg.set (id p.1) []))
    constructor
    · intro i
      rw [h3, h1, hbase.1]
      simp [or_assoc]
    · intro i j
      rw [h4, h2, hbase.2]
      constructor
      · rintro ((h | ⟨rfl, m, hm, h5, h6⟩) | ⟨h5, q, hq, h6⟩)
        · exact .inl h
        · exact .inr ⟨h6, p, by simp, rfl, m, hm, h5⟩
        · exact .inr ⟨h5, q, List.mem_cons_of_mem _ hq, h6⟩
      · rintro (h | ⟨h5, q, hq, h6, m, hm, h7⟩)
        · exact .inl (.inl h)
        · rcases List.mem_cons.1 hq with rfl | hq
          · exact .inl (.inr ⟨h6.symm, m, hm, h7, h5⟩)
          · exact .inr ⟨h5, q, hq, h6, m, hm, h7⟩

theorem edge_iff_entry {g : Graph K} (hn : g.keys.Nodup) {a b : K} : g.Edge a b ↔ ∃ l, (a, l) ∈ g ∧ b ∈ l := by
  unfold Graph.Edge Graph.nbrs
  constructor
  · intro h
    cases hg : g.get? a with
    | none => rw [hg] at h; simp at h
    | some l => rw [hg] at h; exact ⟨l, Dict.mem_of_get? hg, h⟩
  · rintro ⟨l, h1, h2⟩
    rw [(Dict.get?_eq_some_iff hn).2 h1]
    exact h2

/-- position of the component of a node -/
def sccId (cs : List (List K)) (n : K) : Nat := ((nodeToScc cs).get? n).getD 0

theorem superGraph_spec {g : Graph K} (hn : g.keys.Nodup) (cs : List (List K)) :
    (∀ i, i ∈ (superGraph g cs).keys ↔ ∃ a ∈ g.keys, sccId cs a = i) ∧
    ∀ i j, (superGraph g cs).Edge i j ↔ i ≠ j ∧ ∃ a b, g.Edge a b ∧ sccId cs a = i ∧ sccId cs b = j := by
  obtain ⟨h1, h2⟩ := super_fold (sccId cs) g []
  constructor
  · intro i
    rw [show i ∈ (superGraph g cs).keys ↔ _ from h1 i]
    simp only [Dict.keys, List.map_nil, List.not_mem_nil, false_or, List.mem_map]
    constructor
    · rintro ⟨p, hp, h⟩; exact ⟨p.1, ⟨p, hp, rfl⟩, h⟩
    · rintro ⟨a, ⟨p, hp, rfl⟩, h⟩; exact ⟨p, hp, h⟩
  · intro i j
    rw [show (superGraph g cs).Edge i j ↔ _ from h2 i j]
    have : ¬ Graph.Edge ([] : Graph Nat) i j := by simp [Graph.Edge, Graph.nbrs]
    simp only [this, false_or]
    constructor
    · rintro ⟨hij, p, hp, h3, m, hm, h4⟩
      exact ⟨hij, p.1, m, (edge_iff_entry hn).2 ⟨p.2, hp, hm⟩, h3, h4⟩
    · rintro ⟨hij, a, b, hab, h3, h4⟩
      obtain ⟨l, hl, hb⟩ := (edge_iff_entry hn).1 hab
      exact ⟨hij, (a, l), hl, h3, b, hb, h4⟩

theorem Before.mem {α : Type} {l : List α} {a b : α} (h : Before l a b) : a ∈ l ∧ b ∈ l := by
  obtain ⟨l1, l2, l3, rfl⟩ := h
  simp

theorem Before.flatMap {α β : Type} {l : List α} {a b : α} (h : Before l a b) (f : α → List β) {x y : β} (hx : x ∈ f a) (hy : y ∈ f b) :
    Before (l.flatMap f) x y := by
  obtain ⟨l1, l2, l3, rfl⟩ := h
  obtain ⟨p1, p2, hp⟩ := List.append_of_mem hx
  obtain ⟨q1, q2, hq⟩ := List.append_of_mem hy
  refine ⟨l1.flatMap f ++ p1, p2 ++ l2.flatMap f ++ q1, q2 ++ l3.flatMap f, ?_⟩
  simp [List.flatMap_append, hp, hq]

theorem almostTopologicalSort_spec (le : K → K → Bool) (leL : List K → List K → Bool) (g : Graph K) (hn : g.keys.Nodup) (hc : g.Closed) :
    ∃ l, almostTopologicalSort le leL g = some l ∧ AlmostSorted g.keys g.Edge l := by
  obtain ⟨cs, h1, hnod, hcov, _, hscc⟩ := findSccs_spec le leL g hc
  obtain ⟨order, h2, hno, hmem, hord⟩ := topologicalSort_spec (fun a b => decide (a ≤ b)) (superGraph g cs)
  obtain ⟨hk, he⟩ := superGraph_spec hn cs
  -- the component of a node
  have hid : ∀ x ∈ g.keys, ∃ c, cs[sccId cs x]? = some c ∧ x ∈ c := by
    intro x hx
    obtain ⟨i, c, a1, a2, a3⟩ := nodeToScc_spec ((hcov x).2 hx)
    exact ⟨c, by unfold sccId; rw [a1]; exact a2, a3⟩
  have hidOf : ∀ i c x, cs[i]? = some c → x ∈ c → sccId cs x = i := by
    intro i c x hi hx
    obtain ⟨d, hd, hxd⟩ := hid x ((hcov x).1 (List.mem_flatten.2 ⟨c, List.mem_of_getElem? hi, hx⟩))
    exact scc_unique hnod hd hi hxd hx
  have hkey : ∀ a b, g.Edge a b → a ∈ g.keys ∧ b ∈ g.keys := fun a b h => ⟨edge_key h, hc a b h⟩
  -- reachability between components
  have hreach : ∀ i j, Star (superGraph g cs).Edge i j → ∀ x y, x ∈ g.keys → y ∈ g.keys → sccId cs x = i → sccId cs y = j →
      Star g.Edge x y := by
    intro i j h
    induction h with
    | refl =>
      intro x y hx hy h3 h4
      obtain ⟨c, hc1, hxc⟩ := hid x hx
      obtain ⟨d, hd1, hyd⟩ := hid y hy
      rw [h3] at hc1
      rw [h4, hc1] at hd1
      cases hd1
      exact ((hscc c (List.mem_of_getElem? hc1) x hxc y).1 hyd).1
    | @tail k j' hik hkj ih =>
      intro x y hx hy h3 h4
      obtain ⟨_, a, b, hab, ha, hb⟩ := (he k j').1 hkj
      have hxa := ih x a hx (hkey a b hab).1 h3 ha
      obtain ⟨c, hc1, hbc⟩ := hid b (hkey a b hab).2
      obtain ⟨d, hd1, hyd⟩ := hid y hy
      rw [hb] at hc1
      rw [h4, hc1] at hd1
      cases hd1
      exact (hxa.tail hab).trans ((hscc c (List.mem_of_getElem? hc1) b hbc y).1 hyd).1
  have hsame : ∀ x y, x ∈ g.keys → Star g.Edge x y → Star g.Edge y x → sccId cs x = sccId cs y := by
    intro x y hx hxy hyx
    obtain ⟨c, hc1, hxc⟩ := hid x hx
    have := (hscc c (List.mem_of_getElem? hc1) x hxc y).2 ⟨hxy, hyx⟩
    exact (hidOf _ c y hc1 this).symm
  have hac : (superGraph g cs).Acyclic := by
    intro i j hij hji
    obtain ⟨hne, a, b, hab, ha, hb⟩ := (he i j).1 hij
    apply hne
    rw [← ha, ← hb]
    exact hsame a b (hkey a b hab).1 (.single hab) (hreach j i hji b a (hkey a b hab).2 (hkey a b hab).1 hb ha)
  -- the super graph has all positions as nodes
  have hnode : ∀ i, i ∈ order ↔ ∃ a ∈ g.keys, sccId cs a = i := by
    intro i
    rw [hmem]
    constructor
    · rintro (h | ⟨j, h⟩)
      · exact (hk i).1 h
      · obtain ⟨_, a, b, hab, _, hb⟩ := (he j i).1 h
        exact ⟨b, (hkey a b hab).2, hb⟩
    · intro h; exact .inl ((hk i).2 h)
  refine ⟨order.flatMap fun i => cs.getD i [], by unfold almostTopologicalSort; rw [h1, Option.bind_some, h2]; rfl, ?_, ?_, ?_⟩
  · -- same nodes, each once
    have hnd : (order.flatMap fun i => cs.getD i []).Nodup := by
      clear hmem hord h2 hnode
      induction order with
      | nil => simp
      | cons i order ih =>
        rw [List.nodup_cons] at hno
        rw [List.flatMap_cons, List.nodup_append]
        refine ⟨?_, ih hno.2, ?_⟩
        · rw [List.getD_eq_getElem?_getD]
          cases hci : cs[i]? with
          | none => simp
          | some c =>
            rw [Option.getD_some]
            exact (List.pairwise_flatten.1 hnod).1 c (List.mem_of_getElem? hci)
        · intro x hx y hy hxy
          subst hxy
          obtain ⟨j, hj, hxj⟩ := List.mem_flatMap.1 hy
          rw [List.getD_eq_getElem?_getD] at hx hxj
          cases hci : cs[i]? with
          | none => rw [hci] at hx; simp at hx
          | some c =>
            cases hcj : cs[j]? with
            | none => rw [hcj] at hxj; simp at hxj
            | some d =>
              rw [hci] at hx
              rw [hcj] at hxj
              have := scc_unique hnod hci hcj hx hxj
              subst this
              exact hno.1 hj
    refine (List.perm_ext_iff_of_nodup hnd hn).2 ?_
    intro x
    rw [List.mem_flatMap]
    constructor
    · rintro ⟨i, _, hx⟩
      rw [List.getD_eq_getElem?_getD] at hx
      cases hci : cs[i]? with
      | none => rw [hci] at hx; simp at hx
      | some c => rw [hci] at hx; exact (hcov x).1 (List.mem_flatten.2 ⟨c, List.mem_of_getElem? hci, hx⟩)
    · intro hx
      obtain ⟨c, hc1, hxc⟩ := hid x hx
      exact ⟨sccId cs x, (hnode _).2 ⟨x, hx, rfl⟩, by rw [List.getD_eq_getElem?_getD, hc1]; exact hxc⟩
  · intro a b hab hnba
    have hne : sccId cs a ≠ sccId cs b := by
      intro e
      obtain ⟨c, hc1, hac1⟩ := hid a (hkey a b hab).1
      obtain ⟨d, hd1, hbd⟩ := hid b (hkey a b hab).2
      rw [← e, hc1] at hd1
      cases hd1
      exact hnba ((hscc c (List.mem_of_getElem? hc1) a hac1 b).1 hbd).2
    have hb := hord hac _ _ ((he _ _).2 ⟨hne, a, b, hab, rfl, rfl⟩)
    obtain ⟨c, hc1, hac1⟩ := hid a (hkey a b hab).1
    obtain ⟨d, hd1, hbd⟩ := hid b (hkey a b hab).2
    exact hb.flatMap _ (by rw [List.getD_eq_getElem?_getD, hc1]; exact hac1) (by rw [List.getD_eq_getElem?_getD, hd1]; exact hbd)
  · intro x hx
    obtain ⟨c, hc1, hxc⟩ := hid x hx
    obtain ⟨o1, o2, ho⟩ := List.append_of_mem ((hnode _).2 ⟨x, hx, rfl⟩)
    refine ⟨o1.flatMap fun i => cs.getD i [], c, o2.flatMap fun i => cs.getD i [], ?_, hscc c (List.mem_of_getElem? hc1) x hxc⟩
    rw [ho, List.flatMap_append, List.flatMap_cons, List.getD_eq_getElem?_getD, hc1]
    simp

end
end Verif
