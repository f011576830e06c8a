import Verif.Model.Graph
import Verif.Spec.Order
/-!
Depth-first topological sort.
-/
namespace Verif

section
variable {K : Type} [DecidableEq K]

/-- `a → b` is an edge of the graph. -/
def Graph.Edge (g : Graph K) (a b : K) : Prop := b ∈ g.nbrs a

/-- No node reaches itself along at least one edge. -/
def Graph.Acyclic (g : Graph K) : Prop := ∀ a b, g.Edge a b → ¬ Star g.Edge b a

/-- Every node comes after all its neighbours. -/
def Ord (g : Graph K) (l : List K) : Prop := ∀ l1 x l2, l = l1 ++ x :: l2 → ∀ y, g.Edge x y → y ∈ l1

theorem edge_key {g : Graph K} {a b : K} (h : g.Edge a b) : a ∈ g.keys := by
  unfold Graph.Edge Graph.nbrs at h
  cases ha : g.get? a with
  | none => rw [ha] at h; simp at h
  | some s => exact Dict.mem_keys.2 ⟨s, ha⟩

theorem edge_mentioned {g : Graph K} {a b : K} (h : g.Edge a b) : b ∈ g.mentioned := by
  unfold Graph.Edge Graph.nbrs at h
  cases ha : g.get? a with
  | none => rw [ha] at h; simp at h
  | some s =>
    rw [ha] at h
    have := Dict.mem_of_get? ha
    exact List.mem_append_right _ (List.mem_flatten.2 ⟨s, List.mem_map.2 ⟨(a, s), this, rfl⟩, h⟩)

omit [DecidableEq K] in
theorem key_mentioned {g : Graph K} {a : K} (h : a ∈ g.keys) : a ∈ g.mentioned := List.mem_append_left _ h

/-- A node of the graph: a key or a neighbour. -/
def Graph.Node (g : Graph K) (x : K) : Prop := x ∈ g.keys ∨ ∃ a, g.Edge a x

theorem node_mentioned {g : Graph K} {x : K} (h : g.Node x) : x ∈ g.mentioned := by
  rcases h with h | ⟨a, h⟩
  · exact key_mentioned h
  · exact edge_mentioned h

structure TopPost (g : Graph K) (s s' : TopSt K) : Prop where
  vis : ∀ x ∈ s.visited, x ∈ s'.visited
  new : ∃ l, s'.result = s.result ++ l ∧ l.Nodup ∧ (∀ x, x ∈ l ↔ x ∈ s'.visited ∧ x ∉ s.visited) ∧
    ∀ x ∈ l, g.Node x ∧ ∀ y, g.Edge x y → y ∈ s'.visited
  ord : g.Acyclic → Ord g s.result → Ord g s'.result

theorem TopPost.refl (g : Graph K) (s : TopSt K) : TopPost g s s :=
  ⟨fun _ h => h, ⟨[], by simp⟩, fun _ h => h⟩

theorem TopPost.trans {g : Graph K} {a b c : TopSt K} (h : TopPost g a b) (h' : TopPost g b c) : TopPost g a c := by
  obtain ⟨l, e1, n1, m1, c1⟩ := h.new
  obtain ⟨l', e2, n2, m2, c2⟩ := h'.new
  refine ⟨fun x hx => h'.vis x (h.vis x hx), ⟨l ++ l', by rw [e2, e1, List.append_assoc], ?_, ?_, ?_⟩, fun ha ho => h'.ord ha (h.ord ha ho)⟩
  · rw [List.nodup_append]
    refine ⟨n1, n2, ?_⟩
    intro x hx y hy hxy
    subst hxy
    exact ((m2 x).1 hy).2 ((m1 x).1 hx).1
  · intro x
    rw [List.mem_append, m1, m2]
    constructor
    · rintro (⟨h1, h2⟩ | ⟨h1, h2⟩)
      · exact ⟨h'.vis x h1, h2⟩
      · exact ⟨h1, fun h3 => h2 (h.vis x h3)⟩
    · rintro ⟨h1, h2⟩
      by_cases hb : x ∈ b.visited
      · exact .inl ⟨hb, h2⟩
      · exact .inr ⟨h1, hb⟩
  · intro x hx
    rcases List.mem_append.1 hx with hx | hx
    · exact ⟨(c1 x hx).1, fun y hy => h'.vis y ((c1 x hx).2 y hy)⟩
    · exact c2 x hx

/-- Nodes not visited yet. -/
def unvisited (g : Graph K) (v : List K) : Nat := g.mentioned.countP (fun x => decide (x ∉ v))

theorem unvisited_mono {g : Graph K} {v w : List K} (h : ∀ x ∈ v, x ∈ w) : unvisited g w ≤ unvisited g v := by
  refine List.countP_mono_left (fun x _ => ?_)
  simp only [decide_not, Bool.not_eq_eq_eq_not, Bool.not_true, decide_eq_false_iff_not]
  exact fun hw hv => hw (h x hv)

theorem unvisited_lt {g : Graph K} {v w : List K} (h : ∀ x ∈ v, x ∈ w) {n : K} (hn : n ∈ g.mentioned) (h1 : n ∉ v) (h2 : n ∈ w) :
    unvisited g w < unvisited g v := by
  refine countP_lt_of_imp _ _ _ (fun x _ => ?_) n hn (by simpa using h1) (by simpa using h2)
  simp only [decide_not, Bool.not_eq_eq_eq_not, Bool.not_true, decide_eq_false_iff_not]
  exact fun hw hv => hw (h x hv)

/-- the nodes that are being worked on reach `m` -/
def GrayReach (g : Graph K) (s : TopSt K) (m : K) : Prop := ∀ a ∈ s.visited, a ∉ s.result → Star g.Edge a m

def TopWf (s : TopSt K) : Prop := ∀ x ∈ s.result, x ∈ s.visited

theorem TopPost.wf {g : Graph K} {s s' : TopSt K} (h : TopPost g s s') (hw : TopWf s) : TopWf s' := by
  obtain ⟨l, e1, _, m1, _⟩ := h.new
  intro x hx
  rw [e1, List.mem_append] at hx
  rcases hx with hx | hx
  · exact h.vis x (hw x hx)
  · exact ((m1 x).1 hx).1

theorem TopPost.gray {g : Graph K} {s s' : TopSt K} (h : TopPost g s s') {x : K} (hx : x ∈ s'.visited) (hr : x ∉ s'.result) :
    x ∈ s.visited ∧ x ∉ s.result := by
  obtain ⟨l, e1, _, m1, _⟩ := h.new
  rw [e1, List.mem_append, not_or] at hr
  refine ⟨?_, hr.1⟩
  by_cases hv : x ∈ s.visited
  · exact hv
  · exact absurd ((m1 x).2 ⟨hx, hv⟩) hr.2

theorem topLoop_spec {g : Graph K} {rec : K → TopSt K → Option (TopSt K)} {f : Nat}
    (hrec : ∀ m s, g.Node m → m ∉ s.visited → TopWf s → GrayReach g s m → unvisited g s.visited ≤ f →
      ∃ s', rec m s = some s' ∧ TopPost g s s' ∧ m ∈ s'.visited) :
    ∀ (ms : List K) (s : TopSt K), (∀ m ∈ ms, g.Node m) → TopWf s → (∀ m ∈ ms, GrayReach g s m) →
      unvisited g s.visited ≤ f → ∃ s', topLoop rec ms s = some s' ∧ TopPost g s s' ∧ ∀ m ∈ ms, m ∈ s'.visited
  | [], s, _, _, _, _ => ⟨s, rfl, .refl g s, by simp⟩
  | m :: ms, s, hm, hw, hg, hf => by
    unfold topLoop
    by_cases hv : m ∈ s.visited
    · rw [if_pos hv]
      obtain ⟨s', h1, h2, h3⟩ := topLoop_spec hrec ms s (fun x hx => hm x (List.mem_cons_of_mem _ hx)) hw
        (fun x hx => hg x (List.mem_cons_of_mem _ hx)) hf
      refine ⟨s', h1, h2, ?_⟩
      intro x hx
      rcases List.mem_cons.1 hx with rfl | hx
      · exact h2.vis _ hv
      · exact h3 x hx
    · rw [if_neg hv]
      obtain ⟨s1, h1, h2, h3⟩ := hrec m s (hm m (by simp)) hv hw (hg m (by simp)) hf
      obtain ⟨s', h4, h5, h6⟩ := topLoop_spec hrec ms s1 (fun x hx => hm x (List.mem_cons_of_mem _ hx)) (h2.wf hw)
        (fun x hx a ha hr => hg x (List.mem_cons_of_mem _ hx) a (h2.gray ha hr).1 (h2.gray ha hr).2)
        (Nat.le_trans (unvisited_mono h2.vis) hf)
      refine ⟨s', by rw [h1]; exact h4, h2.trans h5, ?_⟩
      intro x hx
      rcases List.mem_cons.1 hx with rfl | hx
      · exact h5.vis _ h3
      · exact h6 x hx

theorem ord_append {g : Graph K} {l : List K} {n : K} (h : Ord g l) (hn : ∀ y, g.Edge n y → y ∈ l) : Ord g (l ++ [n]) := by
  intro l1 x l2 e y hy
  rcases List.append_eq_append_iff.1 e with ⟨as, h1, h2⟩ | ⟨bs, h1, h2⟩
  · cases as with
    | nil =>
      rw [List.nil_append] at h2
      cases h2
      rw [List.append_nil] at h1
      subst h1
      exact hn y hy
    | cons a as =>
      have := congrArg List.length h2
      simp only [List.length_cons, List.length_nil, List.length_append] at this
      omega
  · cases bs with
    | nil =>
      rw [List.nil_append] at h2
      cases h2
      rw [List.append_nil] at h1
      subst h1
      exact hn y hy
    | cons b bs =>
      rw [List.cons_append] at h2
      cases h2
      exact h l1 x bs h1 y hy

theorem topDfs_spec {g : Graph K} : ∀ (f : Nat) (n : K) (s : TopSt K), g.Node n → n ∉ s.visited → TopWf s →
    GrayReach g s n → unvisited g s.visited ≤ f → ∃ s', topDfs g f n s = some s' ∧ TopPost g s s' ∧ n ∈ s'.visited
  | 0, n, s, hn, hv, _, _, hf => by
    have : 0 < unvisited g s.visited := List.countP_pos_iff.2 ⟨n, node_mentioned hn, by simpa using hv⟩
    omega
  | f + 1, n, s, hn, hv, hw, hg, hf => by
    have hsub : ∀ x ∈ s.visited, x ∈ PySet.add s.visited n := fun x hx => PySet.mem_add.2 (.inl hx)
    have hlt : unvisited g (PySet.add s.visited n) < unvisited g s.visited :=
      unvisited_lt hsub (node_mentioned hn) hv (PySet.mem_add.2 (.inr rfl))
    have hgr : ∀ m ∈ g.nbrs n, GrayReach g { s with visited := PySet.add s.visited n } m := by
      intro m hm a ha hr
      have hnm : g.Edge n m := hm
      rcases PySet.mem_add.1 ha with ha | rfl
      · exact (hg a ha hr).tail hnm
      · exact .single hnm
    obtain ⟨s1, h1, h2, h3⟩ := topLoop_spec (topDfs_spec (g := g) f) (g.nbrs n) { s with visited := PySet.add s.visited n }
      (fun m hm => .inr ⟨n, hm⟩) (fun x hx => hsub x (hw x hx)) hgr (by show unvisited g (PySet.add s.visited n) ≤ f; omega)
    have hn1 : n ∈ s1.visited := h2.vis n (PySet.mem_add.2 (.inr rfl))
    refine ⟨{ s1 with result := s1.result ++ [n] }, by unfold topDfs; rw [h1]; rfl, ?_, hn1⟩
    obtain ⟨l, e1, n1, m1, c1⟩ := h2.new
    have hnl : n ∉ l := fun h => ((m1 n).1 h).2 (PySet.mem_add.2 (.inr rfl))
    refine ⟨fun x hx => h2.vis x (hsub x hx), ⟨l ++ [n], ?_, ?_, ?_, ?_⟩, ?_⟩
    · show s1.result ++ [n] = _
      rw [e1, List.append_assoc]
    · rw [List.nodup_append]
      refine ⟨n1, by simp, ?_⟩
      intro a ha b hb hab
      rw [List.mem_singleton] at hb
      subst hb; subst hab
      exact hnl ha
    · intro x
      show _ ↔ x ∈ s1.visited ∧ x ∉ s.visited
      rw [List.mem_append, m1, List.mem_singleton]
      constructor
      · rintro (⟨h4, h5⟩ | rfl)
        · exact ⟨h4, fun h6 => h5 (hsub x h6)⟩
        · exact ⟨hn1, hv⟩
      · rintro ⟨h4, h5⟩
        by_cases hxn : x = n
        · exact .inr hxn
        · refine .inl ⟨h4, fun h6 => ?_⟩
          rcases PySet.mem_add.1 h6 with h6 | h6
          · exact h5 h6
          · exact hxn h6
    · intro x hx
      rcases List.mem_append.1 hx with hx | hx
      · exact c1 x hx
      · rw [List.mem_singleton] at hx
        subst hx
        exact ⟨hn, fun y hy => h3 y hy⟩
    · intro hac ho
      refine ord_append (h2.ord hac ho) ?_
      intro y hy
      by_cases hr : y ∈ s1.result
      · exact hr
      · obtain ⟨h4, h5⟩ := h2.gray (h3 y hy) hr
        exfalso
        rcases PySet.mem_add.1 h4 with h4 | rfl
        · exact hac n y hy (hg y h4 h5)
        · exact hac y y hy .refl

theorem before_of_ord {g : Graph K} {l : List K} (ho : Ord g l) (hn : l.Nodup) {a b : K} (ha : a ∈ l) (h : g.Edge a b) :
    Before l.reverse a b := by
  obtain ⟨l1, l2, rfl⟩ := List.append_of_mem ha
  obtain ⟨l3, l4, rfl⟩ := List.append_of_mem (ho l1 a l2 rfl b h)
  exact ⟨l2.reverse, l4.reverse, l3.reverse, by simp⟩

/-- The result lists exactly the nodes, each once, and on an acyclic graph sources come before targets. -/
theorem topologicalSort_spec (le : K → K → Bool) (g : Graph K) : ∃ l, topologicalSort le g = some l ∧ l.Nodup ∧
    (∀ x, x ∈ l ↔ g.Node x) ∧ (g.Acyclic → ∀ a b, g.Edge a b → Before l a b) := by
  obtain ⟨s, h1, h2, h3⟩ := topLoop_spec (topDfs_spec (g := g) (g.mentioned.length + 1)) (sorted le g.keys) ⟨[], []⟩
    (fun m hm => .inl ((List.mergeSort_perm g.keys le).mem_iff.1 hm)) (by simp [TopWf]) (by simp [GrayReach])
    (by
      have : unvisited g [] ≤ g.mentioned.length := List.countP_le_length
      show unvisited g [] ≤ _
      omega)
  obtain ⟨l, e1, n1, m1, c1⟩ := h2.new
  rw [List.nil_append] at e1
  have hkeys : ∀ k ∈ g.keys, k ∈ l := fun k hk => (m1 k).2 ⟨h3 k ((List.mergeSort_perm g.keys le).mem_iff.2 hk), by simp⟩
  refine ⟨l.reverse, by unfold topologicalSort; rw [h1, Option.map_some, e1], List.pairwise_reverse.2 (n1.imp fun h => h.symm), ?_, ?_⟩
  · intro x
    rw [List.mem_reverse]
    constructor
    · exact fun h => (c1 x h).1
    · intro h
      rcases h with h | ⟨a, h⟩
      · exact hkeys x h
      · exact (m1 x).2 ⟨(c1 a (hkeys a (edge_key h))).2 x h, by simp⟩
  · intro hac a b hab
    have ho : Ord g s.result := h2.ord hac (by intro l1 x l2 e; simp at e)
    rw [e1] at ho
    exact before_of_ord ho n1 (hkeys a (edge_key hab)) hab

end

end Verif
