import Verif.Model.CFrameIndex
import Verif.Props.FrameReach
/-!
C94: `cf[nodes]`.

Specification: `SameContent` (C43) says that two frames have the same nodes, elements, edges, calls and creators.
-/
namespace Verif.Props

open Verif CFrame

theorem asNames_some (l : List String) : asNames (l.map some) = some l := by
  induction l with
  | nil => rfl
  | cons a l ih => simp [asNames, ih]

theorem mem_sortedNames {l : List String} {n : String} : n ∈ sortedNames l ↔ n ∈ l := (List.mergeSort_perm l _).mem_iff

theorem sortedNames_perm {l m : List String} (h : l.Perm m) : sortedNames l = sortedNames m := by
  have tr : ∀ a b c : String, decide (a ≤ b) = true → decide (b ≤ c) = true → decide (a ≤ c) = true := by
    intro a b c h1 h2
    exact decide_eq_true (String.le_trans (of_decide_eq_true h1) (of_decide_eq_true h2))
  have tot : ∀ a b : String, (decide (a ≤ b) || decide (b ≤ a)) = true := by
    intro a b
    rcases String.le_total a b with h | h <;> simp [h]
  refine List.Perm.eq_of_pairwise (le := fun a b => decide (a ≤ b) = true) ?_ (List.pairwise_mergeSort tr tot _) (List.pairwise_mergeSort tr tot _)
    ((List.mergeSort_perm _ _).trans (h.trans (List.mergeSort_perm _ _).symm))
  intro a b _ _ h1 h2
  exact String.le_antisymm (of_decide_eq_true h1) (of_decide_eq_true h2)

theorem getItem_iter {f : CFrame} {l : List String} : f.getItem (.iter (l.map some)) = (f.selectNodes (sortedNames l)).map some := by
  unfold getItem
  dsimp only
  rw [asNames_some]

theorem getItem_ok {f : CFrame} {l : List String} {g : Option CFrame} (h : f.getItem (.iter (l.map some)) = .ok g) :
    ∃ k, g = some k ∧ f.selectNodes (sortedNames l) = .ok k := by
  rw [getItem_iter] at h
  cases hs : f.selectNodes (sortedNames l) with
  | error e => rw [hs] at h; cases h
  | ok k => rw [hs] at h; cases h; exact ⟨k, rfl, rfl⟩

theorem selects_same {f g h : CFrame} {ns ms : List String} (hm : ∀ n, n ∈ ns ↔ n ∈ ms) (G : Selects f g ns) (K : Selects f h ms) :
    SameContent g h where
  isVar v := (G.vsKey v).trans ((and_congr_right fun _ => hm v).trans (K.vsKey v).symm)
  isFunc v := (G.fsKey v).trans ((and_congr_right fun _ => hm v).trans (K.fsKey v).symm)
  hasRef v x := (G.vs v x).trans ((and_congr_right fun _ => hm v).trans (K.vs v x).symm)
  hasCall v x := (G.fs v x).trans ((and_congr_right fun _ => hm v).trans (K.fs v x).symm)
  hasEdge s d l := (G.out s l d).trans ((and_congr_right fun _ => and_congr (hm s) (hm d)).trans (K.out s l d).symm)
  calls x := Option.ext fun c => by
    rw [G.calls, K.calls]
    simp only [hm]
  creator x := Option.ext fun c => by
    rw [G.creator, K.creator]
    simp only [hm]

/-! ### the property -/

/-- C94: the order in which the nodes are given does not matter. -/
theorem C94_order (f : CFrame) {l m : List String} (h : l.Perm m) : f.getItem (.iter (l.map some)) = f.getItem (.iter (m.map some)) := by
  rw [getItem_iter, getItem_iter, sortedNames_perm h]

/-- C94: neither does repeating some. -/
theorem C94_repeated {f g : CFrame} {l m : List String} (h : ∀ n, n ∈ l ↔ n ∈ m) (hg : f.getItem (.iter (l.map some)) = .ok (some g)) :
    ∃ k, f.getItem (.iter (m.map some)) = .ok (some k) ∧ SameContent g k := by
  obtain ⟨k, hk, hs⟩ := getItem_ok hg
  cases hk
  obtain ⟨hn, S⟩ := selectNodes_ok hs
  have hm : ∀ n, n ∈ sortedNames l ↔ n ∈ sortedNames m := fun n => by rw [mem_sortedNames, mem_sortedNames, h]
  obtain ⟨k, hk⟩ := selectNodes_total (f := f) (ns := sortedNames m) fun n hn' => hn n ((hm n).2 hn')
  exact ⟨k, by rw [getItem_iter, hk]; rfl, selects_same hm S (selectNodes_ok hk).2⟩

/-- C94: a name and the list of this name select the same. -/
theorem C94_single (f : CFrame) (n : String) : f.getItem (.name n) = f.getItem (.iter [some n]) := by
  show _ = f.getItem (.iter ([n].map some))
  rw [getItem_iter]
  unfold getItem sortedNames
  rw [List.mergeSort_singleton]

/-- C94: indexing succeeds exactly with nodes of the frame, and gives these nodes, the edges between them, and in each what it had. -/
theorem C94_selects {f : CFrame} (H : f.Consistent) (hsym : ∀ s d l, InAdj f.out s l d ↔ InAdj f.inp d l s) (ns : List String) :
    ((∃ g, f.getItem (.iter (ns.map some)) = .ok g) ↔ ∀ n ∈ ns, f.IsVar n ∨ f.IsFunc n) ∧
    ∀ r, f.getItem (.iter (ns.map some)) = .ok r → ∃ g, r = some g ∧ g.check = true ∧
      (∀ v, g.IsVar v ↔ f.IsVar v ∧ v ∈ ns) ∧ (∀ n, g.IsFunc n ↔ f.IsFunc n ∧ n ∈ ns) ∧
      (∀ s d l, g.HasEdge s d l ↔ f.HasEdge s d l ∧ s ∈ ns ∧ d ∈ ns) ∧
      (∀ v x, g.HasRef v x ↔ f.HasRef v x ∧ v ∈ ns) ∧ ∀ n x, g.HasCall n x ↔ f.HasCall n x ∧ n ∈ ns := by
  obtain ⟨h1, h2⟩ := C40_select_nodes H hsym (sortedNames ns)
  simp only [mem_sortedNames] at h1 h2
  constructor
  · rw [← h1]
    constructor
    · rintro ⟨g, hg⟩
      obtain ⟨k, _, hk⟩ := getItem_ok hg
      exact ⟨k, hk⟩
    · rintro ⟨k, hk⟩
      exact ⟨some k, by rw [getItem_iter, hk]; rfl⟩
  · intro r hr
    obtain ⟨g, rfl, hg⟩ := getItem_ok hr
    obtain ⟨a1, _, a2, a3, a4, a5, a6, _⟩ := h2 g hg
    exact ⟨g, rfl, a1, a2, a3, a4, a5, a6⟩

/-- C94: indexing the result again is the same as indexing the frame with the second nodes, if they are among the first, and fails otherwise. -/
theorem C94_nested {f g : CFrame} {ns ms : List String} (h : f.getItem (.iter (ns.map some)) = .ok (some g)) :
    ((∀ m ∈ ms, m ∈ ns) → ∃ a b, g.getItem (.iter (ms.map some)) = .ok (some a) ∧ f.getItem (.iter (ms.map some)) = .ok (some b) ∧
      SameContent a b) ∧
    (¬ (∀ m ∈ ms, m ∈ ns) → g.getItem (.iter (ms.map some)) = .error .valueError) := by
  obtain ⟨k, hk, h⟩ := getItem_ok h
  cases hk
  obtain ⟨hn, S⟩ := selectNodes_ok h
  have hgn : ∀ n, n ∈ g.nodes ↔ n ∈ ns := by
    intro n
    have := hn n
    rw [mem_sortedNames, mem_nodes] at this
    have a := S.vsKey n
    have b := S.fsKey n
    rw [mem_sortedNames] at a b
    rw [mem_nodes]
    constructor
    · rintro (x | x)
      · exact (a.1 x).2
      · exact (b.1 x).2
    · intro x
      rcases this x with y | y
      · exact .inl (a.2 ⟨y, x⟩)
      · exact .inr (b.2 ⟨y, x⟩)
  constructor
  · intro hsub
    obtain ⟨a, ha⟩ := selectNodes_total (f := g) (ns := sortedNames ms) fun n hm => (hgn n).2 (hsub n (mem_sortedNames.1 hm))
    obtain ⟨b, hb⟩ := selectNodes_total (f := f) (ns := sortedNames ms) fun n hm =>
      hn n (mem_sortedNames.2 (hsub n (mem_sortedNames.1 hm)))
    refine ⟨a, b, by rw [getItem_iter, ha]; rfl, by rw [getItem_iter, hb]; rfl, ?_⟩
    have A := (selectNodes_ok ha).2
    have B := (selectNodes_ok hb).2
    have hsub' : ∀ n, n ∈ sortedNames ms → n ∈ sortedNames ns := fun n hm => mem_sortedNames.2 (hsub n (mem_sortedNames.1 hm))
    have red : ∀ {d e : SetDict}, (∀ v x, InSet e v x ↔ InSet d v x ∧ v ∈ sortedNames ns) → ∀ x,
        (∃ v, InSet e v x ∧ v ∈ sortedNames ms) ↔ ∃ v, InSet d v x ∧ v ∈ sortedNames ms := by
      intro d e hde x
      constructor
      · rintro ⟨v, h1, h2⟩; exact ⟨v, ((hde v x).1 h1).1, h2⟩
      · rintro ⟨v, h1, h2⟩; exact ⟨v, (hde v x).2 ⟨h1, hsub' v h2⟩, h2⟩
    refine ⟨?_, ?_, ?_, ?_, ?_, ?_, ?_⟩
    · intro v
      refine (A.vsKey v).trans (Iff.trans ?_ (B.vsKey v).symm)
      rw [S.vsKey]
      exact ⟨fun x => ⟨x.1.1, x.2⟩, fun x => ⟨⟨x.1, hsub' v x.2⟩, x.2⟩⟩
    · intro v
      refine (A.fsKey v).trans (Iff.trans ?_ (B.fsKey v).symm)
      rw [S.fsKey]
      exact ⟨fun x => ⟨x.1.1, x.2⟩, fun x => ⟨⟨x.1, hsub' v x.2⟩, x.2⟩⟩
    · intro v y
      refine (A.vs v y).trans (Iff.trans ?_ (B.vs v y).symm)
      rw [S.vs]
      exact ⟨fun x => ⟨x.1.1, x.2⟩, fun x => ⟨⟨x.1, hsub' v x.2⟩, x.2⟩⟩
    · intro v y
      refine (A.fs v y).trans (Iff.trans ?_ (B.fs v y).symm)
      rw [S.fs]
      exact ⟨fun x => ⟨x.1.1, x.2⟩, fun x => ⟨⟨x.1, hsub' v x.2⟩, x.2⟩⟩
    · intro s d l
      refine (A.out s l d).trans (Iff.trans ?_ (B.out s l d).symm)
      rw [S.out]
      exact ⟨fun x => ⟨x.1.1, x.2⟩, fun x => ⟨⟨x.1, hsub' s x.2.1, hsub' d x.2.2⟩, x.2⟩⟩
    · intro x
      refine Option.ext fun c => ?_
      rw [A.calls, B.calls, S.calls, red S.fs]
      exact ⟨fun y => ⟨y.1.1, y.2⟩, fun y => ⟨⟨y.1, y.2.imp fun v z => ⟨z.1, hsub' v z.2⟩⟩, y.2⟩⟩
    · intro x
      refine Option.ext fun c => ?_
      rw [A.creator, B.creator, S.creator, red S.vs, red S.fs]
      exact ⟨fun y => ⟨y.1.1, y.2⟩, fun y => ⟨⟨y.1, y.2.1.imp fun v z => ⟨z.1, hsub' v z.2⟩, y.2.2.imp fun v z => ⟨z.1, hsub' v z.2⟩⟩, y.2⟩⟩
  · intro hno
    rw [getItem_iter]
    unfold selectNodes
    rw [if_neg]
    · rfl
    · intro hall
      simp only [List.all_eq_true, decide_eq_true_eq] at hall
      exact hno fun m hm => (hgn m).1 (hall m (mem_sortedNames.2 hm))

/-- Refutation: indexing with something that is not a name neither raises nor gives a frame, even if there is no such node. -/
theorem C94_refuted_not_names (f : CFrame) (l : List (Option String)) (h : none ∈ l) : f.getItem (.iter l) = .ok none := by
  have : asNames l = none := by
    induction l with
    | nil => cases h
    | cons a l ih =>
      cases a with
      | none => rfl
      | some n =>
        unfold asNames
        rw [ih (by simpa using h)]
        rfl
  unfold getItem
  dsimp only
  rw [this]

/-! ### concrete cases -/

/-- The frame of `f` and `g` can be indexed with three of its nodes; indexing the result with two of these is indexing the frame with the
two, and indexing it with `g`, which is a node of the frame but was not selected, fails. -/
example : ∃ k a b, Ex.frameFG.getItem (.iter [some "var_0", some "f", some "a"]) = .ok (some k) ∧ k.HasEdge "a" "f" "a" ∧
    k.getItem (.iter [some "f", some "a"]) = .ok (some a) ∧ Ex.frameFG.getItem (.iter [some "f", some "a"]) = .ok (some b) ∧ SameContent a b ∧
    Ex.frameFG.IsFunc "g" ∧ k.getItem (.iter [some "g"]) = .error .valueError := by
  obtain ⟨h1, h2⟩ := C94_selects Ex.wf_frameFG.consistent Ex.wf_frameFG.graph.sym ["var_0", "f", "a"]
  have hn : (["var_0", "f", "a"].all fun n => decide (n ∈ Ex.frameFG.nodes)) = true := by decide +kernel
  obtain ⟨r, hr⟩ := h1.2 fun n hm => mem_nodes.1 (of_decide_eq_true (List.all_eq_true.1 hn n hm))
  obtain ⟨k, rfl, _, _, _, he, _⟩ := h2 r hr
  obtain ⟨h3, h4⟩ := C94_nested hr (ms := ["f", "a"])
  obtain ⟨a, b, ha, hb, S⟩ := h3 (by decide)
  refine ⟨k, a, b, hr, (he _ _ _).2 ⟨?_, by decide, by decide⟩, ha, hb, S, ?_, (C94_nested hr (ms := ["g"])).2 (by decide)⟩
  · exact mem_edges.1 (by decide +kernel)
  · exact (by decide +kernel : "g" ∈ Ex.frameFG.fs.keys)

end Verif.Props
