import Verif.Model.NodeOrder
import Verif.Proofs.AlmostSort
import Mathlib.Data.List.Perm.Subperm
/-!
Kahn's algorithm, and the ordering of the nodes of a computation frame.
-/
namespace Verif

/-- All edges, one entry per label. -/
def allEdges (out : Adj) : List (String × String) := out.flatMap fun p => (outDsts p.2).map fun d => (p.1, d)

def degOf (d : Dict String Int) (x : String) : Int := (d.get? x).getD 0

theorem inDeg_inner (ds : List String) : ∀ (d : Dict String Int), (∀ x ∈ ds, x ∈ d.keys) →
    (ds.foldl (fun d n => d.set n ((d.get? n).getD 0 + 1)) d).keys = d.keys ∧
    ∀ x, degOf (ds.foldl (fun d n => d.set n ((d.get? n).getD 0 + 1)) d) x = degOf d x + ds.count x := by
  induction ds with
  | nil => simp
  | cons a ds ih =>
    intro d hd
    have hk : (d.set a ((d.get? a).getD 0 + 1)).keys = d.keys := by rw [Dict.keys_set, if_pos (hd a (by simp))]
    rw [List.foldl_cons]
    obtain ⟨h1, h2⟩ := ih (d.set a ((d.get? a).getD 0 + 1)) (fun x hx => by rw [hk]; exact hd x (List.mem_cons_of_mem _ hx))
    refine ⟨h1.trans hk, fun x => ?_⟩
    rw [h2]
    unfold degOf
    rw [Dict.get?_set, List.count_cons]
    by_cases h : a = x
    · subst h
      simp only [if_true, Option.getD_some, BEq.rfl]
      omega
    · simp [h]

theorem inDeg_fold (out : Adj) : ∀ (d : Dict String Int), (∀ e ∈ allEdges out, e.2 ∈ d.keys) →
    (out.foldl (fun d p => (outDsts p.2).foldl (fun d n => d.set n ((d.get? n).getD 0 + 1)) d) d).keys = d.keys ∧
    ∀ x, degOf (out.foldl (fun d p => (outDsts p.2).foldl (fun d n => d.set n ((d.get? n).getD 0 + 1)) d) d) x =
      degOf d x + (allEdges out).countP (fun e => decide (e.2 = x)) := by
  induction out with
  | nil => simp [allEdges]
  | cons p out ih =>
    intro d hd
    have hsplit : allEdges (p :: out) = (outDsts p.2).map (fun d => (p.1, d)) ++ allEdges out := by simp [allEdges]
    obtain ⟨h1, h2⟩ := inDeg_inner (outDsts p.2) d (fun x hx => hd (p.1, x) (by rw [hsplit]; exact List.mem_append_left _ (List.mem_map.2 ⟨x, hx, rfl⟩)))
    rw [List.foldl_cons]
    obtain ⟨h3, h4⟩ := ih ((outDsts p.2).foldl (fun d n => d.set n ((d.get? n).getD 0 + 1)) d)
      (fun e he => by rw [h1]; exact hd e (by rw [hsplit]; exact List.mem_append_right _ he))
    refine ⟨h3.trans h1, fun x => ?_⟩
    rw [h4, h2, hsplit, List.countP_append, List.countP_map]
    have : (outDsts p.2).countP ((fun e : String × String => decide (e.2 = x)) ∘ fun d => (p.1, d)) = (outDsts p.2).count x := by
      rw [List.count_eq_countP]
      exact List.countP_congr (fun y _ => by simp)
    rw [this]
    omega

theorem keys_zero (nodes : List String) : Dict.keys (nodes.map fun n => (n, (0 : Int))) = nodes := by simp [Dict.keys, Function.comp_def]

theorem deg_zero (nodes : List String) (x : String) : degOf (nodes.map fun n => (n, (0 : Int))) x = 0 := by
  unfold degOf
  induction nodes with
  | nil => rfl
  | cons a l ih =>
    rw [List.map_cons, Dict.get?_cons]
    split
    · rfl
    · exact ih

theorem kahnEdges_spec (ds : List String) : ∀ (s : KahnSt), (∀ x, (ds.count x : Int) ≤ degOf s.deg x) →
    ∃ new, (ds.foldl kahnEdge s).sources = new ++ s.sources ∧ (ds.foldl kahnEdge s).result = s.result ∧ new.Nodup ∧
      (∀ x, degOf (ds.foldl kahnEdge s).deg x = degOf s.deg x - ds.count x) ∧
      ∀ x, x ∈ new ↔ degOf (ds.foldl kahnEdge s).deg x = 0 ∧ 0 < ds.count x := by
  induction ds with
  | nil => intro s _; exact ⟨[], rfl, rfl, List.nodup_nil, by simp, by simp⟩
  | cons a ds ih =>
    intro s hs
    have hdeg : ∀ x, degOf (kahnEdge s a).deg x = if a = x then degOf s.deg x - 1 else degOf s.deg x := by
      intro x
      unfold kahnEdge degOf
      dsimp only
      rw [Dict.get?_set]
      by_cases h : a = x
      · subst h; simp
      · simp [h]
    have hcnt : ∀ x, ((a :: ds).count x : Int) = ds.count x + if a = x then 1 else 0 := by
      intro x
      rw [List.count_cons]
      by_cases h : a = x <;> simp [h]
    have hpre : ∀ x, (ds.count x : Int) ≤ degOf (kahnEdge s a).deg x := by
      intro x
      have := hs x
      rw [hcnt] at this
      rw [hdeg]
      split
      · simp_all; omega
      · simp_all
    obtain ⟨new, h1, h2, h3, h4, h5⟩ := ih (kahnEdge s a) hpre
    have h4' : ∀ x, degOf (ds.foldl kahnEdge (kahnEdge s a)).deg x = degOf s.deg x - (a :: ds).count x := by
      intro x
      rw [h4, hdeg, hcnt]
      split <;> omega
    rw [List.foldl_cons]
    have hres : (ds.foldl kahnEdge (kahnEdge s a)).result = s.result := h2
    by_cases hz : degOf s.deg a - 1 = 0
    · have hsrc : (kahnEdge s a).sources = a :: s.sources := by
        unfold kahnEdge degOf at *
        simp only [hz, if_true]
      have ha0 : ds.count a = 0 := by
        have := hpre a
        rw [hdeg, if_pos rfl, hz] at this
        omega
      have han : a ∉ new := by
        intro h
        have := ((h5 a).1 h).2
        omega
      refine ⟨new ++ [a], by rw [h1, hsrc]; simp, hres, ?_, h4', ?_⟩
      · rw [List.nodup_append]
        refine ⟨h3, by simp, ?_⟩
        intro x hx y hy hxy
        rw [List.mem_singleton] at hy
        subst hy; subst hxy
        exact han hx
      · intro x
        rw [List.mem_append, List.mem_singleton, h5]
        constructor
        · rintro (⟨h6, h7⟩ | rfl)
          · refine ⟨h6, ?_⟩
            have := hcnt x
            split at this <;> omega
          · refine ⟨?_, ?_⟩
            · rw [h4', hcnt, if_pos rfl, ha0]; omega
            · have := hcnt x; rw [if_pos rfl] at this; omega
        · rintro ⟨h6, h7⟩
          by_cases hx : x = a
          · exact .inr hx
          · refine .inl ⟨h6, ?_⟩
            have := hcnt x
            rw [if_neg (Ne.symm hx)] at this
            omega
    · have hsrc : (kahnEdge s a).sources = s.sources := by
        unfold kahnEdge degOf at *
        simp only [hz, if_false]
      refine ⟨new, by rw [h1, hsrc], hres, h3, h4', ?_⟩
      intro x
      rw [h5]
      refine and_congr_right fun h6 => ?_
      have hc := hcnt x
      by_cases hx : a = x
      · subst hx
        rw [if_pos rfl] at hc
        constructor
        · intro; omega
        · intro _
          -- the degree was more than one, so it reaches zero later
          rw [h4', hc] at h6
          omega
      · rw [if_neg hx] at hc
        omega

/-- Edges into `x` whose source has not been listed yet. -/
def openInto (E : List (String × String)) (res : List String) (x : String) : Nat := E.countP (fun e => decide (e.2 = x ∧ e.1 ∉ res))

theorem count_outDsts {out : Adj} (hn : out.keys.Nodup) (n x : String) :
    (outDsts (getOr out n)).count x = (allEdges out).countP (fun e => decide (e.2 = x ∧ e.1 = n)) := by
  induction out with
  | nil => simp [getOr, allEdges, outDsts, Dict.vals]
  | cons p out ih =>
    rw [Dict.keys, List.map_cons, List.nodup_cons] at hn
    have hsplit : allEdges (p :: out) = (outDsts p.2).map (fun d => (p.1, d)) ++ allEdges out := by simp [allEdges]
    rw [hsplit, List.countP_append, List.countP_map]
    by_cases h : p.1 = n
    · have h1 : getOr (p :: out) n = p.2 := by
        obtain ⟨a, b⟩ := p
        simp only at h
        simp [getOr, Dict.get?_cons, h]
      have h2 : (allEdges out).countP (fun e => decide (e.2 = x ∧ e.1 = n)) = 0 := by
        rw [List.countP_eq_zero]
        intro e he hd
        simp only [decide_eq_true_eq] at hd
        obtain ⟨q, hq, hq2⟩ := List.mem_flatMap.1 he
        obtain ⟨d, _, rfl⟩ := List.mem_map.1 hq2
        exact hn.1 (by rw [h, ← hd.2]; exact List.mem_map.2 ⟨q, hq, rfl⟩)
      rw [h1, h2, Nat.add_zero, List.count_eq_countP]
      exact List.countP_congr (fun y _ => by simp [h])
    · have h1 : getOr (p :: out) n = getOr out n := by
        obtain ⟨a, b⟩ := p
        simp only at h
        simp [getOr, Dict.get?_cons, h]
      have h2 : (outDsts p.2).countP ((fun e : String × String => decide (e.2 = x ∧ e.1 = n)) ∘ fun d => (p.1, d)) = 0 := by
        rw [List.countP_eq_zero]
        intro e _
        simp [h]
      rw [h1, h2, Nat.zero_add]
      exact ih hn.2

theorem openInto_snoc {E : List (String × String)} {res : List String} {n x : String} (hn : n ∉ res) :
    openInto E res x = openInto E (res ++ [n]) x + E.countP (fun e => decide (e.2 = x ∧ e.1 = n)) := by
  unfold openInto
  induction E with
  | nil => rfl
  | cons e E ih =>
    simp only [List.countP_cons, List.mem_append, List.mem_singleton, decide_eq_true_eq] at ih ⊢
    by_cases h1 : e.2 = x
    · by_cases h2 : e.1 = n
      · rw [ih]; simp [h1, h2, hn]; omega
      · by_cases h3 : e.1 ∈ res
        · rw [ih]; simp [h1, h2, h3]
        · rw [ih]; simp [h1, h2, h3]; omega
    · rw [ih]; simp [h1]

structure KahnInv (nodes : List String) (E : List (String × String)) (s : KahnSt) : Prop where
  deg : ∀ x, degOf s.deg x = openInto E s.result x
  src : ∀ x ∈ nodes, x ∈ s.result ∨ x ∈ s.sources ↔ degOf s.deg x = 0
  nodup : (s.sources ++ s.result).Nodup
  sub : ∀ x ∈ s.sources ++ s.result, x ∈ nodes
  ord : ∀ l1 x l2, s.result = l1 ++ x :: l2 → ∀ y, (y, x) ∈ E → y ∈ l1

theorem kahnLoop_spec {nodes : List String} {out : Adj} (hn : out.keys.Nodup) (hnodes : ∀ e ∈ allEdges out, e.2 ∈ nodes) :
    ∀ (f : Nat) (s : KahnSt), KahnInv nodes (allEdges out) s → nodes.length ≤ f + s.result.length →
      ∃ l, kahnLoop out f s = some l ∧ l.Nodup ∧ (∀ x ∈ l, x ∈ nodes) ∧ ∀ l1 x l2, l = l1 ++ x :: l2 → ∀ y, (y, x) ∈ allEdges out → y ∈ l1
  | 0, s, hi, hf => by
    have hsrc : s.sources = [] := by
      have hlen : (s.sources ++ s.result).length ≤ nodes.length := (List.Nodup.subperm hi.nodup (fun x hx => hi.sub x hx)).length_le
      rw [List.length_append] at hlen
      exact List.eq_nil_of_length_eq_zero (by omega)
    refine ⟨s.result, by unfold kahnLoop; rw [if_pos hsrc], (List.nodup_append.1 hi.nodup).2.1, fun x hx => hi.sub x (List.mem_append_right _ hx), hi.ord⟩
  | f + 1, s, hi, hf => by
    unfold kahnLoop
    cases hs : s.sources with
    | nil => exact ⟨s.result, rfl, (List.nodup_append.1 hi.nodup).2.1, fun x hx => hi.sub x (List.mem_append_right _ hx), hi.ord⟩
    | cons n rest =>
      dsimp only
      have hnod := hi.nodup
      rw [hs, List.cons_append, List.nodup_cons] at hnod
      have hnres : n ∉ s.result := fun h => hnod.1 (List.mem_append_right _ h)
      have hnn : n ∈ nodes := hi.sub n (by rw [hs]; simp)
      have hdn : degOf s.deg n = 0 := (hi.src n hnn).1 (.inr (by rw [hs]; simp))
      have hcount : ∀ x, openInto (allEdges out) s.result x = openInto (allEdges out) (s.result ++ [n]) x + (outDsts (getOr out n)).count x := by
        intro x; rw [openInto_snoc hnres, count_outDsts hn]
      obtain ⟨new, h1, h2, h3, h4, h5⟩ := kahnEdges_spec (outDsts (getOr out n)) { s with sources := rest, result := s.result ++ [n] } (by
        intro x
        show _ ≤ degOf s.deg x
        rw [hi.deg, hcount]; omega)
      have hdeg' : ∀ x, degOf ((outDsts (getOr out n)).foldl kahnEdge { s with sources := rest, result := s.result ++ [n] }).deg x =
          openInto (allEdges out) (s.result ++ [n]) x := by
        intro x
        rw [h4]
        show degOf s.deg x - _ = _
        rw [hi.deg, hcount]; omega
      have hnewsrc : ∀ x ∈ new, x ∈ nodes ∧ x ∉ s.result ∧ x ∉ s.sources := by
        intro x hx
        obtain ⟨a1, a2⟩ := (h5 x).1 hx
        have hxn : x ∈ nodes := by
          rw [count_outDsts hn, List.countP_pos_iff] at a2
          obtain ⟨e, he, he2⟩ := a2
          simp only [decide_eq_true_eq] at he2
          rw [← he2.1]; exact hnodes e he
        have hpos : degOf s.deg x ≠ 0 := by
          rw [hi.deg, hcount]; omega
        exact ⟨hxn, fun h => hpos ((hi.src x hxn).1 (.inl h)), fun h => hpos ((hi.src x hxn).1 (.inr h))⟩
      refine kahnLoop_spec hn hnodes f _ ⟨?_, ?_, ?_, ?_, ?_⟩ (by rw [h2]; show _ ≤ f + (s.result ++ [n]).length; rw [List.length_append]; simp only [List.length_singleton]; omega)
      · intro x; rw [hdeg', h2]
      · intro x hx
        rw [h1, h2]
        show x ∈ s.result ++ [n] ∨ x ∈ new ++ rest ↔ _
        have hsx := hi.src x hx
        rw [hs] at hsx
        constructor
        · intro h
          by_cases hnew : x ∈ new
          · exact ((h5 x).1 hnew).1
          · have : degOf s.deg x = 0 := hsx.1 (by
              simp only [List.mem_append, List.mem_cons, List.not_mem_nil, or_false] at h ⊢
              rcases h with (h | h) | (h | h)
              · exact .inl h
              · exact .inr (.inl h)
              · exact absurd h hnew
              · exact .inr (.inr h))
            rw [hdeg']
            rw [hi.deg, hcount] at this
            omega
        · intro h
          by_cases hc : 0 < (outDsts (getOr out n)).count x
          · exact .inr (List.mem_append_left _ ((h5 x).2 ⟨h, hc⟩))
          · have : degOf s.deg x = 0 := by
              rw [hi.deg, hcount]
              rw [hdeg'] at h
              omega
            rcases hsx.2 this with h6 | h6
            · exact .inl (List.mem_append_left _ h6)
            · rcases List.mem_cons.1 h6 with rfl | h6
              · exact .inl (by simp)
              · exact .inr (List.mem_append_right _ h6)
      · rw [h1, h2]
        show ((new ++ rest) ++ (s.result ++ [n])).Nodup
        rw [List.nodup_append]
        have hr := List.nodup_append.1 hnod.2
        refine ⟨?_, ?_, ?_⟩
        · rw [List.nodup_append]
          refine ⟨h3, hr.1, ?_⟩
          rintro x hx y hy rfl
          exact (hnewsrc x hx).2.2 (by rw [hs]; exact List.mem_cons_of_mem _ hy)
        · rw [List.nodup_append]
          refine ⟨hr.2.1, by simp, ?_⟩
          rintro x hx y hy rfl
          rw [List.mem_singleton] at hy
          exact hnres (hy ▸ hx)
        · rintro x hx y hy rfl
          rcases List.mem_append.1 hx with hx | hx
          · rcases List.mem_append.1 hy with hy | hy
            · exact (hnewsrc x hx).2.1 hy
            · rw [List.mem_singleton] at hy
              exact (hnewsrc x hx).2.2 (by rw [hs, hy]; simp)
          · rcases List.mem_append.1 hy with hy | hy
            · exact hr.2.2 x hx x hy rfl
            · rw [List.mem_singleton] at hy
              exact hnod.1 (List.mem_append_left _ (hy ▸ hx))
      · rw [h1, h2]
        intro x hx
        have hx : x ∈ (new ++ rest) ++ (s.result ++ [n]) := hx
        simp only [List.mem_append, List.mem_singleton] at hx
        rcases hx with (hx | hx) | (hx | hx)
        · exact (hnewsrc x hx).1
        · exact hi.sub x (by rw [hs]; simp [hx])
        · exact hi.sub x (List.mem_append_right _ hx)
        · rw [hx]; exact hnn
      · intro l1 x l2 e y hy
        rw [h2] at e
        have e : s.result ++ [n] = l1 ++ x :: l2 := e
        have hlast : ∀ y, (y, n) ∈ allEdges out → y ∈ s.result := by
          intro y hy
          by_cases hyr : y ∈ s.result
          · exact hyr
          · exfalso
            have : 0 < openInto (allEdges out) s.result n := List.countP_pos_iff.2 ⟨(y, n), hy, by simpa using hyr⟩
            rw [hi.deg] at hdn
            omega
        rcases List.append_eq_append_iff.1 e with ⟨as, e1, e2⟩ | ⟨bs, e1, e2⟩
        · cases as with
          | nil => rw [List.nil_append] at e2; cases e2; rw [List.append_nil] at e1; subst e1; exact hlast y hy
          | cons a as =>
            have := congrArg List.length e2
            simp only [List.length_cons, List.length_nil, List.length_append] at this
            omega
        · cases bs with
          | nil => rw [List.nil_append] at e2; cases e2; rw [List.append_nil] at e1; subst e1; exact hlast y hy
          | cons b bs =>
            rw [List.cons_append] at e2
            cases e2
            exact hi.ord l1 x bs e1 y hy

theorem kahn_spec {nodes : List String} {out : Adj} (hnod : nodes.Nodup) (hn : out.keys.Nodup) (hnodes : ∀ e ∈ allEdges out, e.2 ∈ nodes) :
    ∃ l, kahn nodes out = some l ∧ l.Nodup ∧ (∀ x ∈ l, x ∈ nodes) ∧ ∀ l1 x l2, l = l1 ++ x :: l2 → ∀ y, (y, x) ∈ allEdges out → y ∈ l1 := by
  obtain ⟨h1, h2⟩ := inDeg_fold out (nodes.map fun n => (n, 0)) (by rw [keys_zero]; exact hnodes)
  rw [keys_zero] at h1
  have hd : ∀ x, degOf (inDegrees nodes out) x = (allEdges out).countP (fun e => decide (e.2 = x)) := by
    intro x
    unfold inDegrees
    rw [h2, deg_zero]; omega
  have hk : (inDegrees nodes out).keys = nodes := h1
  unfold kahn
  dsimp only
  rw [hk]
  refine kahnLoop_spec hn hnodes nodes.length _ ⟨?_, ?_, ?_, ?_, ?_⟩ (by simp)
  · intro x
    show degOf (inDegrees nodes out) x = _
    rw [hd]
    unfold openInto
    simp
  · intro x hx
    show x ∈ [] ∨ x ∈ (nodes.filter fun n => decide (((inDegrees nodes out).get? n).getD 0 = 0)).reverse ↔ degOf (inDegrees nodes out) x = 0
    simp [hx, degOf]
  · show ((nodes.filter _).reverse ++ []).Nodup
    rw [List.append_nil]
    exact List.pairwise_reverse.2 ((hnod.filter _).imp fun h => h.symm)
  · intro x hx
    have hx : x ∈ (nodes.filter fun n => decide (((inDegrees nodes out).get? n).getD 0 = 0)).reverse ++ [] := hx
    rw [List.append_nil, List.mem_reverse, List.mem_filter] at hx
    exact hx.1
  · intro l1 x l2 e
    have e : [] = l1 ++ x :: l2 := e
    simp at e

/-! ### the fallback graph -/

theorem plain_inner (a : String) (ds : List String) : ∀ (g : Graph String), a ∈ g.keys →
    (ds.foldl (fun g d => g.set a (PySet.add (Graph.nbrs g a) d)) g).keys = g.keys ∧
    ∀ x y, Graph.Edge (ds.foldl (fun g d => g.set a (PySet.add (Graph.nbrs g a) d)) g) x y ↔ Graph.Edge g x y ∨ x = a ∧ y ∈ ds := by
  induction ds with
  | nil => simp
  | cons d ds ih =>
    intro g ha
    have hk : (g.set a (PySet.add (Graph.nbrs g a) d)).keys = g.keys := by rw [Dict.keys_set, if_pos ha]
    rw [List.foldl_cons]
    obtain ⟨h1, h2⟩ := ih (g.set a (PySet.add (Graph.nbrs g a) d)) (by rw [hk]; exact ha)
    refine ⟨h1.trans hk, fun x y => ?_⟩
    rw [h2, edge_set]
    by_cases hx : a = x
    · subst hx
      rw [if_pos rfl, PySet.mem_add, List.mem_cons]
      simp [Graph.Edge, or_assoc]
    · have : ¬ x = a := fun e => hx e.symm
      simp [hx, this]

theorem plain_fold (out : Adj) : ∀ (g : Graph String), (∀ p ∈ out, p.1 ∈ g.keys) →
    (out.foldl (fun g p => (outDsts p.2).foldl (fun g d => g.set p.1 (PySet.add (Graph.nbrs g p.1) d)) g) g).keys = g.keys ∧
    ∀ x y, Graph.Edge (out.foldl (fun g p => (outDsts p.2).foldl (fun g d => g.set p.1 (PySet.add (Graph.nbrs g p.1) d)) g) g) x y ↔
      Graph.Edge g x y ∨ (x, y) ∈ allEdges out := by
  induction out with
  | nil => simp [allEdges]
  | cons p out ih =>
    intro g hg
    have hsplit : allEdges (p :: out) = (outDsts p.2).map (fun d => (p.1, d)) ++ allEdges out := by simp [allEdges]
    obtain ⟨h1, h2⟩ := plain_inner p.1 (outDsts p.2) g (hg p (by simp))
    rw [List.foldl_cons]
    obtain ⟨h3, h4⟩ := ih ((outDsts p.2).foldl (fun g d => g.set p.1 (PySet.add (Graph.nbrs g p.1) d)) g)
      (fun q hq => by rw [h1]; exact hg q (List.mem_cons_of_mem _ hq))
    refine ⟨h3.trans h1, fun x y => ?_⟩
    rw [h4, h2, hsplit, List.mem_append, or_assoc]
    have : (x = p.1 ∧ y ∈ outDsts p.2) ↔ (x, y) ∈ (outDsts p.2).map (fun d => (p.1, d)) := by
      rw [List.mem_map]
      constructor
      · rintro ⟨rfl, h⟩; exact ⟨y, h, rfl⟩
      · rintro ⟨d, hd, he⟩; cases he; exact ⟨rfl, hd⟩
    rw [this]

theorem plainGraph_spec {nodes : List String} {out : Adj} (hs : ∀ n ∈ out.keys, n ∈ nodes) :
    (plainGraph nodes out).keys = nodes ∧ ∀ x y, (plainGraph nodes out).Edge x y ↔ (x, y) ∈ allEdges out := by
  have hk : Dict.keys (nodes.map fun n => (n, ([] : List String))) = nodes := by simp [Dict.keys, Function.comp_def]
  obtain ⟨h1, h2⟩ := plain_fold out (nodes.map fun n => (n, [])) (fun p hp => by rw [hk]; exact hs p.1 (List.mem_map.2 ⟨p, hp, rfl⟩))
  refine ⟨h1.trans hk, fun x y => ?_⟩
  rw [show (plainGraph nodes out).Edge x y ↔ _ from h2 x y]
  have : ¬ Graph.Edge (nodes.map fun n => (n, ([] : List String))) x y := by
    unfold Graph.Edge Graph.nbrs
    clear h1 h2 hs hk
    induction nodes with
    | nil => simp
    | cons a l ih =>
      rw [List.map_cons, Dict.get?_cons]
      split
      · simp
      · exact ih
  simp only [this, false_or]

/-- An ordering in which all edges go forward. -/
theorem almostSorted_of_forward {nodes l : List String} {E : String → String → Prop} (hp : l.Perm nodes) (hnod : nodes.Nodup)
    (hE : ∀ a b, E a b → b ∈ nodes)
    (h : ∀ l1 x l2, l = l1 ++ x :: l2 → ∀ y, E y x → y ∈ l1) : AlmostSorted nodes E l := by
  have hln : l.Nodup := hp.nodup_iff.2 hnod
  -- everything that reaches `x` other than `x` itself is before `x`
  have hup : ∀ {y x}, Star E y x → x ∈ l → ∀ l1 l2, l = l1 ++ x :: l2 → y = x ∨ y ∈ l1 := by
    intro y x hyx
    induction hyx with
    | refl => intro _ _ _ _; exact .inl rfl
    | @tail c x hyc hcx ih =>
      intro hx l1 l2 e
      have hc := h l1 x l2 e c hcx
      obtain ⟨m1, m2, rfl⟩ := List.append_of_mem hc
      have e' : l = m1 ++ c :: (m2 ++ x :: l2) := by rw [e]; simp
      rcases ih (by rw [e']; simp) m1 _ e' with rfl | h'
      · exact .inr (by simp)
      · exact .inr (List.mem_append_left _ h')
  have hanti : ∀ x ∈ l, ∀ y, Star E x y → Star E y x → y = x := by
    intro x hx y hxy hyx
    obtain ⟨l1, l2, e⟩ := List.append_of_mem hx
    rcases hup hyx hx l1 l2 e with rfl | hy
    · rfl
    · exfalso
      obtain ⟨m1, m2, rfl⟩ := List.append_of_mem hy
      have e' : l = m1 ++ y :: (m2 ++ x :: l2) := by rw [e]; simp
      have hno := hln
      rw [e', List.nodup_append] at hno
      rcases hup hxy (by rw [e']; simp) m1 _ e' with rfl | h'
      · exact (List.nodup_cons.1 hno.2.1).1 (by simp)
      · exact hno.2.2 x h' x (by simp) rfl
  refine ⟨hp, ?_, ?_⟩
  · intro a b hab _
    obtain ⟨l1, l2, e⟩ := List.append_of_mem (hp.mem_iff.2 (hE a b hab))
    obtain ⟨m1, m2, rfl⟩ := List.append_of_mem (h l1 b l2 e a hab)
    exact ⟨m1, m2, l2, e⟩
  · intro x hx
    have hxl := hp.mem_iff.2 hx
    obtain ⟨l1, l2, e⟩ := List.append_of_mem hxl
    refine ⟨l1, [x], l2, by rw [e]; simp, fun y => ?_⟩
    rw [List.mem_singleton]
    constructor
    · rintro rfl; exact ⟨.refl, .refl⟩
    · rintro ⟨h1, h2⟩; exact hanti x hxl y h1 h2

theorem topsort_spec (le : String → String → Bool) (leL : List String → List String → Bool) {nodes : List String} {out : Adj}
    (hnod : nodes.Nodup) (hn : out.keys.Nodup) (hs : ∀ n ∈ out.keys, n ∈ nodes) (hnodes : ∀ e ∈ allEdges out, e.2 ∈ nodes) :
    ∃ l, topsortModuloSccs le leL nodes out = some l ∧ AlmostSorted nodes (fun a b => (a, b) ∈ allEdges out) l := by
  obtain ⟨l, h1, h2, h3, h4⟩ := kahn_spec hnod hn hnodes
  unfold topsortModuloSccs
  rw [h1, Option.bind_some]
  by_cases hlen : l.length ≠ nodes.length
  · rw [if_pos hlen]
    obtain ⟨hk, he⟩ := plainGraph_spec hs
    obtain ⟨l', h5, h6⟩ := almostTopologicalSort_spec le leL (plainGraph nodes out) (by rw [hk]; exact hnod)
      (fun a b hab => by rw [hk]; exact hnodes (a, b) ((he a b).1 hab))
    have hE : (plainGraph nodes out).Edge = fun a b => (a, b) ∈ allEdges out := by
      funext a b; exact propext (he a b)
    rw [hE, hk] at h6
    exact ⟨l', h5, h6⟩
  · rw [if_neg hlen]
    simp only [ne_eq, Classical.not_not] at hlen
    refine ⟨l, rfl, almostSorted_of_forward ?_ hnod (fun a b h => hnodes (a, b) h) (fun l1 x l2 e y hy => h4 l1 x l2 e y hy)⟩
    exact (List.Nodup.subperm h2 (fun x hx => h3 x hx)).perm_of_length_le (by omega)

end Verif
