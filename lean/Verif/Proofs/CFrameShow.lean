import Verif.Spec.FrameShow
import Verif.Proofs.CFrameTable
import Verif.Proofs.SortedReach
/-!
Proofs about the printed graph of a frame.
-/
namespace Verif

open Props

/-! ### positions of outputs -/

theorem takeWhile_all {α : Type} (p : α → Bool) (l : List α) (h : ∀ x ∈ l, p x = true) : l.takeWhile p = l := by
  induction l with
  | nil => rfl
  | cons x l ih => rw [List.takeWhile_cons, if_pos (h x (by simp)), ih fun y hy => h y (by simp [hy])]

theorem secondPart_idxName (a : String) (ha : '_' ∉ a.toList) (i : Nat) : secondPart (idxName a i) = .ok i := by
  have hd : ∀ x ∈ Nat.toDigits 10 i, x.isDigit = true := fun x hx => Nat.isDigit_of_mem_toDigits (by decide) (by decide) hx
  have h1 : (idxName a i).toList.dropWhile (· ≠ '_') = '_' :: Nat.toDigits 10 i := by
    rw [idxName_toList]
    generalize Nat.toDigits 10 i = r
    generalize a.toList = l at ha
    induction l with
    | nil => simp
    | cons x l ih =>
      have hx : x ≠ '_' := fun e => ha (by rw [e]; simp)
      rw [List.cons_append, List.dropWhile_cons_of_pos (by simpa using hx)]
      exact ih fun h => ha (List.mem_cons_of_mem _ h)
  have h2 : (Nat.toDigits 10 i).takeWhile (· ≠ '_') = Nat.toDigits 10 i := by
    refine takeWhile_all _ _ fun x hx => ?_
    have := hd x hx
    simp only [ne_eq, decide_not, Bool.not_eq_eq_eq_not, Bool.not_true, decide_eq_false_iff_not]
    rintro rfl
    revert this; decide
  have hne : Nat.toDigits 10 i ≠ [] := by
    intro h
    have h1 := Nat.ofDigitChars_toDigits (b := 10) (n := i) (by decide) (by decide)
    cases i with
    | zero => revert h; decide
    | succ i => rw [h] at h1; simp [Nat.ofDigitChars] at h1
  unfold secondPart
  rw [h1]
  dsimp only
  rw [h2, if_pos ⟨hne, by rw [List.all_eq_true]; exact hd⟩, Nat.ofDigitChars_toDigits (by decide) (by decide)]

theorem outIndex_ok {names : Option (List String)} {l : String} {i : Nat} (h : Ordinal names l i) : ∃ j, outIndex names l = .ok j := by
  cases names with
  | none =>
    obtain ⟨a, ha, rfl⟩ := h
    exact ⟨i, secondPart_idxName a ha i⟩
  | some ns =>
    unfold outIndex
    dsimp only
    cases hf : ns.zipIdx.reverse.find? (fun p => decide (p.1 = l)) with
    | some p => exact ⟨p.2, rfl⟩
    | none =>
      have := List.find?_eq_none.1 hf (l, i) (List.mem_reverse.2 (List.mem_zipIdx_iff_getElem?.2 h))
      exact absurd (decide_eq_true rfl) this

theorem outIndex_eq {names : Option (List String)} (hn : ∀ ns, names = some ns → ns.Nodup) {l : String} {i j : Nat} (h : Ordinal names l i) (hj : outIndex names l = .ok j) : j = i := by
  cases names with
  | none =>
    obtain ⟨a, ha, rfl⟩ := h
    have : outIndex none (idxName a i) = .ok i := secondPart_idxName a ha i
    rw [this] at hj
    injection hj with hj
    exact hj.symm
  | some ns =>
    unfold outIndex at hj
    dsimp only at hj
    cases hf : ns.zipIdx.reverse.find? (fun p => decide (p.1 = l)) with
    | none => rw [hf] at hj; exact nomatch hj
    | some p =>
      rw [hf] at hj
      injection hj with hj
      have h1 := List.mem_zipIdx_iff_getElem?.1 (List.mem_reverse.1 (List.mem_of_find?_eq_some hf))
      have h2 : p.1 = l := by simpa using List.find?_some hf
      rw [h2, hj] at h1
      have h3 : ns[i]? = some l := h
      obtain ⟨k1, e1⟩ := List.getElem?_eq_some_iff.1 h1
      obtain ⟨k2, e2⟩ := List.getElem?_eq_some_iff.1 h3
      exact (List.getElem_inj (hn ns rfl)).1 (e1.trans e2.symm)

/-! ### sorting by key -/

theorem insByNum_perm {α : Type} (x : α × Nat) (l : List (α × Nat)) : (insByNum x l).Perm (x :: l) := by
  induction l with
  | nil => exact .refl _
  | cons y l ih =>
    unfold insByNum
    split
    · exact .refl _
    · exact (ih.cons y).trans (.swap ..)

theorem sortKey_perm {α : Type} (l : List (α × Nat)) : (sortKey l).Perm l := by
  induction l with
  | nil => exact .refl _
  | cons x l ih => exact (insByNum_perm x _).trans (ih.cons x)

theorem insByNum_sorted {α : Type} (x : α × Nat) (l : List (α × Nat)) (h : l.Pairwise fun a b => a.2 ≤ b.2) : (insByNum x l).Pairwise fun a b => a.2 ≤ b.2 := by
  induction l with
  | nil => simp [insByNum]
  | cons y l ih =>
    rw [List.pairwise_cons] at h
    unfold insByNum
    split <;> rename_i hxy
    · rw [List.pairwise_cons, List.pairwise_cons]
      refine ⟨fun z hz => ?_, h⟩
      rcases List.mem_cons.1 hz with rfl | hz
      · exact hxy
      · exact Nat.le_trans hxy (h.1 z hz)
    · rw [List.pairwise_cons]
      refine ⟨fun z hz => ?_, ih h.2⟩
      rcases List.mem_cons.1 ((insByNum_perm x l).mem_iff.1 hz) with rfl | hz
      · omega
      · exact h.1 z hz

theorem sortKey_sorted {α : Type} (l : List (α × Nat)) : (sortKey l).Pairwise fun a b => a.2 ≤ b.2 := by
  induction l with
  | nil => exact .nil
  | cons x l ih => exact insByNum_sorted x _ ih

namespace CFrame

/-- `sort_nodes` puts what is reachable later. -/
theorem sortIn_before {po : PyOrd} (hpo : po.Ok) {f : CFrame} (G : GraphWf f) (which : List String) :
    ∃ l, f.sortIn po which = .ok l ∧ l.Nodup ∧ (∀ x, x ∈ l ↔ (f.IsVar x ∨ f.IsFunc x) ∧ x ∈ which) ∧
      ∀ a b, a ∈ which → b ∈ which → Star f.Next a b → ¬ Star f.Next b a → Before l a b := by
  have hp := hpo.set f.nodes
  have hk : (f.outLists po).keys = po.set f.nodes := keys_mapKeys _ _
  have hnod : (po.set f.nodes).Nodup := hp.nodup_iff.2 (nodup_nodes f)
  have hnode : ∀ n, n ∈ po.set f.nodes ↔ f.IsVar n ∨ f.IsFunc n := fun n => by rw [hp.mem_iff, mem_nodes]
  have hedge : ∀ a b, (a, b) ∈ allEdges (f.outLists po) ↔ f.Next a b := by
    intro a b
    constructor
    · intro he
      obtain ⟨q, hq, he⟩ := List.mem_flatMap.1 he
      obtain ⟨n, _, rfl⟩ := List.mem_map.1 hq
      obtain ⟨d, hd, e⟩ := List.mem_map.1 he
      injection e with e1 e2
      dsimp only at e1
      subst e1 e2
      obtain ⟨ds, hds, hd⟩ := List.mem_flatten.1 hd
      obtain ⟨q, hq, rfl⟩ := List.mem_map.1 hds
      obtain ⟨l, _, rfl⟩ := List.mem_map.1 hq
      exact ⟨l, inAdj_getOr.1 (mem_getOr.1 ((hpo.set _).mem_iff.1 hd))⟩
    · rintro ⟨l, h⟩
      have hn : a ∈ po.set f.nodes := by
        rw [hnode]
        rcases G.bip _ _ _ h with h | h
        · exact .inl h.1
        · exact .inr h.1
      have hin := inAdj_getOr.2 h
      refine List.mem_flatMap.2 ⟨_, List.mem_map.2 ⟨a, hn, rfl⟩, List.mem_map.2 ⟨b, ?_, rfl⟩⟩
      refine List.mem_flatten.2 ⟨po.set (getOr (getOr f.out a) l), List.mem_map.2 ⟨(l, _), List.mem_map.2 ⟨l, ?_, rfl⟩, rfl⟩, ?_⟩
      · exact PySet.mem_ofList.2 hin.key
      · exact (hpo.set _).mem_iff.2 (mem_getOr.2 hin)
  have hdst : ∀ e ∈ allEdges (f.outLists po), e.2 ∈ po.set f.nodes := by
    intro e he
    obtain ⟨l, h⟩ := (hedge e.1 e.2).1 he
    rw [hnode]
    rcases G.bip _ _ _ h with h | h
    · exact .inr h.2
    · exact .inl h.2
  obtain ⟨l, h1, h2⟩ := topsort_spec po.le po.leL hnod (by rw [hk]; exact hnod) (by rw [hk]; exact fun _ h => h) hdst
  refine ⟨l.filter (· ∈ which), by unfold sortIn sortNodes; rw [h1]; rfl, (h2.perm.nodup_iff.2 hnod).filter _, fun x => ?_, fun a b ha hb hs hns => ?_⟩
  · rw [List.mem_filter, h2.perm.mem_iff, hnode]
    simp
  · have e : (fun a b => (a, b) ∈ allEdges (f.outLists po)) = f.Next := by
      funext a b
      exact propext (hedge a b)
    rw [e] at h2
    refine (h2.reach hnod (fun a b h => ?_) hs hns).filter _ (by simpa using ha) (by simpa using hb)
    obtain ⟨l, h⟩ := h
    rw [hnode, hnode]
    rcases G.bip _ _ _ h with h | h
    · exact ⟨.inl h.1, .inr h.2⟩
    · exact ⟨.inr h.1, .inl h.2⟩

theorem opsOf_ok {po : PyOrd} (hpo : po.Ok) {f : CFrame} (hE : f.NoEmptyFunc) (hc : ∀ n h, f.HasCall n h → h ∈ f.calls.keys) :
    ∃ ops, f.opsOf po = .ok ops ∧ ∀ n, f.IsFunc n → ∃ h c, f.HasCall n h ∧ f.calls.get? h = some c ∧ ops.get? n = some c.op := by
  have key : ∀ n, ∃ q : String × String, n ∈ PySet.ofList f.fs.keys → (q.1 = n ∧ ∃ h c, f.HasCall n h ∧ f.calls.get? h = some c ∧ q.2 = c.op ∧
      (match po.set (getOr f.fs n) with
        | [] => (.error .notImplemented : Except Err (String × String))
        | h :: _ => do
          let c ← getE f.calls h
          .ok (n, c.op)) = .ok q) := by
    intro n
    by_cases hn : n ∈ PySet.ofList f.fs.keys
    · obtain ⟨h0, hh0⟩ := hE n (PySet.mem_ofList.1 hn)
      have hm : h0 ∈ po.set (getOr f.fs n) := (hpo.set _).mem_iff.2 (mem_getOr.2 hh0)
      cases hp : po.set (getOr f.fs n) with
      | nil => rw [hp] at hm; exact nomatch hm
      | cons h rest =>
        have hh : f.HasCall n h := mem_getOr.1 ((hpo.set _).mem_iff.1 (by rw [hp]; simp))
        obtain ⟨c, hcc⟩ := Dict.mem_keys.1 (hc n h hh)
        refine ⟨(n, c.op), fun _ => ⟨rfl, h, c, hh, hcc, rfl, ?_⟩⟩
        show (getE f.calls h >>= fun c => Except.ok (n, c.op)) = _
        unfold getE
        rw [hcc]
        rfl
    · exact ⟨("", ""), fun h => absurd h hn⟩
  let G : String → String × String := fun n => Classical.choose (key n)
  have hG := fun n => Classical.choose_spec (key n)
  refine ⟨(PySet.ofList f.fs.keys).map G, mapM_ok fun n hn => ?_, fun n hn => ?_⟩
  · obtain ⟨_, _, _, _, _, _, h⟩ := hG n hn
    exact h
  · obtain ⟨h1, h, c, h2, h3, h4, _⟩ := hG n (PySet.mem_ofList.2 hn)
    refine ⟨h, c, h2, h3, ?_⟩
    have : (PySet.ofList f.fs.keys).map G = (PySet.ofList f.fs.keys).map fun n => (n, (G n).2) :=
      List.map_congr_left fun m hm => Prod.ext (hG m hm).1 rfl
    rw [this]
    have hg : Dict.get? ((PySet.ofList f.fs.keys).map fun n => (n, (G n).2)) n = some (G n).2 := by
      have hmem : n ∈ PySet.ofList f.fs.keys := PySet.mem_ofList.2 hn
      generalize PySet.ofList f.fs.keys = l at hmem
      induction l with
      | nil => exact nomatch hmem
      | cons m l ih =>
        rw [List.map_cons, Dict.get?_cons]
        split
        · rename_i e; rw [e]
        · rename_i e
          rcases List.mem_cons.1 hmem with e' | hm
          · exact absurd e'.symm e
          · exact ih hm
    rw [hg, ← h4]

theorem showFunc_ok {po : PyOrd} (hpo : po.Ok) {names : String → Option (List String)} (hnames : ∀ op ns, names op = some ns → ns.Nodup) {f : CFrame} (G : GraphWf f)
    (hE : f.NoEmptyFunc) (hc : ∀ n h, f.HasCall n h → h ∈ f.calls.keys) (hO : f.Ordered names) {n : String} (hn : f.IsFunc n) :
    ∃ s, f.showFunc po names n = .ok s ∧ s.func = n ∧ (∀ a b l, s.Edge a b l ↔ (f.HasEdge a b l ∧ (a = n ∨ b = n))) ∧
      ∃ h k, f.HasCall n h ∧ f.calls.get? h = some k ∧
        (s.outs.map (·.1)).Pairwise fun a b => ∀ i j, Ordinal (names k.op) a i → Ordinal (names k.op) b j → i ≤ j := by
  obtain ⟨ops, h1, h2⟩ := opsOf_ok hpo hE hc
  obtain ⟨h, c, hh, hcc, hop⟩ := h2 n hn
  obtain ⟨i, hi⟩ := Dict.mem_keys.1 ((G.inpKey n).2 (.inr hn))
  obtain ⟨o, ho⟩ := Dict.mem_keys.1 ((G.outKey n).2 (.inr hn))
  have hout : ∀ l v, InSet o l v ↔ f.HasEdge n v l := by
    intro l v
    have : getOr f.out n = o := by unfold getOr; rw [ho]; rfl
    rw [← this]
    exact inAdj_getOr
  have hinp : ∀ l v, InSet i l v ↔ f.HasEdge v n l := by
    intro l v
    have : getOr f.inp n = i := by unfold getOr; rw [hi]; rfl
    rw [← this, inAdj_getOr]
    exact (G.sym v n l).symm
  have hidx : ∀ l, ∃ k : Nat, l ∈ PySet.ofList (Dict.keys o) → outIndex (names c.op) l = .ok k := by
    intro l
    by_cases hl : l ∈ PySet.ofList (Dict.keys o)
    · obtain ⟨x, hx⟩ := hO n h c o l hh hcc ho (PySet.mem_ofList.1 hl)
      obtain ⟨j, hj⟩ := outIndex_ok hx
      exact ⟨j, fun _ => hj⟩
    · exact ⟨0, fun h => absurd h hl⟩
  let K : String → Nat := fun l => Classical.choose (hidx l)
  have hK : ∀ l ∈ PySet.ofList (Dict.keys o), outIndex (names c.op) l = .ok (K l) := fun l => Classical.choose_spec (hidx l)
  have hls : (PySet.ofList (Dict.keys o)).mapM (fun l => do
      let k ← outIndex (names c.op) l
      (.ok (l, k) : Except Err (String × Nat))) = .ok ((PySet.ofList (Dict.keys o)).map fun l => (l, K l)) :=
    mapM_ok fun l hl => by rw [hK l hl]; rfl
  refine ⟨{ func := n, outs := (sortKey ((PySet.ofList (Dict.keys o)).map fun l => (l, K l))).map fun p => (p.1, po.set (getOr o p.1)),
            ins := ((PySet.ofList (Dict.keys i)).filter fun l => getOr i l ≠ []).map fun l => (l, po.set (getOr i l)) }, ?_, rfl, fun a b l => ?_, h, c, hh, hcc, ?_⟩
  · unfold showFunc
    rw [h1]
    have e1 : getE ops n = .ok c.op := by unfold getE; rw [hop]
    have e2 : getE f.inp n = .ok i := by unfold getE; rw [hi]
    have e3 : getE f.out n = .ok o := by unfold getE; rw [ho]
    simp only [bind, Except.bind, e1, e2, e3] at hls ⊢
    rw [hls]
  · unfold ShownCall.Edge
    dsimp only
    constructor
    · rintro (⟨rfl, vs, hvs, hb⟩ | ⟨rfl, vs, hvs, ha⟩)
      · obtain ⟨p, _, e⟩ := List.mem_map.1 hvs
        injection e with e1 e2
        subst e1 e2
        exact ⟨(hout _ _).1 (mem_getOr.1 ((hpo.set _).mem_iff.1 hb)), .inl rfl⟩
      · obtain ⟨l', _, e⟩ := List.mem_map.1 hvs
        injection e with e1 e2
        subst e1 e2
        exact ⟨(hinp _ _).1 (mem_getOr.1 ((hpo.set _).mem_iff.1 ha)), .inr rfl⟩
    · rintro ⟨he, rfl | rfl⟩
      · have hs := (hout l b).2 he
        refine .inl ⟨rfl, po.set (getOr o l), List.mem_map.2 ⟨(l, K l), ?_, rfl⟩, (hpo.set _).mem_iff.2 (mem_getOr.2 hs)⟩
        exact (sortKey_perm _).mem_iff.2 (List.mem_map.2 ⟨l, PySet.mem_ofList.2 hs.key, rfl⟩)
      · have hs := (hinp l a).2 he
        have hm := mem_getOr.2 hs
        refine .inr ⟨rfl, po.set (getOr i l), List.mem_map.2 ⟨l, List.mem_filter.2 ⟨PySet.mem_ofList.2 hs.key, ?_⟩, rfl⟩, (hpo.set _).mem_iff.2 hm⟩
        simp only [ne_eq, decide_not, Bool.not_eq_eq_eq_not, Bool.not_true, decide_eq_false_iff_not]
        intro e
        rw [e] at hm
        exact nomatch hm
  · dsimp only
    rw [List.map_map, List.pairwise_map]
    have hs := sortKey_sorted ((PySet.ofList (Dict.keys o)).map fun l => (l, K l))
    refine (List.Pairwise.and_mem.1 hs).imp ?_
    rintro ⟨a, ka⟩ ⟨b, kb⟩ ⟨ma, mb, hle⟩ i' j' hi' hj'
    dsimp only [Function.comp_apply] at hle hi' hj'
    obtain ⟨l, hl, e⟩ := List.mem_map.1 ((sortKey_perm _).mem_iff.1 ma)
    obtain ⟨l', hl', e'⟩ := List.mem_map.1 ((sortKey_perm _).mem_iff.1 mb)
    injection e with e1 e2
    injection e' with e3 e4
    subst e1 e2 e3 e4
    rw [← outIndex_eq (hnames c.op) hi' (hK _ hl), ← outIndex_eq (hnames c.op) hj' (hK _ hl')]
    exact hle

theorem graphDesc_ok {po : PyOrd} (hpo : po.Ok) {names : String → Option (List String)} (hnames : ∀ op ns, names op = some ns → ns.Nodup) {f : CFrame} (G : GraphWf f)
    (hE : f.NoEmptyFunc) (hc : ∀ n h, f.HasCall n h → h ∈ f.calls.keys) (hO : f.Ordered names) : ∃ s, f.graphDesc po names = .ok s ∧ f.ShownAs names s := by
  obtain ⟨l, h1, h2, h3, h4⟩ := sortIn_before hpo G f.fs.keys
  have hl : ∀ n, n ∈ l ↔ f.IsFunc n := fun n => (h3 n).trans ⟨fun h => h.2, fun h => ⟨.inr h, h⟩⟩
  let S : String → ShownCall := fun n => if h : f.IsFunc n then Classical.choose (showFunc_ok hpo hnames G hE hc hO h) else ⟨n, [], []⟩
  have hS : ∀ n, f.IsFunc n → f.showFunc po names n = .ok (S n) ∧ (S n).func = n ∧ (∀ a b l, (S n).Edge a b l ↔ (f.HasEdge a b l ∧ (a = n ∨ b = n))) ∧
      ∃ h k, f.HasCall n h ∧ f.calls.get? h = some k ∧
        ((S n).outs.map (·.1)).Pairwise fun a b => ∀ i j, Ordinal (names k.op) a i → Ordinal (names k.op) b j → i ≤ j := by
    intro n hn
    have e : S n = Classical.choose (showFunc_ok hpo hnames G hE hc hO hn) := dif_pos hn
    rw [e]
    exact Classical.choose_spec (showFunc_ok hpo hnames G hE hc hO hn)
  have hm : l.mapM (f.showFunc po names) = .ok (l.map S) := mapM_ok fun n hn => (hS n ((hl n).1 hn)).1
  have hmap : (l.map S).map (·.func) = l := by
    rw [List.map_map]
    conv_rhs => rw [← List.map_id l]
    exact List.map_congr_left fun n hn => (hS n ((hl n).1 hn)).2.1
  refine ⟨⟨sortNames f.isolatedVars, l.map S⟩, ?_, ?_, ?_, ?_, ?_, ?_, ?_⟩
  · unfold graphDesc
    rw [h1]
    show (l.mapM (f.showFunc po names) >>= fun calls => Except.ok (Shown.mk (sortNames f.isolatedVars) calls)) = _
    rw [hm]
    rfl
  · rw [hmap]; exact h2
  · intro n; rw [hmap]; exact hl n
  · intro a b l'
    unfold Shown.Edge
    constructor
    · rintro ⟨c, hcm, he⟩
      obtain ⟨n, hn, rfl⟩ := List.mem_map.1 hcm
      exact (((hS n ((hl n).1 hn)).2.2.1 a b l').1 he).1
    · intro he
      rcases G.bip _ _ _ he with h | h
      · exact ⟨S b, List.mem_map.2 ⟨b, (hl b).2 h.2, rfl⟩, ((hS b h.2).2.2.1 a b l').2 ⟨he, .inr rfl⟩⟩
      · exact ⟨S a, List.mem_map.2 ⟨a, (hl a).2 h.1, rfl⟩, ((hS a h.1).2.2.1 a b l').2 ⟨he, .inl rfl⟩⟩
  · intro v
    show v ∈ sortNames f.isolatedVars ↔ _
    rw [mem_sortNames]
    unfold isolatedVars
    rw [List.mem_filter, PySet.mem_ofList]
    refine and_congr_right fun _ => ?_
    simp only [decide_eq_true_eq, List.eq_nil_iff_forall_not_mem]
    constructor
    · rintro ⟨k1, k2⟩ m
      exact ⟨fun ⟨l, h⟩ => k2 (v, m, l) (by simp [outEdges, PySet.mem_ofList, List.mem_filter, mem_edges', h]),
        fun ⟨l, h⟩ => k1 (m, v, l) (by simp [inEdges, PySet.mem_ofList, List.mem_filter, mem_edges', h])⟩
    · intro k
      constructor
      · intro e he
        simp only [inEdges, PySet.mem_ofList, List.mem_filter, mem_edges', decide_eq_true_eq] at he
        exact (k e.1).2 ⟨e.2.2, he.2 ▸ he.1⟩
      · intro e he
        simp only [outEdges, PySet.mem_ofList, List.mem_filter, mem_edges', decide_eq_true_eq] at he
        exact (k e.2.1).1 ⟨e.2.2, he.2 ▸ he.1⟩
  · intro n m hn hm hs hns
    rw [hmap]
    exact h4 n m hn hm hs hns
  · intro c hcm
    obtain ⟨n, hn, rfl⟩ := List.mem_map.1 hcm
    obtain ⟨_, e, _, h, k, h1, h2, h3⟩ := hS n ((hl n).1 hn)
    exact ⟨h, k, by rw [e]; exact h1, h2, h3⟩

/-- A function without calls makes all of it fail. -/
theorem opsOf_empty {po : PyOrd} (hpo : po.Ok) {f : CFrame} (hc : ∀ n h, f.HasCall n h → h ∈ f.calls.keys) {n : String} (hn : f.IsFunc n) (hno : ∀ h, ¬ f.HasCall n h) :
    f.opsOf po = .error .notImplemented := by
  unfold opsOf
  have hm : n ∈ PySet.ofList f.fs.keys := PySet.mem_ofList.2 hn
  generalize PySet.ofList f.fs.keys = l at hm
  induction l with
  | nil => exact nomatch hm
  | cons m l ih =>
    rw [List.mapM_cons]
    cases hp : po.set (getOr f.fs m) with
    | nil => rfl
    | cons h rest =>
      have hh : f.HasCall m h := mem_getOr.1 ((hpo.set _).mem_iff.1 (by rw [hp]; simp))
      obtain ⟨c, hcc⟩ := Dict.mem_keys.1 (hc m h hh)
      have hml : n ∈ l := by
        rcases List.mem_cons.1 hm with e | h'
        · exact absurd (e ▸ hh) (hno h)
        · exact h'
      dsimp only
      have e1 : getE f.calls h = .ok c := by unfold getE; rw [hcc]
      rw [e1, ih hml]
      rfl

theorem graphDesc_empty {po : PyOrd} (hpo : po.Ok) (names : String → Option (List String)) {f : CFrame} (G : GraphWf f)
    (hc : ∀ n h, f.HasCall n h → h ∈ f.calls.keys) {n : String} (hn : f.IsFunc n) (hno : ∀ h, ¬ f.HasCall n h) : f.graphDesc po names = .error .notImplemented := by
  obtain ⟨l, h1, h2, h3, h4⟩ := sortIn_before hpo G f.fs.keys
  unfold graphDesc
  rw [h1]
  show (l.mapM (f.showFunc po names) >>= fun calls => Except.ok (Shown.mk (sortNames f.isolatedVars) calls)) = _
  have hm : n ∈ l := (h3 n).2 ⟨.inr hn, hn⟩
  cases l with
  | nil => exact nomatch hm
  | cons m l =>
    rw [List.mapM_cons]
    have : f.showFunc po names m = .error .notImplemented := by
      unfold showFunc
      rw [opsOf_empty hpo hc hn hno]
      rfl
    rw [this]
    rfl

end CFrame
end Verif
