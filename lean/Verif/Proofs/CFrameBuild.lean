import Verif.Model.CFrameBuild
import Verif.Proofs.CFrameAdd
import Verif.Proofs.CFrameReach
/-!
Names for new nodes, and the frame made from the calls of an op.
-/
namespace Verif

open Props

namespace CFrame

variable {R : FCall → Prop} {f : CFrame}

/-! ### names -/

theorem nextFree_some {used : List String} {v : String} : ∀ {k i : Nat} {n : String}, nextFree used v k i = some n →
    n ∉ used ∧ ∃ j, i ≤ j ∧ n = idxName v j ∧ ∀ m, i ≤ m → m < j → idxName v m ∈ used := by
  intro k
  induction k with
  | zero => intro i n h; cases h
  | succ k ih =>
    intro i n h
    unfold nextFree at h
    split at h
    · rename_i hu
      obtain ⟨h1, j, h2, h3, h4⟩ := ih h
      refine ⟨h1, j, by omega, h3, fun m hm hj => ?_⟩
      by_cases e : m = i
      · exact e ▸ hu
      · exact h4 m (by omega) hj
    · rename_i hu
      cases h
      exact ⟨hu, i, Nat.le_refl i, rfl, fun m h1 h2 => by omega⟩

theorem nextFree_none {used : List String} {v : String} : ∀ {k i : Nat}, nextFree used v k i = none → ∀ m, i ≤ m → m < i + k → idxName v m ∈ used := by
  intro k
  induction k with
  | zero => intro i _ m h1 h2; omega
  | succ k ih =>
    intro i h m h1 h2
    unfold nextFree at h
    split at h
    · rename_i hu
      by_cases e : m = i
      · exact e ▸ hu
      · exact ih h m (by omega) (by omega)
    · cases h

/-- The search ends: more names are tried than are in use. -/
theorem nextFree_total (used : List String) (v : String) (i : Nat) : ∃ n, nextFree used v (used.length + 1) i = some n := by
  cases h : nextFree used v (used.length + 1) i with
  | some n => exact ⟨n, rfl⟩
  | none =>
    exfalso
    have hm := nextFree_none h
    have : ((List.range' i (used.length + 1)).map (idxName v)).length ≤ used.length := by
      refine nodup_subset_length ?_ ?_
      · unfold List.Nodup
        rw [List.pairwise_map]
        refine List.Pairwise.imp ?_ (List.nodup_range' (s := i) (n := used.length + 1))
        intro a b hab e
        exact hab (idxName_inj e)
      · intro x hx
        obtain ⟨m, hm', rfl⟩ := List.mem_map.1 hx
        rw [List.mem_range'_1] at hm'
        exact hm m hm'.1 hm'.2
    simp at this
    omega

/-- The name whose numbered variants are tried for a hint. -/
def stem (hint : String) : String :=
  match numbered hint with
  | some _ => if firstPart hint = "output" then "var" else firstPart hint
  | none => hint

theorem getNewVname_spec (f : CFrame) (hint : String) : ∃ n, f.getNewVname hint = some n ∧ ¬ f.IsVar n ∧
    ((n = hint ∧ numbered hint = none) ∨ ∃ i, n = idxName (stem hint) i) := by
  unfold getNewVname stem
  cases h : numbered hint with
  | some i =>
    simp only
    split
    · obtain ⟨n, hn⟩ := nextFree_total f.vs.keys "var" 0
      obtain ⟨h1, j, _, h2, _⟩ := nextFree_some hn
      exact ⟨n, hn, h1, .inr ⟨j, h2⟩⟩
    · obtain ⟨n, hn⟩ := nextFree_total f.vs.keys (firstPart hint) i
      obtain ⟨h1, j, _, h2, _⟩ := nextFree_some hn
      exact ⟨n, hn, h1, .inr ⟨j, h2⟩⟩
  | none =>
    simp only
    split
    · obtain ⟨n, hn⟩ := nextFree_total f.vs.keys hint 0
      obtain ⟨h1, j, _, h2, _⟩ := nextFree_some hn
      exact ⟨n, hn, h1, .inr ⟨j, h2⟩⟩
    · rename_i hu
      exact ⟨hint, rfl, hu, .inl (by simp)⟩

theorem getNewFname_spec (f : CFrame) (hint : String) : ∃ n, f.getNewFname hint = some n ∧ ¬ f.IsFunc n ∧
    (n = hint ∨ ∃ i, n = idxName hint i) := by
  unfold getNewFname
  split
  · obtain ⟨n, hn⟩ := nextFree_total f.fs.keys hint 0
    obtain ⟨h1, j, _, h2, _⟩ := nextFree_some hn
    exact ⟨n, hn, h1, .inr ⟨j, h2⟩⟩
  · rename_i hu
    exact ⟨hint, rfl, hu, .inl rfl⟩

theorem insName_perm (x : String) (l : List String) : (insName x l).Perm (x :: l) := by
  induction l with
  | nil => exact List.Perm.refl _
  | cons y l ih =>
    unfold insName
    split
    · exact List.Perm.refl _
    · exact (ih.cons y).trans (List.Perm.swap x y l)

theorem sortNames_perm (l : List String) : (sortNames l).Perm l := by
  induction l with
  | nil => exact List.Perm.refl _
  | cons y l ih => exact (insName_perm y _).trans (ih.cons y)

theorem mem_sortNames {l : List String} {x : String} : x ∈ sortNames l ↔ x ∈ l := (sortNames_perm l).mem_iff

theorem nodup_sortNames {l : List String} (h : l.Nodup) : (sortNames l).Nodup := (sortNames_perm l).nodup_iff.2 h

theorem mem_inputNames {calls : List FCall} {x : String} : x ∈ inputNames calls ↔ ∃ c ∈ calls, x ∈ c.inputs.keys := by
  rw [inputNames, mem_sortNames, PySet.mem_ofList, List.mem_flatMap]

theorem mem_outputNames {calls : List FCall} {x : String} : x ∈ outputNames calls ↔ ∃ c ∈ calls, x ∈ c.outputs.keys := by
  rw [outputNames, mem_sortNames, PySet.mem_ofList, List.mem_flatMap]

/-! ### adding a call succeeds -/

theorem addCall_total (H : Wf R f) {n : String} {c : FCall} {s : List String} (hs : f.fs.get? n = some s) (hn : c.hid ∉ s) (allow : Bool) :
    ∃ g, f.addCall n c true allow = .ok g := by
  obtain ⟨i, hi⟩ := Dict.mem_keys.1 ((H.graph.inpKey n).2 (.inr (Dict.mem_keys.2 ⟨s, hs⟩)))
  obtain ⟨o, ho⟩ := Dict.mem_keys.1 ((H.graph.outKey n).2 (.inr (Dict.mem_keys.2 ⟨s, hs⟩)))
  have hfn : f.IsFunc n := Dict.mem_keys.2 ⟨s, hs⟩
  have hiv : ∀ l v, InSet i l v → f.IsVar v := by
    intro l v h
    have := (H.graph.sym v n l).2 ((inAdj_of_get hi).2 h)
    rcases H.graph.bip _ _ _ this with h | h
    · exact h.1
    · exact absurd hfn (H.graph.disj _ h.2)
  have hov : ∀ l v, InSet o l v → f.IsVar v := by
    intro l v h
    rcases H.graph.bip n v l ((inAdj_of_get ho).2 h) with h | h
    · exact absurd hfn (H.graph.disj _ h.1)
    · exact h.2
  obtain ⟨g1, hg1, a1⟩ := addInputs_spec (n := n) (c := c) (i := i) (ps := c.inputs) (f := reg f n c s)
    (H.ref.congr rfl rfl rfl) hi hiv
  obtain ⟨g2, hg2, a2⟩ := addOutputs_spec (n := n) (c := c) (i := o) (ps := c.outputs) (f := g1) a1.wf
    (by rw [a1.rest]; exact ho) (fun l v h => (a1.keys v).2 (hov l v h))
  refine ⟨g2, ?_⟩
  unfold addCall
  rw [getE_ok.2 hs]
  simp only [bind, Except.bind, hn, if_false, if_true]
  have hg1' := hg1
  unfold reg at hg1'
  rw [hg1']
  exact hg2

/-! ### from_op -/

/-- While the variables of an op are being made: `iv` and `ov` tell which variable stands for which input and output. -/
structure Stage (R : FCall → Prop) (op : String) (f : CFrame) (ins outs : List String) (iv ov : String → String) : Prop where
  wf : Wf R f
  func : ∀ n, f.IsFunc n ↔ n = op
  noCalls : f.fs.get? op = some []
  noRefs : ∀ v h, ¬ f.HasRef v h
  vars : ∀ v, f.IsVar v ↔ (∃ x ∈ ins, v = iv x) ∨ ∃ x ∈ outs, v = ov x
  edges : ∀ s d l, f.HasEdge s d l ↔ (∃ x ∈ ins, s = iv x ∧ d = op ∧ l = nameProj op x) ∨ ∃ x ∈ outs, s = op ∧ d = ov x ∧ l = nameProj op x
  injIn : ∀ x ∈ ins, ∀ y ∈ ins, iv x = iv y → x = y
  injOut : ∀ x ∈ outs, ∀ y ∈ outs, ov x = ov y → x = y
  apart : ∀ x ∈ ins, ∀ y ∈ outs, iv x ≠ ov y

theorem addEdge_new {s d l : String} {allow : Bool} (hs : s ∈ f.out.keys) (hd : d ∈ f.inp.keys) (he : ¬ f.HasEdge s d l) :
    f.addEdge s d l allow = .ok { f with out := adjAdd f.out s l d, inp := adjAdd f.inp d l s } := by
  unfold addEdge
  rw [if_neg (fun h => he (mem_edges.1 h)), if_pos]
  rw [Bool.and_eq_true, Dict.has_iff, Dict.has_iff]
  exact ⟨hs, hd⟩

theorem hasRef_addVar {v : String} (hv : v ∉ f.nodes) {w h : String} : (f.addVar v).HasRef w h ↔ f.HasRef w h := by
  have hv' : ¬ f.IsVar v ∧ ¬ f.IsFunc v := by rw [mem_nodes] at hv; exact not_or.1 hv
  exact inSet_set_nil fun _ => not_inSet_of_key hv'.1

theorem hasEdge_addVar (H : Wf R f) {v : String} (hv : v ∉ f.nodes) {s d l : String} : (f.addVar v).HasEdge s d l ↔ f.HasEdge s d l :=
  inAdj_set_nil fun _ _ => H.not_node_out hv

/-- The name of the op is not one of those that are made up for the variables of its inputs and outputs. -/
def NoClash (op name : String) : Prop := (numbered (nameProj op name) = none → op ≠ nameProj op name) ∧ ∀ i, op ≠ idxName (stem (nameProj op name)) i

theorem Stage.input {op : String} {ins outs : List String} {iv ov : String → String} (S : Stage R op f ins outs iv ov) {x : String} (hx : x ∉ ins)
    (hc : NoClash op x) : ∃ g v, fromOpInput op f x = .ok g ∧ Stage R op g (ins ++ [x]) outs (fun y => if y = x then v else iv y) ov := by
  obtain ⟨v, h1, h2, h3⟩ := getNewVname_spec f (nameProj op x)
  have hne : v ≠ op := by
    rintro rfl
    rcases h3 with ⟨h3, h4⟩ | ⟨i, h3⟩
    · exact hc.1 h4 h3
    · exact hc.2 i h3
  have hv : v ∉ f.nodes := by
    rw [mem_nodes, S.func]
    exact not_or.2 ⟨h2, hne⟩
  have W := wf_addVar S.wf hv
  have hopF : (f.addVar v).IsFunc op := (S.func op).2 rfl
  have hvV : (f.addVar v).IsVar v := by unfold addVar; exact Dict.mem_keys_set.2 (.inl rfl)
  have he : ∀ d l, ¬ (f.addVar v).HasEdge v d l := fun d l h => S.wf.not_node_out hv ((hasEdge_addVar S.wf hv).1 h)
  have hadd := addEdge_new (allow := false) (f := f.addVar v) (s := v) (d := op) (l := nameProj op x)
    ((W.graph.outKey v).2 (.inl hvV)) ((W.graph.inpKey op).2 (.inr hopF)) (he op _)
  have ev : ∀ w, (f.addVar v).IsVar w ↔ w = v ∨ f.IsVar w := fun w => Dict.mem_keys_set
  refine ⟨{ f.addVar v with out := adjAdd (f.addVar v).out v (nameProj op x) op, inp := adjAdd (f.addVar v).inp op (nameProj op x) v }, v, ?_, ?_⟩
  · unfold fromOpInput
    simp only [h1, ended, bind, Except.bind]
    exact hadd
  have nc : ∀ h, ¬ (f.addVar v).HasCall op h := by
    intro h hh
    rw [HasCall, inSet_iff_mem (show (f.addVar v).fs.get? op = some [] from S.noCalls)] at hh
    cases hh
  have hold : ∀ y ∈ ins, y ≠ x := fun y hy e => hx (e ▸ hy)
  have hin : ∀ y ∈ ins, (if y = x then v else iv y) = iv y := fun y hy => if_neg (hold y hy)
  have hvi : ∀ y ∈ ins, iv y ≠ v := fun y hy e => h2 ((S.vars v).2 (.inl ⟨y, hy, e.symm⟩))
  have hvo : ∀ y ∈ outs, ov y ≠ v := fun y hy e => h2 ((S.vars v).2 (.inr ⟨y, hy, e.symm⟩))
  constructor
  · exact wf_addEdge W hadd (.inl ⟨hvV, hopF, nc⟩)
  · exact S.func
  · exact S.noCalls
  · exact fun w h hh => S.noRefs w h ((hasRef_addVar hv).1 hh)
  · intro w
    rw [show IsVar _ w ↔ (f.addVar v).IsVar w from Iff.rfl, ev, S.vars]
    constructor
    · rintro (rfl | ⟨y, hy, rfl⟩ | h)
      · exact .inl ⟨x, by simp, by simp⟩
      · exact .inl ⟨y, by simp [hy], (hin y hy).symm⟩
      · exact .inr h
    · rintro (⟨y, hy, rfl⟩ | h)
      · rcases List.mem_append.1 hy with hy | hy
        · rw [hin y hy]; exact .inr (.inl ⟨y, hy, rfl⟩)
        · obtain rfl := List.mem_singleton.1 hy
          exact .inl (if_pos rfl)
      · exact .inr (.inr h)
  · intro s d l
    rw [HasEdge, inAdj_add]
    rw [show InAdj (f.addVar v).out s l d ↔ f.HasEdge s d l from hasEdge_addVar S.wf hv, S.edges]
    constructor
    · rintro ((⟨y, hy, rfl, h⟩ | h) | ⟨rfl, rfl, rfl⟩)
      · exact .inl ⟨y, by simp [hy], (hin y hy).symm, h⟩
      · exact .inr h
      · exact .inl ⟨x, by simp, by simp⟩
    · rintro (⟨y, hy, rfl, rfl, rfl⟩ | h)
      · rcases List.mem_append.1 hy with hy | hy
        · rw [hin y hy]; exact .inl (.inl ⟨y, hy, rfl, rfl, rfl⟩)
        · obtain rfl := List.mem_singleton.1 hy
          exact .inr ⟨(if_pos rfl).symm, rfl, rfl⟩
      · exact .inl (.inr h)
  · intro y hy z hz e
    rcases List.mem_append.1 hy with hy' | hy' <;> rcases List.mem_append.1 hz with hz' | hz'
    · rw [hin y hy', hin z hz'] at e; exact S.injIn y hy' z hz' e
    · obtain rfl := List.mem_singleton.1 hz'
      rw [hin y hy', if_pos rfl] at e
      exact absurd e (hvi y hy')
    · obtain rfl := List.mem_singleton.1 hy'
      rw [hin z hz', if_pos rfl] at e
      exact absurd e.symm (hvi z hz')
    · rw [List.mem_singleton.1 hy', List.mem_singleton.1 hz']
  · exact S.injOut
  · intro y hy z hz e
    rcases List.mem_append.1 hy with hy | hy
    · rw [hin y hy] at e; exact S.apart y hy z hz e
    · obtain rfl := List.mem_singleton.1 hy
      rw [if_pos rfl] at e
      exact hvo z hz e.symm

theorem Stage.output {op : String} {ins outs : List String} {iv ov : String → String} (S : Stage R op f ins outs iv ov) {x : String} (hx : x ∉ outs)
    (hc : NoClash op x) : ∃ g v, fromOpOutput op f x = .ok g ∧ Stage R op g ins (outs ++ [x]) iv (fun y => if y = x then v else ov y) := by
  obtain ⟨v, h1, h2, h3⟩ := getNewVname_spec f (nameProj op x)
  have hne : v ≠ op := by
    rintro rfl
    rcases h3 with ⟨h3, h4⟩ | ⟨i, h3⟩
    · exact hc.1 h4 h3
    · exact hc.2 i h3
  have hv : v ∉ f.nodes := by
    rw [mem_nodes, S.func]
    exact not_or.2 ⟨h2, hne⟩
  have W := wf_addVar S.wf hv
  have hopF : (f.addVar v).IsFunc op := (S.func op).2 rfl
  have hvV : (f.addVar v).IsVar v := by unfold addVar; exact Dict.mem_keys_set.2 (.inl rfl)
  have he : ∀ s l, ¬ (f.addVar v).HasEdge s v l := fun s l h =>
    S.wf.not_node_inp hv ((S.wf.graph.sym s v l).1 ((hasEdge_addVar S.wf hv).1 h))
  have hadd := addEdge_new (allow := false) (f := f.addVar v) (s := op) (d := v) (l := nameProj op x)
    ((W.graph.outKey op).2 (.inr hopF)) ((W.graph.inpKey v).2 (.inl hvV)) (he op _)
  have ev : ∀ w, (f.addVar v).IsVar w ↔ w = v ∨ f.IsVar w := fun w => Dict.mem_keys_set
  refine ⟨{ f.addVar v with out := adjAdd (f.addVar v).out op (nameProj op x) v, inp := adjAdd (f.addVar v).inp v (nameProj op x) op }, v, ?_, ?_⟩
  · unfold fromOpOutput
    simp only [h1, ended, bind, Except.bind]
    exact hadd
  have nc : ∀ h, ¬ (f.addVar v).HasCall op h := by
    intro h hh
    rw [HasCall, inSet_iff_mem (show (f.addVar v).fs.get? op = some [] from S.noCalls)] at hh
    cases hh
  have hold : ∀ y ∈ outs, y ≠ x := fun y hy e => hx (e ▸ hy)
  have hout : ∀ y ∈ outs, (if y = x then v else ov y) = ov y := fun y hy => if_neg (hold y hy)
  have hvi : ∀ y ∈ ins, iv y ≠ v := fun y hy e => h2 ((S.vars v).2 (.inl ⟨y, hy, e.symm⟩))
  have hvo : ∀ y ∈ outs, ov y ≠ v := fun y hy e => h2 ((S.vars v).2 (.inr ⟨y, hy, e.symm⟩))
  constructor
  · exact wf_addEdge W hadd (.inr ⟨hopF, hvV, nc⟩)
  · exact S.func
  · exact S.noCalls
  · exact fun w h hh => S.noRefs w h ((hasRef_addVar hv).1 hh)
  · intro w
    rw [show IsVar _ w ↔ (f.addVar v).IsVar w from Iff.rfl, ev, S.vars]
    constructor
    · rintro (rfl | h | ⟨y, hy, rfl⟩)
      · exact .inr ⟨x, by simp, by simp⟩
      · exact .inl h
      · exact .inr ⟨y, by simp [hy], (hout y hy).symm⟩
    · rintro (h | ⟨y, hy, rfl⟩)
      · exact .inr (.inl h)
      · rcases List.mem_append.1 hy with hy | hy
        · rw [hout y hy]; exact .inr (.inr ⟨y, hy, rfl⟩)
        · obtain rfl := List.mem_singleton.1 hy
          exact .inl (if_pos rfl)
  · intro s d l
    rw [HasEdge, inAdj_add]
    rw [show InAdj (f.addVar v).out s l d ↔ f.HasEdge s d l from hasEdge_addVar S.wf hv, S.edges]
    constructor
    · rintro ((h | ⟨y, hy, h, rfl, h'⟩) | ⟨rfl, rfl, rfl⟩)
      · exact .inl h
      · exact .inr ⟨y, by simp [hy], h, (hout y hy).symm, h'⟩
      · exact .inr ⟨x, by simp, rfl, by simp, rfl⟩
    · rintro (h | ⟨y, hy, rfl, rfl, rfl⟩)
      · exact .inl (.inl h)
      · rcases List.mem_append.1 hy with hy | hy
        · rw [hout y hy]; exact .inl (.inr ⟨y, hy, rfl, rfl, rfl⟩)
        · obtain rfl := List.mem_singleton.1 hy
          exact .inr ⟨rfl, rfl, (if_pos rfl).symm⟩
  · exact S.injIn
  · intro y hy z hz e
    rcases List.mem_append.1 hy with hy' | hy' <;> rcases List.mem_append.1 hz with hz' | hz'
    · rw [hout y hy', hout z hz'] at e; exact S.injOut y hy' z hz' e
    · obtain rfl := List.mem_singleton.1 hz'
      rw [hout y hy', if_pos rfl] at e
      exact absurd e (hvo y hy')
    · obtain rfl := List.mem_singleton.1 hy'
      rw [hout z hz', if_pos rfl] at e
      exact absurd e.symm (hvo z hz')
    · rw [List.mem_singleton.1 hy', List.mem_singleton.1 hz']
  · intro y hy z hz e
    rcases List.mem_append.1 hz with hz | hz
    · rw [hout z hz] at e; exact S.apart y hy z hz e
    · obtain rfl := List.mem_singleton.1 hz
      rw [if_pos rfl] at e
      exact hvi y hy e

theorem Stage.inputs {op : String} {outs : List String} {ov : String → String} : ∀ {xs : List String} {f : CFrame} {ins : List String} {iv : String → String},
    Stage R op f ins outs iv ov → (ins ++ xs).Nodup → (∀ x ∈ xs, NoClash op x) →
    ∃ g iv', xs.foldlM (fromOpInput op) f = .ok g ∧ Stage R op g (ins ++ xs) outs iv' ov := by
  intro xs
  induction xs with
  | nil => intro f ins iv S _ _; exact ⟨f, iv, rfl, by simpa using S⟩
  | cons x xs ih =>
    intro f ins iv S hn hc
    have hx : x ∉ ins := fun h => by
      rw [List.nodup_append] at hn
      exact hn.2.2 x h x (by simp) rfl
    obtain ⟨g, v, hg, S'⟩ := S.input hx (hc x (by simp))
    obtain ⟨k, iv', hk, S''⟩ := ih S' (by simpa using hn) (fun y hy => hc y (by simp [hy]))
    refine ⟨k, iv', ?_, by simpa using S''⟩
    rw [List.foldlM_cons, hg]
    exact hk

theorem Stage.outputs {op : String} {ins : List String} {iv : String → String} : ∀ {xs : List String} {f : CFrame} {outs : List String} {ov : String → String},
    Stage R op f ins outs iv ov → (outs ++ xs).Nodup → (∀ x ∈ xs, NoClash op x) →
    ∃ g ov', xs.foldlM (fromOpOutput op) f = .ok g ∧ Stage R op g ins (outs ++ xs) iv ov' := by
  intro xs
  induction xs with
  | nil => intro f outs ov S _ _; exact ⟨f, ov, rfl, by simpa using S⟩
  | cons x xs ih =>
    intro f outs ov S hn hc
    have hx : x ∉ outs := fun h => by
      rw [List.nodup_append] at hn
      exact hn.2.2 x h x (by simp) rfl
    obtain ⟨g, v, hg, S'⟩ := S.output hx (hc x (by simp))
    obtain ⟨k, ov', hk, S''⟩ := ih S' (by simpa using hn) (fun y hy => hc y (by simp [hy]))
    refine ⟨k, ov', ?_, by simpa using S''⟩
    rw [List.foldlM_cons, hg]
    exact hk

/-- Adding the calls of an op, all of whose inputs and outputs have a variable. -/
theorem addCalls_spec (hR : RecOk R) {op : String} : ∀ {cs : List FCall} {f : CFrame}, Wf R f → f.IsFunc op → (∀ c ∈ cs, R c) →
    (∀ c ∈ cs, ¬ f.HasCall op c.hid) → (cs.map (·.hid)).Nodup →
    (∀ c ∈ cs, ∀ p ∈ c.inputs, ∃ v, InAdj f.inp op (nameProj c.op p.1) v) → (∀ c ∈ cs, ∀ p ∈ c.outputs, ∃ v, InAdj f.out op (nameProj c.op p.1) v) →
    ∃ g, cs.foldlM (fun f c => f.addCall op c true false) f = .ok g ∧ Wf R g ∧ g.inp = f.inp ∧ g.out = f.out ∧ (∀ v, g.IsVar v ↔ f.IsVar v) ∧
      (∀ n, g.IsFunc n ↔ f.IsFunc n) ∧ (∀ n h, g.HasCall n h ↔ f.HasCall n h ∨ (n = op ∧ ∃ c ∈ cs, c.hid = h)) ∧
      (∀ v h, g.HasRef v h ↔ f.HasRef v h ∨ ∃ c ∈ cs, (∃ p ∈ c.inputs, InAdj f.inp op (nameProj c.op p.1) v ∧ h = p.2.hid) ∨
        ∃ p ∈ c.outputs, InAdj f.out op (nameProj c.op p.1) v ∧ h = p.2.hid) ∧
      (∀ h c, g.calls.get? h = some c ↔ (c ∈ cs ∧ c.hid = h) ∨ f.calls.get? h = some c ∧ ¬ ∃ c ∈ cs, c.hid = h) := by
  intro cs
  induction cs with
  | nil => intro f W _ _ _ _ _ _; exact ⟨f, rfl, W, rfl, rfl, fun _ => Iff.rfl, fun _ => Iff.rfl, by simp, by simp, by simp⟩
  | cons c cs ih =>
    intro f W hop hr hnew hnd hin hout
    obtain ⟨s, hs⟩ := Dict.mem_keys.1 hop
    have hn : c.hid ∉ s := fun h => hnew c (by simp) ⟨s, hs, h⟩
    obtain ⟨g, hg⟩ := addCall_total W hs hn false
    have A := (addCall_spec W (hr c (by simp)) hs hn (.inr hg)).1
    have Wg := wf_addCall hR W (hr c (by simp)) hg (fun p hp _ => hin c (by simp) p hp) (fun p hp _ => hout c (by simp) p hp)
    rw [List.map_cons, List.nodup_cons] at hnd
    obtain ⟨k, hk, k1, k2, k3, k4, k5, k6, k7, k8⟩ := ih Wg ((A.fkeys op).2 hop) (fun c' h => hr c' (by simp [h])) (fun c' hc' hh => by
        rcases (A.fs op c'.hid).1 hh with h | ⟨_, h⟩
        · exact hnew c' (by simp [hc']) h
        · exact hnd.1 (List.mem_map.2 ⟨c', hc', h⟩)) hnd.2
      (by rw [A.inp]; exact fun c' h => hin c' (by simp [h])) (by rw [A.out]; exact fun c' h => hout c' (by simp [h]))
    refine ⟨k, ?_, k1, k2.trans A.inp, k3.trans A.out, fun v => (k4 v).trans (A.vkeys v), fun n => (k5 n).trans (A.fkeys n), ?_, ?_, ?_⟩
    · rw [List.foldlM_cons, hg]
      exact hk
    · intro n h
      rw [k6, A.fs]
      simp only [List.mem_cons, exists_eq_or_imp]
      constructor
      · rintro ((h | ⟨rfl, rfl⟩) | ⟨h1, h2⟩)
        · exact .inl h
        · exact .inr ⟨rfl, .inl rfl⟩
        · exact .inr ⟨h1, .inr h2⟩
      · rintro (h | ⟨rfl, h | h⟩)
        · exact .inl (.inl h)
        · exact .inl (.inr ⟨rfl, h.symm⟩)
        · exact .inr ⟨rfl, h⟩
    · intro v h
      rw [k7, A.vs, A.inp, A.out, or_assoc]
      simp only [List.mem_cons, exists_eq_or_imp]
    · intro h c'
      rw [k8, A.calls]
      simp only [List.mem_cons, exists_eq_or_imp]
      constructor
      · rintro (⟨h1, h2⟩ | ⟨h1, h2⟩)
        · exact .inl ⟨.inr h1, h2⟩
        · split at h1
          · rename_i e; cases h1; exact .inl ⟨.inl rfl, e⟩
          · rename_i e; exact .inr ⟨h1, not_or.2 ⟨e, h2⟩⟩
      · rintro (⟨rfl | h1, h2⟩ | ⟨h1, h2⟩)
        · right
          rw [if_pos h2]
          refine ⟨rfl, ?_⟩
          rintro ⟨c2, h3, h4⟩
          exact hnd.1 (List.mem_map.2 ⟨c2, h3, h4.trans h2.symm⟩)
        · exact .inl ⟨h1, h2⟩
        · rw [not_or] at h2
          exact .inr ⟨by rw [if_neg h2.1]; exact h1, h2.2⟩

end CFrame
end Verif
