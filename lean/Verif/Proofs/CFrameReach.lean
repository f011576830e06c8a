import Verif.Spec.FrameReach
import Verif.Proofs.CFrameSubsets
import Mathlib.Data.List.Perm.Subperm
import Mathlib.Algebra.BigOperators.Group.List.Basic
/-!
`get_reachable_elts` computes the least closed set of elements.
-/
namespace Verif

open Props

/-! ### lists without repetitions -/

theorem nodup_subset_length {α : Type} {s t : List α} (hs : s.Nodup) (h : ∀ x ∈ s, x ∈ t) : s.length ≤ t.length :=
  (hs.subperm h).length_le

theorem nodup_subset_of_length {α : Type} {s t : List α} (hs : s.Nodup) (h : ∀ x ∈ s, x ∈ t) (hl : t.length ≤ s.length) :
    ∀ x ∈ t, x ∈ s := by
  have := (hs.subperm h).perm_of_length_le hl
  exact fun x hx => this.mem_iff.2 hx

/-- Grouping does not change the number of entries. -/
theorem sum_groups {α : Type} (d : List (α × String)) {ks : List String} (hk : ks.Nodup) :
    (ks.map fun k => (d.filter fun p => decide (p.2 = k)).length).sum = (d.filter fun p => decide (p.2 ∈ ks)).length := by
  induction ks with
  | nil => simp
  | cons k ks ih =>
    rw [List.nodup_cons] at hk
    rw [List.map_cons, List.sum_cons, ih hk.2]
    clear ih
    induction d with
    | nil => simp
    | cons p d ih =>
      simp only [List.filter_cons, List.mem_cons, decide_eq_true_eq] at ih ⊢
      by_cases h1 : p.2 = k
      · have h2 : p.2 ∉ ks := h1 ▸ hk.1
        simp only [h1, if_true, true_or, List.length_cons]
        rw [← ih, if_neg (h1 ▸ h2)]
        omega
      · by_cases h2 : p.2 ∈ ks
        · simp only [h1, h2, if_false, if_true, or_true, List.length_cons]
          rw [← ih]
          omega
        · simp only [h1, h2, if_false, or_false]
          exact ih

namespace CFrame

variable {R : FCall → Prop} {f : CFrame}

/-! ### arguments and labels -/

theorem mem_reverse_inputs (hR : RecOk R) {c : FCall} (hc : R c) {l x : String} (hl : c.op = makeListName → isElt l = false) :
    x ∈ ((reverseProj c l).filterMap fun n => (Dict.get? c.inputs n).map (·.hid)) ↔ ∃ p ∈ c.inputs, nameProj c.op p.1 = l ∧ p.2.hid = x := by
  simp only [List.mem_filterMap, Option.map_eq_some_iff]
  constructor
  · rintro ⟨n, hn, r, hr, rfl⟩
    refine ⟨(n, r), Dict.mem_of_get? hr, ?_, rfl⟩
    unfold reverseProj at hn
    split at hn
    · rename_i h
      rw [nameProj, if_pos ⟨h.1, hR.elts c hc h.1 _ (Dict.mem_of_get? hr)⟩]
      exact h.2.symm
    · cases List.mem_singleton.1 hn
      unfold nameProj
      split
      · rename_i h'
        rw [hl h'.1] at h'
        cases h'.2
      · rfl
  · rintro ⟨p, hp, h1, rfl⟩
    refine ⟨p.1, ?_, p.2, (Dict.get?_eq_some_iff (hR.inputs c hc)).2 hp, rfl⟩
    unfold reverseProj
    unfold nameProj at h1
    split at h1
    · rename_i h'
      rw [if_pos ⟨h'.1, h1.symm⟩]
      exact PySet.mem_ofList.2 (List.mem_map.2 ⟨p, hp, rfl⟩)
    · rename_i h'
      split
      · rename_i h''
        exact absurd ⟨h''.1, hR.elts c hc h''.1 p hp⟩ h'
      · simp [h1]

theorem mem_reverse_outputs (hR : RecOk R) {c : FCall} (hc : R c) {l x : String} :
    x ∈ ((reverseProj c l).filterMap fun n => (Dict.get? c.outputs n).map (·.hid)) ↔ ∃ p ∈ c.outputs, nameProj c.op p.1 = l ∧ p.2.hid = x := by
  simp only [List.mem_filterMap, Option.map_eq_some_iff]
  have hname : ∀ p ∈ c.outputs, nameProj c.op p.1 = p.1 := by
    intro p hp
    unfold nameProj
    split
    · rename_i h
      rw [(hR.list c hc h.1 p hp).1] at h
      cases h.2
    · rfl
  constructor
  · rintro ⟨n, hn, r, hr, rfl⟩
    have hp := Dict.mem_of_get? hr
    refine ⟨(n, r), hp, ?_, rfl⟩
    rw [hname _ hp]
    unfold reverseProj at hn
    split at hn
    · rename_i h
      rw [PySet.mem_ofList] at hn
      obtain ⟨q, hq, e⟩ := List.mem_map.1 hn
      have h1 := hR.elts c hc h.1 q hq
      have h2 := (hR.list c hc h.1 _ hp).1
      rw [e] at h1
      rw [h1] at h2
      cases h2
    · exact List.mem_singleton.1 hn
  · rintro ⟨p, hp, h1, rfl⟩
    rw [hname p hp] at h1
    refine ⟨p.1, ?_, p.2, (Dict.get?_eq_some_iff (hR.outputs c hc)).2 hp, rfl⟩
    unfold reverseProj
    split
    · rename_i h
      exact absurd (h1.trans h.2) (hR.list c hc h.1 p hp).2
    · simp [h1]

theorem mapM_ok {α β : Type} {F : α → Except Err β} {G : α → β} {as : List α} (h : ∀ a ∈ as, F a = .ok (G a)) : as.mapM F = .ok (as.map G) := by
  induction as with
  | nil => rfl
  | cons a as ih =>
    rw [List.mapM_cons, h a (by simp), ih fun b hb => h b (by simp [hb])]
    rfl

/-! ### one edge -/

/-- the end of an edge to which it is traversed -/
def endOf (dir : Side) (e : String × String × String) : String :=
  match dir with
  | .forward => e.2.1
  | .back => e.1

theorem adjEltsEdge_spec (hR : RecOk R) (H : Wf R f) (L : LabelsOk f) {dir : Side} {s d l : String} (he : f.HasEdge s d l) {hids : List String}
    (hh : ∀ x ∈ hids, f.HasRef (startOf dir (s, d, l)) x ∨ f.HasCall (startOf dir (s, d, l)) x) :
    ∃ ys, f.adjEltsEdge (s, d, l) hids dir = .ok ys ∧
      ∀ y, y ∈ ys ↔ ∃ x ∈ hids, LeadsTo f dir l (startOf dir (s, d, l)) x (endOf dir (s, d, l)) y := by
  have hcall : ∀ {n h}, f.HasCall n h → ∃ c, f.calls.get? h = some c ∧ R c := fun h => by
    obtain ⟨c, hc, _, h'⟩ := H.get_call h
    exact ⟨c, hc, h'⟩
  have hio : ∀ {n : String} {io : FCall → Dict String FRef} {l : String} {hs : List String}, (∀ h ∈ hs, f.HasCall n h) →
      ∃ G : String → List String, hs.mapM (f.ioAt l io) = .ok (hs.map G) ∧ ∀ h ∈ hs, ∀ c, f.calls.get? h = some c →
        G h = (reverseProj c l).filterMap fun n => (Dict.get? (io c) n).map (·.hid) := by
    intro n io l hs hhs
    refine ⟨fun h => match f.calls.get? h with
      | some c => (reverseProj c l).filterMap fun n => (Dict.get? (io c) n).map (·.hid)
      | none => [], mapM_ok fun h hh => ?_, fun h _ c hc => by simp [hc]⟩
    obtain ⟨c, hc, _⟩ := hcall (hhs h hh)
    simp only [ioAt, getE_ok.2 hc, bind, Except.bind, hc]
  cases dir with
  | back =>
    simp only [startOf, endOf] at hh ⊢
    rcases H.graph.bip _ _ _ he with ⟨hs, hd⟩ | ⟨hs, hd⟩
    · -- a function: its inputs
      have hnv : f.vs.get? d = none := Dict.get?_eq_none.2 fun h => H.graph.disj d h hd
      have hh' : ∀ x ∈ hids, f.HasCall d x := fun x hx => (hh x hx).elim (fun h => absurd h.key (Dict.get?_eq_none.1 hnv)) id
      obtain ⟨cs, hcs⟩ := Dict.mem_keys.1 hd
      obtain ⟨rs, hrs⟩ := Dict.mem_keys.1 hs
      have hsub : PySet.subset hids cs = true := PySet.subset_iff.2 fun x hx => (inSet_iff_mem hcs).1 (hh' x hx)
      obtain ⟨G, hG, hG'⟩ := hio (l := l) (io := FCall.inputs) hh'
      refine ⟨PySet.inter rs (hids.map G).flatten, ?_, ?_⟩
      · simp only [adjEltsEdge, hnv, getE_ok.2 hcs, hsub, getE_ok.2 hrs, hG, bind, Except.bind, if_true]
      · intro y
        rw [PySet.mem_inter, ← List.flatMap_def, List.mem_flatMap]
        constructor
        · rintro ⟨h1, x, hx, h2⟩
          obtain ⟨c, hc, rc⟩ := hcall (hh' x hx)
          rw [hG' x hx c hc, mem_reverse_inputs hR rc (L s d l x c he (hh' x hx) hc)] at h2
          exact ⟨x, hx, .inr ⟨hd, (inSet_iff_mem hrs).2 h1, c, hc, h2⟩⟩
        · rintro ⟨x, hx, ⟨h1, _⟩ | ⟨_, h2, c, hc, h3⟩⟩
          · exact absurd hd (H.graph.disj d h1)
          · refine ⟨(inSet_iff_mem hrs).1 h2, x, hx, ?_⟩
            obtain ⟨c', hc', rc⟩ := hcall (hh' x hx)
            rw [hc] at hc'; cases hc'
            rw [hG' x hx c hc, mem_reverse_inputs hR rc (L s d l x c he (hh' x hx) hc)]
            exact h3
    · -- a variable: the creators
      have hnf : ∀ x, ¬ f.HasCall d x := fun x hx => H.graph.disj d hd hx.key
      obtain ⟨rs, hrs⟩ := Dict.mem_keys.1 hd
      obtain ⟨cs, hcs⟩ := Dict.mem_keys.1 hs
      have hsub : PySet.subset hids rs = true := PySet.subset_iff.2 fun x hx => (inSet_iff_mem hrs).1 ((hh x hx).elim id fun h => absurd h (hnf x))
      refine ⟨PySet.inter (PySet.ofList (hids.filterMap f.creator.get?)) cs, ?_, ?_⟩
      · simp only [adjEltsEdge, hrs, hsub, getE_ok.2 hcs, bind, Except.bind, if_true]
      · intro y
        rw [PySet.mem_inter, PySet.mem_ofList, List.mem_filterMap]
        constructor
        · rintro ⟨⟨x, hx, h1⟩, h2⟩
          exact ⟨x, hx, .inl ⟨hd, (inSet_iff_mem hcs).2 h2, h1⟩⟩
        · rintro ⟨x, hx, ⟨_, h2, h3⟩ | ⟨h1, _⟩⟩
          · exact ⟨⟨x, hx, h3⟩, (inSet_iff_mem hcs).1 h2⟩
          · exact absurd h1 (H.graph.disj d hd)
  | forward =>
    simp only [startOf, endOf] at hh ⊢
    rcases H.graph.bip _ _ _ he with ⟨hs, hd⟩ | ⟨hs, hd⟩
    · -- a variable: the consumers
      have hnf : ∀ x, ¬ f.HasCall s x := fun x hx => H.graph.disj s hs hx.key
      obtain ⟨rs, hrs⟩ := Dict.mem_keys.1 hs
      obtain ⟨cs, hcs⟩ := Dict.mem_keys.1 hd
      have hsub : PySet.subset hids rs = true := PySet.subset_iff.2 fun x hx => (inSet_iff_mem hrs).1 ((hh x hx).elim id fun h => absurd h (hnf x))
      have hcs' : ∀ h ∈ cs, f.HasCall d h := fun h hh => (inSet_iff_mem hcs).2 hh
      let G : String → List String := fun h => match f.calls.get? h with
        | some c => if ((reverseProj c l).filterMap fun n => (Dict.get? c.inputs n).map (·.hid)).any (· ∈ hids) then [h] else []
        | none => []
      have hG : (cs.mapM fun h => do
          let hs ← f.ioAt l FCall.inputs h
          .ok (if hs.any (· ∈ hids) then [h] else [])) = .ok (cs.map G) := by
        refine mapM_ok fun h hh => ?_
        obtain ⟨c, hc, _⟩ := hcall (hcs' h hh)
        simp only [G, ioAt, getE_ok.2 hc, bind, Except.bind, hc]
      refine ⟨(cs.map G).flatten, ?_, ?_⟩
      · simp only [adjEltsEdge, hrs, hsub, getE_ok.2 hcs, if_true]
        simp only [bind, Except.bind] at hG ⊢
        rw [hG]
      · intro y
        rw [← List.flatMap_def, List.mem_flatMap]
        constructor
        · rintro ⟨h, hh', hy⟩
          obtain ⟨c, hc, rc⟩ := hcall (hcs' h hh')
          simp only [G, hc] at hy
          split at hy
          · rename_i hany
            cases List.mem_singleton.1 hy
            obtain ⟨x, hx, hx'⟩ := List.any_eq_true.1 hany
            rw [mem_reverse_inputs hR rc (L s d l y c he (hcs' y hh') hc)] at hx
            exact ⟨x, by simpa using hx', .inl ⟨hs, hcs' y hh', c, hc, hx⟩⟩
          · cases hy
        · rintro ⟨x, hx, ⟨_, h2, c, hc, h3⟩ | ⟨h1, _⟩⟩
          · refine ⟨y, (inSet_iff_mem hcs).1 h2, ?_⟩
            obtain ⟨c', hc', rc⟩ := hcall h2
            rw [hc] at hc'; cases hc'
            simp only [G, hc]
            rw [if_pos]
            · simp
            · refine List.any_eq_true.2 ⟨x, ?_, by simpa using hx⟩
              rw [mem_reverse_inputs hR rc (L s d l y c he h2 hc)]
              exact h3
          · exact absurd h1 (H.graph.disj s hs)
    · -- a function: the outputs
      have hnv : f.vs.get? s = none := Dict.get?_eq_none.2 fun h => H.graph.disj s h hs
      have hh' : ∀ x ∈ hids, f.HasCall s x := fun x hx => (hh x hx).elim (fun h => absurd h.key (Dict.get?_eq_none.1 hnv)) id
      obtain ⟨cs, hcs⟩ := Dict.mem_keys.1 hs
      obtain ⟨rs, hrs⟩ := Dict.mem_keys.1 hd
      have hsub : PySet.subset hids cs = true := PySet.subset_iff.2 fun x hx => (inSet_iff_mem hcs).1 (hh' x hx)
      obtain ⟨G, hG, hG'⟩ := hio (l := l) (io := FCall.outputs) hh'
      refine ⟨PySet.inter (PySet.ofList (hids.map G).flatten) rs, ?_, ?_⟩
      · simp only [adjEltsEdge, hnv, getE_ok.2 hcs, hsub, getE_ok.2 hrs, hG, bind, Except.bind, if_true]
      · intro y
        rw [PySet.mem_inter, PySet.mem_ofList, ← List.flatMap_def, List.mem_flatMap]
        constructor
        · rintro ⟨⟨x, hx, h2⟩, h1⟩
          obtain ⟨c, hc, rc⟩ := hcall (hh' x hx)
          rw [hG' x hx c hc, mem_reverse_outputs hR rc] at h2
          exact ⟨x, hx, .inr ⟨hs, (inSet_iff_mem hrs).2 h1, c, hc, h2⟩⟩
        · rintro ⟨x, hx, ⟨h1, _⟩ | ⟨_, h2, c, hc, h3⟩⟩
          · exact absurd hs (H.graph.disj s h1)
          · refine ⟨⟨x, hx, ?_⟩, (inSet_iff_mem hrs).1 h2⟩
            obtain ⟨c', hc', rc⟩ := hcall (hh' x hx)
            rw [hc] at hc'; cases hc'
            rw [hG' x hx c hc, mem_reverse_outputs hR rc]
            exact h3

end CFrame
end Verif
