import Verif.Proofs.CFrameExpand
/-!
Expanding a frame: how calls are grouped, and what one group adds.
-/
namespace Verif

open Props

theorem foldlM_keeps {α β : Type} {step : β → α → Except Err β} {P : β → Prop} {Q : α → β → Prop} (xs : List α)
    (hs : ∀ x ∈ xs, ∀ f g, P f → step f x = .ok g → P g ∧ Q x g ∧ ∀ y, Q y f → Q y g) :
    ∀ f g, P f → xs.foldlM step f = .ok g → P g ∧ (∀ x ∈ xs, Q x g) ∧ ∀ y, Q y f → Q y g := by
  induction xs with
  | nil => intro f g hf h; cases h; exact ⟨hf, by simp, fun _ h => h⟩
  | cons x xs ih =>
    intro f g hf h
    rw [List.foldlM_cons] at h
    obtain ⟨f', h1, h2⟩ := exBind_ok.1 h
    obtain ⟨p1, p2, p3⟩ := hs x (by simp) f f' hf h1
    obtain ⟨q1, q2, q3⟩ := ih (fun y hy => hs y (by simp [hy])) f' g p1 h2
    refine ⟨q1, ?_, fun y hy => q3 y (p3 y hy)⟩
    intro y hy
    rcases List.mem_cons.1 hy with rfl | hy
    · exact q3 _ p2
    · exact q2 y hy

theorem insGroup_perm (x : GroupId × List FCall) (l : List (GroupId × List FCall)) : (insGroup x l).Perm (x :: l) := by
  induction l with
  | nil => exact List.Perm.refl _
  | cons y l ih =>
    unfold insGroup
    split
    · exact (List.Perm.cons y ih).trans (List.Perm.swap x y l)
    · exact List.Perm.refl _

theorem sortGroups_perm (l : List (GroupId × List FCall)) : (sortGroups l).Perm l := by
  induction l with
  | nil => exact List.Perm.refl _
  | cons x l ih => exact (insGroup_perm x _).trans (List.Perm.cons x ih)

namespace CFrame

variable {R S : FCall → Prop} {f g : CFrame} {F V : String → Prop}

/-! ### groups -/

theorem identify_ok (H : RefWf f) (avail : List String) (c : FCall) (d : SetDict) (p : String × FRef) :
    ∃ d', f.identify avail c d p = .ok d' ∧
      (∀ l v, InSet d' l v → InSet d l v ∨ (l = nameProj c.op p.1 ∧ f.HasRef v p.2.hid ∧ v ∈ avail)) ∧
      (∀ v, f.HasRef v p.2.hid → v ∈ avail → InSet d' (nameProj c.op p.1) v) ∧
      (∀ l v, l ≠ nameProj c.op p.1 → InSet d l v → InSet d' l v) := by
  unfold identify
  by_cases hr : p.2.hid ∈ f.refs.keys
  · rw [if_pos (Dict.has_iff.2 hr)]
    obtain ⟨vs, hvs⟩ := Dict.mem_keys.1 ((H.refinvKey _).2 ((H.refs _).1 hr))
    have hm : ∀ v, v ∈ PySet.inter vs avail ↔ f.HasRef v p.2.hid ∧ v ∈ avail := by
      intro v
      rw [PySet.mem_inter, ← inSet_iff_mem hvs, H.refinv]
    simp only [show getE f.refinv p.2.hid = .ok vs from getE_ok.2 hvs, bind, Except.bind]
    split
    · rename_i he
      refine ⟨d, rfl, fun l v h => .inl h, fun v h1 h2 => ?_, fun l v _ h => h⟩
      exact absurd ((hm v).2 ⟨h1, h2⟩) (by rw [he]; simp)
    · refine ⟨_, rfl, ?_, ?_, ?_⟩
      · intro l v h
        rw [inSet_set] at h
        split at h
        · exact .inr ⟨by simp_all, (hm v).1 h⟩
        · exact .inl h
      · intro v h1 h2
        rw [inSet_set, if_pos rfl]
        exact (hm v).2 ⟨h1, h2⟩
      · intro l v hl h
        rw [inSet_set, if_neg (Ne.symm hl)]
        exact h
  · rw [if_neg (fun h => hr (Dict.has_iff.1 h))]
    refine ⟨d, rfl, fun l v h => .inl h, fun v h1 _ => ?_, fun l v _ h => h⟩
    exact absurd ((H.refs _).2 ⟨v, h1⟩) hr

theorem identifyAll_ok (H : RefWf f) (avail : List String) (c : FCall) (ps : Dict String FRef) : ∀ d : SetDict,
    ∃ d', ps.foldlM (f.identify avail c) d = .ok d' ∧
      (∀ l v, InSet d' l v → InSet d l v ∨ ∃ p ∈ ps, l = nameProj c.op p.1 ∧ f.HasRef v p.2.hid ∧ v ∈ avail) ∧
      ((ps.map fun p => nameProj c.op p.1).Nodup → ∀ p ∈ ps, ∀ v, f.HasRef v p.2.hid → v ∈ avail → InSet d' (nameProj c.op p.1) v) ∧
      (∀ l v, l ∉ (ps.map fun p => nameProj c.op p.1) → InSet d l v → InSet d' l v) := by
  induction ps with
  | nil => intro d; exact ⟨d, rfl, fun l v h => .inl h, by simp, fun l v _ h => h⟩
  | cons p ps ih =>
    intro d
    obtain ⟨d1, a1, a2, a3, a4⟩ := identify_ok H avail c d p
    obtain ⟨d2, b1, b2, b3, b4⟩ := ih d1
    refine ⟨d2, ?_, ?_, ?_, ?_⟩
    · rw [List.foldlM_cons, a1]; exact b1
    · intro l v h
      rcases b2 l v h with h | ⟨q, hq, h⟩
      · rcases a2 l v h with h | h
        · exact .inl h
        · exact .inr ⟨p, by simp, h⟩
      · exact .inr ⟨q, by simp [hq], h⟩
    · intro hn q hq v hv ha
      rw [List.map_cons, List.nodup_cons] at hn
      rcases List.mem_cons.1 hq with rfl | hq
      · exact b4 _ _ hn.1 (a3 v hv ha)
      · exact b3 hn.2 q hq v hv ha
    · intro l v hl h
      simp only [List.map_cons, List.mem_cons, not_or] at hl
      exact b4 _ _ hl.2 (a4 l v hl.1 h)

/-- The group of a call: its op, and for each label variables with an input (output) of that label - all of them, if no two
inputs (outputs) have the same label. -/
theorem groupOf_ok (H : RefWf f) (avail : List String) (dir : Side) (c : FCall) :
    ∃ k, f.groupOf avail dir c = .ok k ∧ k.1 = c.op ∧
      (∀ lv ∈ k.2, ∀ v ∈ lv.2, v ∈ avail ∧ ∃ p ∈ ioRefs dir c, lv.1 = nameProj c.op p.1 ∧ f.HasRef v p.2.hid) ∧
      (((ioRefs dir c).map fun p => nameProj c.op p.1).Nodup → ∀ p ∈ ioRefs dir c, ∀ v ∈ avail, f.HasRef v p.2.hid →
        ∃ lv ∈ k.2, lv.1 = nameProj c.op p.1 ∧ v ∈ lv.2) ∧ (k.2.map (·.1)).Nodup ∧ ∀ lv ∈ k.2, lv.2.Nodup := by
  obtain ⟨d, h1, h2, h3, -⟩ := identifyAll_ok H avail c (ioRefs dir c) []
  refine ⟨_, by unfold groupOf; rw [h1]; rfl, rfl, ?_, ?_, ?_, ?_⟩
  · intro lv hlv v hv
    obtain ⟨l, hl, rfl⟩ := List.mem_map.1 hlv
    rw [mem_sortNames, PySet.mem_ofList, mem_getOr] at hv
    rcases h2 l v hv with ⟨_, h, _⟩ | ⟨p, hp, h4, h5, h6⟩
    · cases h
    · exact ⟨h6, p, hp, h4, h5⟩
  · intro hn p hp v ha hv
    have := h3 hn p hp v hv ha
    exact ⟨_, List.mem_map.2 ⟨_, mem_sortNames.2 (PySet.mem_ofList.2 this.key), rfl⟩, rfl, mem_sortNames.2 (PySet.mem_ofList.2 (mem_getOr.2 this))⟩
  · simp only [List.map_map]
    exact (List.map_id (sortNames (PySet.ofList d.keys))).symm ▸ nodup_sortNames (PySet.nodup_ofList _)
  · intro lv hlv
    obtain ⟨l, _, rfl⟩ := List.mem_map.1 hlv
    exact nodup_sortNames (PySet.nodup_ofList _)

theorem groupCalls_ok (H : RefWf f) (avail : List String) (dir : Side) (calls : List FCall) :
    ∃ d, f.groupCalls calls avail dir = .ok d ∧ d.keys.Nodup ∧
      (∀ k cs, d.get? k = some cs → cs ≠ [] ∧ cs.Sublist calls ∧ ∀ c ∈ cs, f.groupOf avail dir c = .ok k) ∧
      ∀ c ∈ calls, ∃ k cs, d.get? k = some cs ∧ c ∈ cs := by
  have gen : ∀ (cs0 done : List FCall) (d : Dict GroupId (List FCall)), d.keys.Nodup →
      (∀ k cs, d.get? k = some cs → cs ≠ [] ∧ cs.Sublist done ∧ ∀ c ∈ cs, f.groupOf avail dir c = .ok k) →
      (∀ c ∈ done, ∃ k cs, d.get? k = some cs ∧ c ∈ cs) →
      ∃ d', cs0.foldlM (fun (d : Dict GroupId (List FCall)) c => do
          let k ← f.groupOf avail dir c
          .ok (d.set k (((d.get? k).getD []) ++ [c]))) d = .ok d' ∧ d'.keys.Nodup ∧
        (∀ k cs, d'.get? k = some cs → cs ≠ [] ∧ cs.Sublist (done ++ cs0) ∧ ∀ c ∈ cs, f.groupOf avail dir c = .ok k) ∧
        ∀ c ∈ done ++ cs0, ∃ k cs, d'.get? k = some cs ∧ c ∈ cs := by
    intro cs0
    induction cs0 with
    | nil => intro done d h1 h2 h3; exact ⟨d, rfl, h1, by simpa using h2, by simpa using h3⟩
    | cons c cs0 ih =>
      intro done d h1 h2 h3
      obtain ⟨k, hk, -⟩ := groupOf_ok H avail dir c
      have := ih (done ++ [c]) (d.set k (((d.get? k).getD []) ++ [c])) (Dict.nodup_set h1 _ _)
        (by
          intro k' cs h
          rw [Dict.get?_set] at h
          split at h
          · rename_i e
            subst e
            cases h
            cases hg : d.get? k with
            | none => exact ⟨by simp, by simp, by simpa using hk⟩
            | some cs' =>
              obtain ⟨_, h5, h6⟩ := h2 k cs' hg
              refine ⟨by simp, ?_, ?_⟩
              · exact List.Sublist.append h5 (List.Sublist.refl _)
              · intro x hx
                simp only [Option.getD_some, List.mem_append, List.mem_singleton] at hx
                rcases hx with hx | rfl
                · exact h6 x hx
                · exact hk
          · obtain ⟨h4, h5, h6⟩ := h2 k' cs h
            exact ⟨h4, h5.trans (List.sublist_append_left _ _), h6⟩)
        (by
          intro x hx
          simp only [List.mem_append, List.mem_singleton] at hx
          rcases hx with hx | rfl
          · obtain ⟨k', cs, h4, h5⟩ := h3 x hx
            by_cases e : k = k'
            · subst e
              exact ⟨k, _, by rw [Dict.get?_set, if_pos rfl], by rw [h4]; simp [h5]⟩
            · exact ⟨k', cs, by rw [Dict.get?_set, if_neg e]; exact h4, h5⟩
          · exact ⟨k, _, by rw [Dict.get?_set, if_pos rfl], by simp⟩)
      obtain ⟨d', e1, e2, e3, e4⟩ := this
      refine ⟨d', ?_, e2, by simpa using e3, by simpa using e4⟩
      rw [List.foldlM_cons, hk]
      exact e1
  unfold groupCalls
  simpa using gen calls [] [] (by simp [Dict.keys]) (fun k cs h => by cases h) (by simp)

/-! ### one group -/

/-- The frame is as it should be as far as graph, inverse dictionaries and names go. -/
structure Ready (R : FCall → Prop) (F V : String → Prop) (f : CFrame) : Prop where
  base : Base R f
  names : NamesApart R F V f

theorem Ready.fresh_var (E : Ready R F V f) {c : FCall} (hc : R c) {p : String × FRef} (hp : p ∈ c.inputs ∨ p ∈ c.outputs) :
    ∃ v, f.getNewVname (nameProj c.op p.1) = some v ∧ v ∉ f.nodes ∧ V v := by
  obtain ⟨v, h1, h2, h3⟩ := getNewVname_spec f (nameProj c.op p.1)
  obtain ⟨a1, a2⟩ := E.names.arg c p hc hp
  have hv : V v := by
    rcases h3 with ⟨rfl, h⟩ | ⟨i, rfl⟩
    · exact a1 h
    · exact a2 i
  refine ⟨v, h1, ?_, hv⟩
  rw [mem_nodes]
  rintro (h | h)
  · exact h2 h
  · exact E.names.apart _ (E.names.func _ h) hv

theorem Ready.fresh_func (E : Ready R F V f) {c : FCall} (hc : R c) : ∃ n, f.getNewFname c.op = some n ∧ n ∉ f.nodes ∧ F n := by
  obtain ⟨n, h1, h2, h3⟩ := getNewFname_spec f c.op
  obtain ⟨a1, a2⟩ := E.names.op c hc
  have hn : F n := by
    rcases h3 with rfl | ⟨i, rfl⟩
    · exact a1
    · exact a2 i
  refine ⟨n, h1, ?_, hn⟩
  rw [mem_nodes]
  rintro (h | h)
  · exact E.names.apart _ hn (E.names.var _ h)
  · exact h2 h

theorem Ready.addVar (E : Ready R F V f) {v : String} (hv : v ∉ f.nodes) (hV : V v) : Ready R F V (f.addVar v) := by
  obtain ⟨h1, h2, h3⟩ := base_addVar (S := fun _ => True) E.base hv
  refine ⟨h1, E.names.apart, E.names.op, E.names.arg, E.names.func, ?_⟩
  intro w hw
  rcases (h3 w).1 hw with rfl | hw
  · exact hV
  · exact E.names.var w hw

theorem Ready.addFunc (E : Ready R F V f) {n : String} (hn : n ∉ f.nodes) (hF : F n) : Ready R F V (f.addFunc n) := by
  obtain ⟨h1, h2, h3⟩ := base_addFunc (S := fun _ => True) E.base hn
  refine ⟨h1, E.names.apart, E.names.op, E.names.arg, ?_, E.names.var⟩
  intro w hw
  rcases (h3 w).1 hw with rfl | hw
  · exact hF
  · exact E.names.func w hw

theorem Ready.congr (E : Ready R F V f) (hb : Base R g) (hv : ∀ v, g.IsVar v → f.IsVar v) (hf : ∀ n, g.IsFunc n → f.IsFunc n) : Ready R F V g :=
  ⟨hb, E.names.apart, E.names.op, E.names.arg, fun n h => E.names.func n (hf n h), fun v h => E.names.var v (hv v h)⟩

theorem findFunc_func {op : String} {hids : List String} : ∀ {ns : List String} {n : String}, f.findFunc op hids ns = .ok (some n) → f.IsFunc n := by
  intro ns
  induction ns with
  | nil => intro n h; cases h
  | cons m ns ih =>
    intro n h
    unfold findFunc at h
    obtain ⟨s, hs, h⟩ := exBind_ok.1 h
    split at h
    · cases h; exact key_of_get (getE_ok.1 hs)
    · obtain ⟨o, _, h⟩ := exBind_ok.1 h
      obtain ⟨op', _, h⟩ := exBind_ok.1 h
      split at h
      · cases h; exact key_of_get (getE_ok.1 hs)
      · exact ih h

theorem findVar_var {hids : List String} {v : String} (h : f.findVar hids = some v) : f.IsVar v := by
  unfold findVar at h
  exact mem_sortNames.1 (List.mem_of_find?_eq_some h)

/-- The function for a group: one of the frame, or a new one without calls. -/
theorem groupFunc_ok (E : Ready R F V f) {reuse : Bool} {c : FCall} (hc : R c) {cs : List FCall} {r : CFrame × String}
    (h : f.groupFunc reuse c.op cs = .ok r) : Ready R F V r.1 ∧ Grows S f r.1 ∧ r.1.IsFunc r.2 ∧
      ((r.1 = f ∧ reuse = true) ∨ (r.2 ∉ f.nodes ∧ r.1 = f.addFunc r.2)) := by
  unfold groupFunc at h
  obtain ⟨found, hf, h⟩ := exBind_ok.1 h
  cases found with
  | some n =>
    cases h
    cases reuse with
    | false => cases hf
    | true => exact ⟨E, .refl, findFunc_func hf, .inl ⟨rfl, rfl⟩⟩
  | none =>
    obtain ⟨n, h1, h2, h3⟩ := E.fresh_func hc
    simp only [h1, ended, bind, Except.bind] at h
    cases h
    exact ⟨E.addFunc h2 h3, (base_addFunc E.base h2).2.1, ((base_addFunc (S := S) E.base h2).2.2 n).2 (.inl rfl), .inr ⟨h2, rfl⟩⟩

theorem dualVar_ok (E : Ready R F V f) {dir : Side} {reuse : Bool} {n : String} (hn : f.IsFunc n) {cs : List FCall} {existing : List String} {l : String}
    (hl : ∃ c p, R c ∧ (p ∈ c.inputs ∨ p ∈ c.outputs) ∧ l = nameProj c.op p.1) (h : dualVar dir reuse n cs existing f l = .ok g) :
    Ready R F V g ∧ Grows S f g ∧ g.IsFunc n ∧ (l ∈ existing ∨ ∃ v, Joined g dir.flip v n l) := by
  unfold dualVar at h
  split at h
  · rename_i he
    cases h
    exact ⟨E, .refl, hn, .inl he⟩
  · simp only at h
    split at h
    · rename_i v hf
      have hv : f.IsVar v := by
        cases reuse with
        | false => cases hf
        | true => exact findVar_var hf
      obtain ⟨b1, b2, b3, b4, b5, _⟩ := base_joinEdge (S := S) E.base h hv hn
      exact ⟨E.congr b1 (fun w hw => by unfold IsVar at *; rwa [b4] at hw) (fun w hw => by unfold IsFunc at *; rwa [b5] at hw), b2, b2.func n hn, .inr ⟨v, b3⟩⟩
    · obtain ⟨c, p, hc, hp, rfl⟩ := hl
      obtain ⟨v, h1, h2, h3⟩ := E.fresh_var hc hp
      simp only [h1, ended, bind, Except.bind] at h
      obtain ⟨a1, a2, a3⟩ := base_addVar (S := S) E.base h2
      have E' := E.addVar h2 h3
      obtain ⟨b1, b2, b3, b4, b5, _⟩ := base_joinEdge (S := S) E'.base h ((a3 v).2 (.inl rfl)) (a2.func n hn)
      exact ⟨E'.congr b1 (fun w hw => by unfold IsVar at *; rwa [b4] at hw) (fun w hw => by unfold IsFunc at *; rwa [b5] at hw), a2.trans b2,
        b2.func n (a2.func n hn), .inr ⟨v, b3⟩⟩

theorem sideLabels_spec {dir : Side} {cs : List FCall} (hc : ∀ c ∈ cs, R c) {l : String} (hl : l ∈ sideLabels dir cs) :
    ∃ c p, R c ∧ (p ∈ c.inputs ∨ p ∈ c.outputs) ∧ l = nameProj c.op p.1 := by
  unfold sideLabels at hl
  rw [mem_sortNames, PySet.mem_ofList, List.mem_flatMap] at hl
  obtain ⟨c, hcs, hl⟩ := hl
  obtain ⟨p, hp, rfl⟩ := List.mem_map.1 hl
  refine ⟨c, p, hc c hcs, ?_, rfl⟩
  cases dir
  · exact .inr hp
  · exact .inl hp

theorem mem_sideLabels {dir : Side} {cs : List FCall} {l : String} : l ∈ sideLabels dir cs ↔ ∃ c ∈ cs, ∃ p ∈ ioRefs dir c, nameProj c.op p.1 = l := by
  unfold sideLabels
  simp [mem_sortNames, PySet.mem_ofList]

/-- What one group adds: all its calls, in one function, which is joined with the variables of the group. -/
theorem expandGroup_ok (E : Ready R F V f) {dir : Side} {reuse : Bool} {k : GroupId} {cs : List FCall} (hk : ∃ c ∈ cs, k.1 = c.op)
    (hc : ∀ c ∈ cs, R c) (hs : ∀ c ∈ cs, S c) (hv : ∀ lv ∈ k.2, ∀ v ∈ lv.2, f.IsVar v) (h : expandGroup dir reuse f (k, cs) = .ok g) :
    Ready R F V g ∧ Grows S f g ∧ ∃ n, (∀ c ∈ cs, g.HasCall n c.hid) ∧ (∀ lv ∈ k.2, ∀ v ∈ lv.2, Joined g dir v n lv.1) ∧
      (reuse = false → n ∉ f.nodes) := by
  unfold expandGroup at h
  obtain ⟨⟨f1, n⟩, h1, h⟩ := exBind_ok.1 h
  simp only at h
  obtain ⟨f2, h2, h⟩ := exBind_ok.1 h
  obtain ⟨side, h3, h⟩ := exBind_ok.1 h
  obtain ⟨f3, h4, h5⟩ := exBind_ok.1 h
  obtain ⟨c0, hc0, hk0⟩ := hk
  rw [hk0] at h1
  obtain ⟨E1, G1, N1, hnew⟩ := groupFunc_ok (S := S) E (hc c0 hc0) h1
  simp only at E1 G1 N1 hnew
  obtain ⟨⟨E2, G2, N2⟩, hJ, -⟩ := foldlM_keeps (step := fun f (lv : String × String) => joinEdge f dir lv.2 n lv.1 reuse)
    (P := fun g => Ready R F V g ∧ Grows S f g ∧ g.IsFunc n) (Q := fun lv g => Joined g dir lv.2 n lv.1) _ (by
      intro lv hlv a b ⟨Ea, Ga, Na⟩ hab
      obtain ⟨lvs, hlvs, hlv⟩ := List.mem_flatMap.1 hlv
      obtain ⟨v, hv', rfl⟩ := List.mem_map.1 hlv
      obtain ⟨b1, b2, b3, b4, b5, _⟩ := base_joinEdge (S := S) Ea.base hab (Ga.var v (hv lvs hlvs v hv')) Na
      exact ⟨⟨Ea.congr b1 (fun w hw => by unfold IsVar at *; rwa [b4] at hw) (fun w hw => by unfold IsFunc at *; rwa [b5] at hw), Ga.trans b2, b2.func n Na⟩,
        b3, fun y hy => b2.joined hy⟩) f1 f2 ⟨E1, G1, N1⟩ h2
  obtain ⟨⟨E3, G3, N3⟩, -, -⟩ := foldlM_keeps (step := dualVar dir reuse n cs (Dict.keys side))
    (P := fun g => Ready R F V g ∧ Grows S f2 g ∧ g.IsFunc n) (Q := fun _ _ => True) (sideLabels dir.flip cs) (by
      intro l hl a b ⟨Ea, Ga, Na⟩ hab
      obtain ⟨b1, b2, b3, -⟩ := dualVar_ok (S := S) Ea Na (sideLabels_spec hc hl) hab
      exact ⟨⟨b1, Ga.trans b2, b3⟩, trivial, fun _ _ => trivial⟩) f2 f3 ⟨E2, .refl, N2⟩ h4
  obtain ⟨⟨E4, G4⟩, hC, -⟩ := foldlM_keeps (step := fun f c => addCall f n c true reuse)
    (P := fun g => Ready R F V g ∧ Grows S f2 g) (Q := fun c g => g.HasCall n c.hid) cs (by
      intro c hcs a b ⟨Ea, Ga⟩ hab
      obtain ⟨b1, b2, b3, _, _, b6, b7⟩ := base_addCall (S := S) Ea.base (hc c hcs) (hs c hcs) hab
      exact ⟨⟨Ea.congr b1 (fun w hw => (b6 w).1 hw) (fun w hw => (b7 w).1 hw), Ga.trans b2⟩, b3, fun y hy => b2.call _ _ hy⟩) f3 g ⟨E3, G3⟩ h5
  refine ⟨E4, G2.trans G4, n, hC, ?_, ?_⟩
  · intro lv hlv v hv'
    exact G4.joined (hJ (lv.1, v) (List.mem_flatMap.2 ⟨lv, hlv, List.mem_map.2 ⟨v, hv', rfl⟩⟩))
  · intro hr
    rcases hnew with ⟨_, h⟩ | h
    · rw [hr] at h; cases h
    · exact h.1

end CFrame
end Verif
