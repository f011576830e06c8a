import Verif.Proofs.CFrame
/-!
Renaming variables.
-/
namespace Verif

open Props

theorem get?_mapEntries {V W : Type} (F : String → V → W) (d : Dict String V) (k : String) :
    Dict.get? (d.map fun p => (p.1, F p.1 p.2)) k = (d.get? k).map (F k) := by
  induction d with
  | nil => simp
  | cons p d ih =>
    obtain ⟨a, b⟩ := p
    rw [List.map_cons, Dict.get?_cons, Dict.get?_cons, ih]
    split
    · rename_i e; subst e; rfl
    · rfl

namespace CFrame

variable {R : FCall → Prop} {f : CFrame}

theorem mem_renameSet {v w m : String} {s : List String} : m ∈ renameSet v w s ↔ (m ∈ s ∧ m ≠ v) ∨ (m = w ∧ v ∈ s) := by
  unfold renameSet
  split
  · rename_i h; simp [PySet.mem_add, PySet.mem_remove, h, or_comm]
  · rename_i h
    simp only [h, and_false, or_false]
    constructor
    · intro hm; refine ⟨hm, ?_⟩; rintro rfl; exact h hm
    · exact fun h => h.1

theorem inAdj_rename {ns : List String} {v w n l m : String} {d : Adj} (hn : n ∈ ns) :
    InAdj (renameAdj ns v w d) n l m ↔ (InAdj d n l m ∧ m ≠ v) ∨ (m = w ∧ InAdj d n l v) := by
  unfold InAdj renameAdj
  rw [get?_mapEntries (fun k x => if k ∈ ns then Dict.mapVals (renameSet v w) x else x)]
  cases d.get? n with
  | none => simp
  | some s =>
    simp only [Option.map_some, hn, if_true, Option.some.injEq, exists_eq_left']
    unfold InSet
    rw [Dict.get?_mapVals]
    cases Dict.get? s l with
    | none => simp
    | some t => simp [mem_renameSet]

theorem keys_rename {ns : List String} {v w n : String} {d : Adj} : n ∈ (renameAdj ns v w d).keys ↔ n ∈ d.keys := by
  unfold renameAdj
  simp [Dict.keys]

theorem renameRefs_spec {v w : String} {hs : List String} : ∀ {ri : SetDict}, hs.Nodup → (∀ h ∈ hs, InSet ri h v) →
    ∃ ri', hs.foldlM (renameRef v w) ri = .ok ri' ∧ (∀ k, k ∈ ri'.keys ↔ k ∈ ri.keys) ∧
    ∀ h x, InSet ri' h x ↔ if h ∈ hs then (InSet ri h x ∧ x ≠ v) ∨ x = w else InSet ri h x := by
  induction hs with
  | nil => intro ri _ _; exact ⟨ri, rfl, by simp, by simp⟩
  | cons a hs ih =>
    intro ri hn hall
    rw [List.nodup_cons] at hn
    obtain ⟨s, hs', hv⟩ := hall a (.head _)
    have h1 : renameRef v w ri a = .ok (ri.set a (PySet.add (PySet.remove s v) w)) := by
      unfold renameRef
      rw [exBind_ok]
      refine ⟨s, getE_ok.2 hs', ?_⟩
      rw [exBind_ok]
      exact ⟨_, removeE_ok.2 ⟨hv, rfl⟩, rfl⟩
    have hset : ∀ h x, InSet (ri.set a (PySet.add (PySet.remove s v) w)) h x ↔
        if a = h then (InSet ri h x ∧ x ≠ v) ∨ x = w else InSet ri h x := by
      intro h x
      rw [inSet_set]
      split
      · rename_i e
        subst e
        rw [inSet_iff_mem hs']
        simp [PySet.mem_add, PySet.mem_remove]
      · rfl
    obtain ⟨ri', h2, h3, h4⟩ := ih (ri := ri.set a (PySet.add (PySet.remove s v) w)) hn.2 (by
      intro h hh
      rw [hset, if_neg]
      · exact hall h (.tail _ hh)
      · rintro rfl; exact hn.1 hh)
    refine ⟨ri', ?_, ?_, ?_⟩
    · rw [List.foldlM_cons, exBind_ok]; exact ⟨_, h1, h2⟩
    · intro k
      rw [h3, Dict.mem_keys_set]
      constructor
      · rintro (rfl | h)
        · exact Dict.mem_keys.2 ⟨s, hs'⟩
        · exact h
      · exact .inr
    · intro h x
      rw [h4, hset]
      by_cases ha : a = h
      · subst ha
        simp [hn.1]
      · simp only [ha, if_false, List.mem_cons, Ne.symm ha, false_or]

/-- The old name of a node after `v` was renamed to `w`. -/
def back (v w x : String) : String := if x = w then v else x

/-- What `rename_var` does, as relations. -/
structure Renames (f g : CFrame) (v w : String) : Prop where
  vs : ∀ x h, InSet g.vs x h ↔ x ≠ v ∧ InSet f.vs (back v w x) h
  vsKey : ∀ x, x ∈ g.vs.keys ↔ x ≠ v ∧ back v w x ∈ f.vs.keys
  inp : ∀ n l m, InAdj g.inp n l m ↔ n ≠ v ∧ m ≠ v ∧ InAdj f.inp (back v w n) l (back v w m)
  out : ∀ n l m, InAdj g.out n l m ↔ n ≠ v ∧ m ≠ v ∧ InAdj f.out (back v w n) l (back v w m)
  inpKey : ∀ x, x ∈ g.inp.keys ↔ x ≠ v ∧ back v w x ∈ f.inp.keys
  outKey : ∀ x, x ∈ g.out.keys ↔ x ≠ v ∧ back v w x ∈ f.out.keys
  refinv : ∀ h x, InSet g.refinv h x ↔ x ≠ v ∧ InSet f.refinv h (back v w x)
  refinvKey : ∀ h, h ∈ g.refinv.keys ↔ h ∈ f.refinv.keys
  rest : g = { f with vs := g.vs, inp := g.inp, out := g.out, refinv := g.refinv }

theorem moved_key {V : Type} {d : Dict String V} {v w x : String} {i : V} (hi : d.get? v = some i) (hvw : v ≠ w) :
    x ∈ ((d.set w i).erase v).keys ↔ x ≠ v ∧ back v w x ∈ d.keys := by
  rw [Dict.mem_keys_erase, Dict.mem_keys_set]
  unfold back
  by_cases hx : x = w
  · subst hx
    simp only [if_true, true_or, and_true]
    exact ⟨fun h => ⟨h, Dict.mem_keys.2 ⟨i, hi⟩⟩, fun h => h.1⟩
  · simp [hx]

theorem moved_set {d : SetDict} {v w x h : String} {i : List String} (hi : d.get? v = some i) :
    InSet ((d.set w i).erase v) x h ↔ x ≠ v ∧ InSet d (back v w x) h := by
  rw [inSet_erase, inSet_set]
  unfold back
  by_cases hx : x = w
  · subst hx
    simp only [if_true, inSet_iff_mem hi]
    exact and_congr_left' (by constructor <;> exact Ne.symm)
  · simp only [hx, Ne.symm hx, if_false]
    exact and_congr_left' (by constructor <;> exact Ne.symm)

theorem moved_adj {d : Adj} {v w n l m : String} {i : SetDict} (hi : d.get? v = some i) :
    InAdj ((d.set w i).erase v) n l m ↔ n ≠ v ∧ InAdj d (back v w n) l m := by
  rw [inAdj_erase, inAdj_set]
  unfold back
  by_cases hx : n = w
  · subst hx
    simp only [if_true, inAdj_of_get hi]
    exact and_congr_left' (by constructor <;> exact Ne.symm)
  · simp only [hx, Ne.symm hx, if_false]
    exact and_congr_left' (by constructor <;> exact Ne.symm)

theorem renamed_adj {ns : List String} {d : Adj} {v w n l m : String} {i : SetDict} (hi : d.get? v = some i)
    (hvw : v ≠ w) (hns : ∀ n, n ∈ ((d.set w i).erase v).keys → n ∈ ns) (hw : ∀ n l, ¬ InAdj d n l w) :
    InAdj (renameAdj ns v w ((d.set w i).erase v)) n l m ↔ n ≠ v ∧ m ≠ v ∧ InAdj d (back v w n) l (back v w m) := by
  by_cases hn : n ∈ ((d.set w i).erase v).keys
  · rw [inAdj_rename (hns n hn), moved_adj hi, moved_adj hi]
    by_cases hm : m = w
    · subst hm
      have : back v m m = v := if_pos rfl
      rw [this]
      constructor
      · rintro (⟨⟨_, h⟩, _⟩ | ⟨_, h1, h2⟩)
        · exact absurd h (hw _ _)
        · exact ⟨h1, Ne.symm hvw, h2⟩
      · rintro ⟨h1, _, h2⟩; exact .inr ⟨rfl, h1, h2⟩
    · have : back v w m = m := if_neg hm
      rw [this]
      constructor
      · rintro (⟨⟨h1, h2⟩, h3⟩ | ⟨h, _⟩)
        · exact ⟨h1, h3, h2⟩
        · exact absurd h hm
      · rintro ⟨h1, h3, h2⟩; exact .inl ⟨⟨h1, h2⟩, h3⟩
  · constructor
    · intro h
      exact absurd (keys_rename.1 (inAdj_key h)) hn
    · rintro ⟨h1, _, h2⟩
      exact absurd ((moved_key hi hvw).2 ⟨h1, inAdj_key h2⟩) hn

theorem renameVar_renames (H : Wf R f) {v w : String} (hv : f.IsVar v) (hw : w ∉ f.nodes) :
    ∃ g, f.renameVar v w = .ok g ∧ Renames f g v w := by
  have hvw : v ≠ w := by rintro rfl; exact hw (mem_nodes.2 (.inl hv))
  have hwn : ¬ (f.IsVar w ∨ f.IsFunc w) := fun h => hw (mem_nodes.2 h)
  have G := H.graph
  obtain ⟨s, hs⟩ := Dict.mem_keys.1 hv
  obtain ⟨i, hi⟩ := Dict.mem_keys.1 ((G.inpKey v).2 (.inl hv))
  obtain ⟨o, ho⟩ := Dict.mem_keys.1 ((G.outKey v).2 (.inl hv))
  have hnw : ∀ n l, ¬ InAdj f.out n l w := by
    intro n l h
    rcases G.bip _ _ _ h with h' | h'
    · exact hwn (.inr h'.2)
    · exact hwn (.inl h'.2)
  have hnw' : ∀ n l, ¬ InAdj f.inp n l w := by
    intro n l h
    rw [← G.sym] at h
    rcases G.bip _ _ _ h with h' | h'
    · exact hwn (.inl h'.1)
    · exact hwn (.inr h'.1)
  let f1 : CFrame := { f with vs := (f.vs.set w s).erase v, inp := (f.inp.set w i).erase v, out := (f.out.set w o).erase v }
  have n1 : ∀ n, n ∈ f1.nodes ↔ n ≠ v ∧ back v w n ∈ f.inp.keys := by
    intro n
    rw [mem_nodes, IsVar, IsFunc, moved_key hs hvw, G.inpKey]
    constructor
    · rintro (h | h)
      · exact ⟨h.1, .inl h.2⟩
      · refine ⟨?_, ?_⟩
        · rintro rfl; exact G.disj n hv h
        · unfold back
          split
          · exact .inl hv
          · exact .inr h
    · rintro ⟨h1, h | h⟩
      · exact .inl ⟨h1, h⟩
      · right
        unfold back at h
        split at h
        · exact absurd h (G.disj v hv)
        · exact h
  have n2 : ∀ n, n ∈ f1.nodes ↔ n ≠ v ∧ back v w n ∈ f.out.keys := by
    intro n
    rw [n1, G.inpKey, G.outKey]
  have hki : ∀ n, n ∈ ((f.inp.set w i).erase v).keys ↔ n ∈ f1.nodes := fun n => by rw [n1, moved_key hi hvw]
  have hko : ∀ n, n ∈ ((f.out.set w o).erase v).keys ↔ n ∈ f1.nodes := fun n => by rw [n2, moved_key ho hvw]
  have hall : f1.nodes.all (fun n => f1.inp.has n && f1.out.has n) = true := by
    rw [List.all_eq_true]
    intro n hn
    rw [Bool.and_eq_true, Dict.has_iff, Dict.has_iff]
    exact ⟨(hki n).2 hn, (hko n).2 hn⟩
  obtain ⟨ri, hri, hrk, hrs⟩ := renameRefs_spec (w := w) (v := v) (ri := f.refinv) (hs := PySet.ofList s) (PySet.nodup_ofList s) (by
    intro h hh
    rw [H.ref.refinv]
    exact ⟨s, hs, PySet.mem_ofList.1 hh⟩)
  refine ⟨{ f1 with inp := renameAdj f1.nodes v w f1.inp, out := renameAdj f1.nodes v w f1.out, refinv := ri }, ?_, ?_⟩
  · unfold renameVar
    rw [exBind_ok]; refine ⟨s, getE_ok.2 hs, ?_⟩
    rw [exBind_ok]; refine ⟨i, getE_ok.2 hi, ?_⟩
    rw [exBind_ok]; refine ⟨o, getE_ok.2 ho, ?_⟩
    change (if f1.nodes.all (fun n => f1.inp.has n && f1.out.has n) = true then _ else _) = _
    rw [if_pos hall, exBind_ok]
    refine ⟨s, ?_, ?_⟩
    · rw [getE_ok]
      change ((f.vs.set w s).erase v).get? w = some s
      rw [Dict.get?_erase, if_neg hvw, Dict.get?_set, if_pos rfl]
    · rw [exBind_ok]
      exact ⟨ri, hri, rfl⟩
  · constructor
    · intro x h; exact moved_set hs
    · intro x; exact moved_key hs hvw
    · intro n l m
      exact renamed_adj hi hvw (fun n hn => (hki n).1 hn) hnw'
    · intro n l m
      exact renamed_adj ho hvw (fun n hn => (hko n).1 hn) hnw
    · intro x
      change x ∈ (renameAdj f1.nodes v w ((f.inp.set w i).erase v)).keys ↔ _
      rw [keys_rename]
      exact moved_key hi hvw
    · intro x
      change x ∈ (renameAdj f1.nodes v w ((f.out.set w o).erase v)).keys ↔ _
      rw [keys_rename]
      exact moved_key ho hvw
    · intro h x
      change InSet ri h x ↔ _
      rw [hrs]
      have hsr : h ∈ PySet.ofList s ↔ InSet f.refinv h v := by rw [PySet.mem_ofList, H.ref.refinv, HasRef, inSet_iff_mem hs]
      have hnr : ¬ InSet f.refinv h w := by
        intro hh
        rw [H.ref.refinv] at hh
        exact hwn (.inl hh.key)
      unfold back
      split
      · rename_i hh
        by_cases hx : x = w
        · subst hx
          simp only [or_true, if_true, true_iff]
          exact ⟨Ne.symm hvw, hsr.1 hh⟩
        · simp only [hx, or_false, if_false]
          exact And.comm
      · rename_i hh
        by_cases hx : x = w
        · subst hx
          simp only [if_true]
          constructor
          · intro h'; exact absurd h' hnr
          · intro h'; exact absurd (hsr.2 h'.2) hh
        · simp only [hx, if_false]
          constructor
          · intro h'
            refine ⟨?_, h'⟩
            rintro rfl
            exact hh (hsr.2 h')
          · exact fun h => h.2
    · exact hrk
    · rfl

theorem wf_renames (H : Wf R f) {v w : String} (hv : f.IsVar v) (hw : w ∉ f.nodes) {g : CFrame} (S : Renames f g v w) : Wf R g := by
  have hvw : v ≠ w := by rintro rfl; exact hw (mem_nodes.2 (.inl hv))
  have hwn : ¬ (f.IsVar w ∨ f.IsFunc w) := fun h => hw (mem_nodes.2 h)
  have G := H.graph
  have efs : g.fs = f.fs := by rw [S.rest]
  have ecalls : g.calls = f.calls := by rw [S.rest]
  have erefs : g.refs = f.refs := by rw [S.rest]
  have ecallinv : g.callinv = f.callinv := by rw [S.rest]
  have ecreator : g.creator = f.creator := by rw [S.rest]
  have econs : g.consumers = f.consumers := by rw [S.rest]
  have bv : ∀ {x}, x ≠ w → back v w x = x := fun h => if_neg h
  have bw : back v w w = v := if_pos rfl
  have hfun : ∀ {n}, f.IsFunc n → n ≠ v ∧ back v w n = n := by
    intro n hn
    refine ⟨?_, bv ?_⟩
    · rintro rfl; exact G.disj n hv hn
    · rintro rfl; exact hwn (.inr hn)
  have hnode : ∀ x, (x ≠ v ∧ (f.IsVar (back v w x) ∨ f.IsFunc (back v w x))) ↔ (g.IsVar x ∨ g.IsFunc x) := by
    intro x
    simp only [IsVar, IsFunc, efs, S.vsKey]
    constructor
    · rintro ⟨h1, h | h⟩
      · exact .inl ⟨h1, h⟩
      · right
        by_cases hx : x = w
        · subst hx; rw [bw] at h; exact absurd h (G.disj v hv)
        · rw [bv hx] at h; exact h
    · rintro (h | h)
      · exact ⟨h.1, .inl h.2⟩
      · obtain ⟨h1, h2⟩ := hfun h
        exact ⟨h1, .inr (h2.symm ▸ h)⟩
  have hex : ∀ h, (∃ x, g.HasRef x h) ↔ ∃ x, f.HasRef x h := by
    intro h
    simp only [HasRef, S.vs]
    constructor
    · rintro ⟨x, _, hx⟩; exact ⟨_, hx⟩
    · rintro ⟨x, hx⟩
      by_cases hxv : x = v
      · exact ⟨w, Ne.symm hvw, by rw [bw, ← hxv]; exact hx⟩
      · refine ⟨x, hxv, ?_⟩
        rw [bv]
        · exact hx
        · rintro rfl; exact hwn (.inl hx.key)
  constructor
  · constructor
    · intro n h1 h2
      rw [IsVar, S.vsKey] at h1
      rw [IsFunc, efs] at h2
      obtain ⟨_, k2⟩ := hfun h2
      rw [k2] at h1
      exact G.disj n h1.2 h2
    · intro n
      rw [S.inpKey, G.inpKey]
      exact hnode n
    · intro n
      rw [S.outKey, G.outKey]
      exact hnode n
    · intro s d l
      rw [S.out, S.inp, G.sym]
      constructor <;> rintro ⟨h1, h2, h3⟩ <;> exact ⟨h2, h1, h3⟩
    · intro s d l h
      rw [S.out] at h
      obtain ⟨h1, h2, h3⟩ := h
      have ff : ∀ {x}, f.IsFunc (back v w x) → f.IsFunc x := by
        intro x hx
        by_cases hxw : x = w
        · subst hxw; rw [bw] at hx; exact absurd hx (G.disj v hv)
        · rw [bv hxw] at hx; exact hx
      simp only [IsVar, IsFunc, S.vsKey, efs]
      rcases G.bip _ _ _ h3 with ⟨k1, k2⟩ | ⟨k1, k2⟩
      · exact .inl ⟨⟨h1, k1⟩, ff k2⟩
      · exact .inr ⟨ff k1, h2, k2⟩
  · constructor
    · intro h x
      rw [S.refinv, HasRef, S.vs, H.ref.refinv]
    · intro h; rw [S.refinvKey, hex]; exact H.ref.refinvKey h
    · intro h; rw [erefs, hex]; exact H.ref.refs h
    · rw [erefs]; exact H.ref.refHid
  · constructor <;> simp only [HasCall, efs, ecalls, ecallinv]
    · exact H.call.callinv
    · exact H.call.callinvKey
    · exact H.call.calls
    · exact H.call.callOk
  · rintro n c p x hp ⟨h1, h2, h3⟩
    rw [HasCall, efs] at h1
    rw [ecalls] at h2
    rw [S.inp, (hfun h1.key).2] at h3
    have := H.ins n c p _ hp ⟨h1, h2, h3.2.2⟩
    exact ⟨(S.vs _ _).2 ⟨h3.2.1, this.1⟩, by rw [econs]; exact this.2⟩
  · rintro n c p x hp ⟨h1, h2, h3⟩
    rw [HasCall, efs] at h1
    rw [ecalls] at h2
    rw [S.out, (hfun h1.key).2] at h3
    have := H.outs n c p _ hp ⟨h1, h2, h3.2.2⟩
    exact ⟨(S.vs _ _).2 ⟨h3.2.1, this.1⟩, by rw [ecreator]; exact this.2⟩
  · intro h c hc
    rw [ecreator] at hc
    obtain ⟨h1, h2⟩ := H.creator h c hc
    exact ⟨(hex h).2 h1, by rw [ecalls]; exact h2⟩
  · intro h hk
    rw [econs] at hk
    exact (hex h).2 (H.consumersKey h hk)
  · intro h c hc
    rw [econs] at hc
    rw [ecalls]
    exact H.consumers h c hc

end CFrame
end Verif
