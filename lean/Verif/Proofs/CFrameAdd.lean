import Verif.Proofs.CFrame
/-!
Adding nodes, edges, refs and calls keeps a frame well-formed.
-/
namespace Verif

open Props

namespace CFrame

variable {R : FCall → Prop} {f : CFrame}

theorem Wf.not_node_inp (H : Wf R f) {n : String} (h : n ∉ f.nodes) {l m : String} : ¬ InAdj f.inp n l m :=
  fun h' => h (mem_nodes.2 ((H.graph.inpKey n).1 (inAdj_key h')))

theorem Wf.not_node_out (H : Wf R f) {n : String} (h : n ∉ f.nodes) {l m : String} : ¬ InAdj f.out n l m :=
  fun h' => h (mem_nodes.2 ((H.graph.outKey n).1 (inAdj_key h')))

theorem inAdj_set_nil {d : Adj} {n n' l m : String} (h : ∀ l m, ¬ InAdj d n l m) :
    InAdj (d.set n []) n' l m ↔ InAdj d n' l m := by
  rw [inAdj_set]
  split
  · rename_i e
    subst e
    simp [h, InSet]
  · rfl

theorem inSet_set_nil {d : SetDict} {n n' m : String} (h : ∀ m, ¬ InSet d n m) :
    InSet (d.set n []) n' m ↔ InSet d n' m := by
  rw [inSet_set]
  split
  · rename_i e
    subst e
    simp [h]
  · rfl

theorem wf_addVar (H : Wf R f) {v : String} (hv : v ∉ f.nodes) : Wf R (f.addVar v) := by
  have hv' : ¬ f.IsVar v ∧ ¬ f.IsFunc v := by rw [mem_nodes] at hv; exact not_or.1 hv
  have hi : ∀ {n l m}, InAdj (f.inp.set v []) n l m ↔ InAdj f.inp n l m := inAdj_set_nil fun _ _ => H.not_node_inp hv
  have ho : ∀ {n l m}, InAdj (f.out.set v []) n l m ↔ InAdj f.out n l m := inAdj_set_nil fun _ _ => H.not_node_out hv
  have hs : ∀ {n m}, InSet (f.vs.set v []) n m ↔ InSet f.vs n m := inSet_set_nil fun _ => not_inSet_of_key hv'.1
  unfold addVar
  constructor
  · constructor <;> simp only [IsVar, IsFunc, hi, ho, Dict.mem_keys_set]
    · rintro n (rfl | h)
      · exact hv'.2
      · exact H.graph.disj n h
    · intro n; rw [H.graph.inpKey, or_assoc]
    · intro n; rw [H.graph.outKey, or_assoc]
    · exact H.graph.sym
    · intro s d l h
      rcases H.graph.bip s d l h with h | h
      · exact .inl ⟨.inr h.1, h.2⟩
      · exact .inr ⟨h.1, .inr h.2⟩
  · constructor <;> simp only [HasRef, hs]
    · exact H.ref.refinv
    · exact H.ref.refinvKey
    · exact H.ref.refs
    · exact H.ref.refHid
  · exact ⟨H.call.callinv, H.call.callinvKey, H.call.calls, H.call.callOk⟩
  · simp only [Tracks, HasRef, hi, hs]; exact H.ins
  · simp only [Tracks, HasRef, ho, hs]; exact H.outs
  · simp only [HasRef, hs]; exact H.creator
  · simp only [HasRef, hs]; exact H.consumersKey
  · exact H.consumers

theorem wf_addFunc (H : Wf R f) {v : String} (hv : v ∉ f.nodes) : Wf R (f.addFunc v) := by
  have hv' : ¬ f.IsVar v ∧ ¬ f.IsFunc v := by rw [mem_nodes] at hv; exact not_or.1 hv
  have hi : ∀ {n l m}, InAdj (f.inp.set v []) n l m ↔ InAdj f.inp n l m := inAdj_set_nil fun _ _ => H.not_node_inp hv
  have ho : ∀ {n l m}, InAdj (f.out.set v []) n l m ↔ InAdj f.out n l m := inAdj_set_nil fun _ _ => H.not_node_out hv
  have hs : ∀ {n m}, InSet (f.fs.set v []) n m ↔ InSet f.fs n m := inSet_set_nil fun _ => not_inSet_of_key hv'.2
  unfold addFunc
  constructor
  · constructor <;> simp only [IsVar, IsFunc, hi, ho, Dict.mem_keys_set]
    · rintro n h (rfl | h')
      · exact hv'.1 h
      · exact H.graph.disj n h h'
    · intro n; rw [H.graph.inpKey, or_left_comm]
    · intro n; rw [H.graph.outKey, or_left_comm]
    · exact H.graph.sym
    · intro s d l h
      rcases H.graph.bip s d l h with h | h
      · exact .inl ⟨h.1, .inr h.2⟩
      · exact .inr ⟨.inr h.1, h.2⟩
  · exact ⟨H.ref.refinv, H.ref.refinvKey, H.ref.refs, H.ref.refHid⟩
  · constructor <;> simp only [HasCall, hs]
    · exact H.call.callinv
    · exact H.call.callinvKey
    · exact H.call.calls
    · exact H.call.callOk
  · simp only [Tracks, HasCall, hi, hs]; exact H.ins
  · simp only [Tracks, HasCall, ho, hs]; exact H.outs
  · exact H.creator
  · exact H.consumersKey
  · exact H.consumers

/-- What adding an edge does. -/
theorem addEdge_ok {g : CFrame} {s d l : String} {allow : Bool} (h : f.addEdge s d l allow = .ok g) :
    (g = f ∧ f.HasEdge s d l ∧ allow = true) ∨ (¬ f.HasEdge s d l ∧ s ∈ f.out.keys ∧ d ∈ f.inp.keys ∧
      g = { f with out := adjAdd f.out s l d, inp := adjAdd f.inp d l s }) := by
  unfold addEdge at h
  split at h
  · rename_i he
    split at h
    · cases h; exact .inl ⟨rfl, mem_edges.1 he, by assumption⟩
    · cases h
  · rename_i he
    split at h
    · rename_i hk
      cases h
      rw [Bool.and_eq_true, Dict.has_iff, Dict.has_iff] at hk
      exact .inr ⟨fun h' => he (mem_edges.2 h'), hk.1, hk.2, rfl⟩
    · cases h

theorem mem_keys_adjAdd {d : Adj} {n l m k : String} : k ∈ (adjAdd d n l m).keys ↔ k = n ∨ k ∈ d.keys := Dict.mem_keys_set

/-- An edge between a variable and a function that has no calls yet. -/
theorem wf_addEdge (H : Wf R f) {s d l : String} {allow : Bool} {g : CFrame} (h : f.addEdge s d l allow = .ok g)
    (hb : (f.IsVar s ∧ f.IsFunc d ∧ ∀ h, ¬ f.HasCall d h) ∨ (f.IsFunc s ∧ f.IsVar d ∧ ∀ h, ¬ f.HasCall s h)) : Wf R g := by
  rcases addEdge_ok h with ⟨rfl, _⟩ | ⟨_, hs, hd, rfl⟩
  · exact H
  constructor
  · constructor <;> simp only [IsVar, IsFunc, inAdj_add, mem_keys_adjAdd]
    · exact H.graph.disj
    · intro n
      rw [H.graph.inpKey]
      constructor
      · rintro (rfl | h)
        · exact (H.graph.inpKey _).1 hd
        · exact h
      · exact .inr
    · intro n
      rw [H.graph.outKey]
      constructor
      · rintro (rfl | h)
        · exact (H.graph.outKey _).1 hs
        · exact h
      · exact .inr
    · intro s' d' l'
      rw [H.graph.sym]
      constructor
      · rintro (h | ⟨rfl, rfl, rfl⟩) <;> simp_all
      · rintro (h | ⟨rfl, rfl, rfl⟩) <;> simp_all
    · rintro s' d' l' (h | ⟨rfl, rfl, rfl⟩)
      · exact H.graph.bip _ _ _ h
      · rcases hb with hb | hb
        · exact .inl ⟨hb.1, hb.2.1⟩
        · exact .inr ⟨hb.1, hb.2.1⟩
  · exact ⟨H.ref.refinv, H.ref.refinvKey, H.ref.refs, H.ref.refHid⟩
  · exact ⟨H.call.callinv, H.call.callinvKey, H.call.calls, H.call.callOk⟩
  · rintro n c p v hp ⟨h1, h2, h3⟩
    rw [inAdj_add] at h3
    rcases h3 with h3 | ⟨rfl, _, rfl⟩
    · exact H.ins n c p v hp ⟨h1, h2, h3⟩
    · rcases hb with hb | hb
      · exact absurd h1 (hb.2.2 _)
      · exact absurd h1.key (H.graph.disj _ hb.2.1)
  · rintro n c p v hp ⟨h1, h2, h3⟩
    rw [inAdj_add] at h3
    rcases h3 with h3 | ⟨rfl, _, rfl⟩
    · exact H.outs n c p v hp ⟨h1, h2, h3⟩
    · rcases hb with hb | hb
      · exact absurd h1.key (H.graph.disj _ hb.1)
      · exact absurd h1 (hb.2.2 _)
  · exact H.creator
  · exact H.consumersKey
  · exact H.consumers

/-! ### refs -/

/-- What adding a ref does. -/
theorem addRef_ok {g : CFrame} {v : String} {r : FRef} {allow : Bool} (h : f.addRef v r allow = .ok g) :
    (g = f ∧ f.HasRef v r.hid ∧ allow = true) ∨ ∃ s, f.vs.get? v = some s ∧ r.hid ∉ s ∧ g = { f with
      refs := f.refs.set r.hid r, vs := f.vs.set v (PySet.add s r.hid)
      refinv := f.refinv.set r.hid (PySet.add (getOr f.refinv r.hid) v) } := by
  unfold addRef at h
  obtain ⟨s, hs, h⟩ := exBind_ok.1 h
  rw [getE_ok] at hs
  split at h
  · rename_i hr
    split at h
    · cases h; exact .inl ⟨rfl, ⟨s, hs, hr⟩, by assumption⟩
    · cases h
  · cases h
    exact .inr ⟨s, hs, by assumption, rfl⟩

theorem addRef_total {v : String} {r : FRef} (hv : f.IsVar v) : ∃ g, f.addRef v r true = .ok g := by
  obtain ⟨s, hs⟩ := Dict.mem_keys.1 hv
  unfold addRef
  rw [getE_ok.2 hs]
  by_cases h : r.hid ∈ s
  · exact ⟨_, by simp only [bind, Except.bind, h, if_true]; rfl⟩
  · exact ⟨_, by simp only [bind, Except.bind, h, if_false]; rfl⟩

/-- `g` is `f` with exactly the values `S` added to variables. -/
structure Adds (f g : CFrame) (S : String → String → Prop) : Prop where
  rest : g = { f with vs := g.vs, refinv := g.refinv, refs := g.refs }
  keys : ∀ v, g.IsVar v ↔ f.IsVar v
  vs : ∀ v h, g.HasRef v h ↔ f.HasRef v h ∨ S v h
  wf : RefWf g

theorem adds_refl (H : RefWf f) : Adds f f (fun _ _ => False) := ⟨rfl, fun _ => Iff.rfl, by simp, H⟩

theorem Adds.trans {f g k : CFrame} {S T : String → String → Prop} (h : Adds f g S) (h' : Adds g k T) : Adds f k (fun v h => S v h ∨ T v h) := by
  refine ⟨?_, fun v => (h'.keys v).trans (h.keys v), ?_, h'.wf⟩
  · rw [h'.rest, h.rest]
  · intro v x; rw [h'.vs, h.vs, or_assoc]

theorem addRef_adds (H : RefWf f) {v : String} {r : FRef} {allow : Bool} {g : CFrame} (h : f.addRef v r allow = .ok g) :
    Adds f g (fun v' h' => v' = v ∧ h' = r.hid) := by
  rcases addRef_ok h with ⟨rfl, hr, _⟩ | ⟨s, hs, hr, rfl⟩
  · refine ⟨rfl, fun _ => Iff.rfl, ?_, H⟩
    intro v' h'
    constructor
    · exact .inl
    · rintro (h | ⟨rfl, rfl⟩) <;> assumption
  · have hvs : ∀ v' h', InSet (f.vs.set v (PySet.add s r.hid)) v' h' ↔ InSet f.vs v' h' ∨ (v' = v ∧ h' = r.hid) := by
      intro v' h'
      rw [inSet_set]
      split
      · rename_i e
        subst e
        simp [inSet_iff_mem hs]
      · rename_i e
        simp [Ne.symm e]
    have hex : ∀ h', (∃ v', InSet f.vs v' h' ∨ (v' = v ∧ h' = r.hid)) ↔ (∃ v', InSet f.vs v' h') ∨ h' = r.hid := by
      intro h'
      constructor
      · rintro ⟨v', h | ⟨_, h⟩⟩
        · exact .inl ⟨v', h⟩
        · exact .inr h
      · rintro (⟨v', h⟩ | h)
        · exact ⟨v', .inl h⟩
        · exact ⟨v, .inr ⟨rfl, h⟩⟩
    refine ⟨rfl, ?_, hvs, ?_⟩
    · intro v'
      simp only [IsVar, Dict.mem_keys_set]
      constructor
      · rintro (rfl | h)
        · exact Dict.mem_keys.2 ⟨s, hs⟩
        · exact h
      · exact .inr
    · constructor <;> simp only [HasRef, hvs, hex, Dict.mem_keys_set]
      · intro h' v'
        rw [inSet_set]
        split
        · rename_i e
          subst e
          simp [mem_getOr, H.refinv]
        · rename_i e
          simp [H.refinv, Ne.symm e]
      · intro h'
        rw [H.refinvKey, or_comm]
      · intro h'
        rw [H.refs, or_comm]
      · intro h' r' hr'
        rw [Dict.get?_set] at hr'
        split at hr'
        · rename_i e
          cases hr'
          exact e
        · exact H.refHid h' r' hr'

theorem Wf.adds {g : CFrame} {S : String → String → Prop} (H : Wf R f) (h : Adds f g S) : Wf R g := by
  have hmono : ∀ {v x}, f.HasRef v x → g.HasRef v x := fun h' => (h.vs _ _).2 (.inl h')
  obtain ⟨rest, keys, _, wf⟩ := h
  have e1 : g.inp = f.inp := by rw [rest]
  have e2 : g.out = f.out := by rw [rest]
  have e3 : g.fs = f.fs := by rw [rest]
  have e4 : g.calls = f.calls := by rw [rest]
  have e5 : g.callinv = f.callinv := by rw [rest]
  have e6 : g.creator = f.creator := by rw [rest]
  have e7 : g.consumers = f.consumers := by rw [rest]
  constructor
  · constructor <;> simp only [keys, IsFunc, e1, e2, e3]
    · exact H.graph.disj
    · exact H.graph.inpKey
    · exact H.graph.outKey
    · exact H.graph.sym
    · exact H.graph.bip
  · exact wf
  · constructor <;> simp only [HasCall, e3, e4, e5]
    · exact H.call.callinv
    · exact H.call.callinvKey
    · exact H.call.calls
    · exact H.call.callOk
  · simp only [Tracks, HasCall, e1, e3, e4, e7]
    intro n c p v hp ht
    exact ⟨hmono (H.ins n c p v hp ht).1, (H.ins n c p v hp ht).2⟩
  · simp only [Tracks, HasCall, e2, e3, e4, e6]
    intro n c p v hp ht
    exact ⟨hmono (H.outs n c p v hp ht).1, (H.outs n c p v hp ht).2⟩
  · rw [e6, e4]
    intro h c hc
    obtain ⟨⟨v, hv⟩, h2⟩ := H.creator h c hc
    exact ⟨⟨v, hmono hv⟩, h2⟩
  · rw [e7]
    intro h hk
    obtain ⟨v, hv⟩ := H.consumersKey h hk
    exact ⟨v, hmono hv⟩
  · rw [e7, e4]; exact H.consumers

theorem wf_addRef (H : Wf R f) {v : String} {r : FRef} {allow : Bool} {g : CFrame} (h : f.addRef v r allow = .ok g) : Wf R g :=
  H.adds (addRef_adds H.ref h)

theorem addRefs_adds {r : FRef} {vars : List String} : ∀ {f : CFrame}, RefWf f → (∀ v ∈ vars, f.IsVar v) →
    ∃ g, vars.foldlM (fun f v => f.addRef v r true) f = .ok g ∧ Adds f g (fun v' h' => v' ∈ vars ∧ h' = r.hid) := by
  induction vars with
  | nil => intro f H _; exact ⟨f, rfl, rfl, fun _ => Iff.rfl, by simp, H⟩
  | cons v vars ih =>
    intro f H hv
    obtain ⟨g, hg⟩ := addRef_total (r := r) (hv v (by simp))
    have ha := addRef_adds H hg
    obtain ⟨k, hk, hak⟩ := ih ha.wf (fun v' hv' => (ha.keys v').2 (hv v' (by simp [hv'])))
    refine ⟨k, ?_, ?_⟩
    · rw [List.foldlM_cons, hg]
      exact hk
    · have := ha.trans hak
      refine ⟨this.rest, this.keys, ?_, this.wf⟩
      intro v' h'
      rw [this.vs]
      simp only [List.mem_cons]
      constructor
      · rintro (h | ⟨rfl, rfl⟩ | ⟨h, rfl⟩) <;> simp_all
      · rintro (h | ⟨rfl | h, rfl⟩) <;> simp_all


/-! ### calls -/

theorem RefWf.congr {f g : CFrame} (H : RefWf f) (h1 : g.vs = f.vs) (h2 : g.refinv = f.refinv) (h3 : g.refs = f.refs) : RefWf g := by
  constructor <;> simp only [HasRef, h1, h2, h3]
  · exact H.refinv
  · exact H.refinvKey
  · exact H.refs
  · exact H.refHid

/-- The inputs `ps` of a call are added. -/
structure AddsIn (f g : CFrame) (c : FCall) (i : SetDict) (ps : Dict String FRef) : Prop where
  rest : g = { f with vs := g.vs, refinv := g.refinv, refs := g.refs, consumers := g.consumers }
  keys : ∀ v, g.IsVar v ↔ f.IsVar v
  vs : ∀ v h, g.HasRef v h ↔ f.HasRef v h ∨ ∃ p ∈ ps, InSet i (nameProj c.op p.1) v ∧ h = p.2.hid
  wf : RefWf g
  consumers : ∀ h x, InSet g.consumers h x ↔ InSet f.consumers h x ∨ (x = c.hid ∧ ∃ p ∈ ps, nameProj c.op p.1 ∈ i.keys ∧ h = p.2.hid)
  consumersKey : ∀ h, h ∈ g.consumers.keys ↔ h ∈ f.consumers.keys ∨ ∃ p ∈ ps, nameProj c.op p.1 ∈ i.keys ∧ h = p.2.hid

theorem addInput_spec {n : String} {c : FCall} {i : SetDict} {p : String × FRef} (H : RefWf f) (hi : f.inp.get? n = some i)
    (hv : ∀ l v, InSet i l v → f.IsVar v) : ∃ g, addInput n c f p = .ok g ∧ AddsIn f g c i [p] := by
  unfold addInput
  rw [getE_ok.2 hi]
  simp only [bind, Except.bind]
  cases hl : Dict.get? i (nameProj c.op p.1) with
  | none =>
    have hk := Dict.get?_eq_none.1 hl
    have hk' : ∀ v, ¬ InSet i (nameProj c.op p.1) v := fun v h => hk h.key
    exact ⟨f, rfl, rfl, fun _ => Iff.rfl, by simp [hk'], H, by simp [hk], by simp [hk]⟩
  | some vars =>
    have hin : ∀ v, InSet i (nameProj c.op p.1) v ↔ v ∈ vars := fun v => inSet_iff_mem hl
    have hk : nameProj c.op p.1 ∈ i.keys := Dict.mem_keys.2 ⟨_, hl⟩
    let f' : CFrame := { f with consumers := f.consumers.set p.2.hid (PySet.add (getOr f.consumers p.2.hid) c.hid) }
    obtain ⟨g, hg, ha⟩ := addRefs_adds (r := p.2) (vars := vars) (f := f') (H.congr rfl rfl rfl) (fun v h => hv _ v ((hin v).2 h))
    refine ⟨g, hg, ?_, ha.keys, ?_, ha.wf, ?_, ?_⟩
    · rw [ha.rest]
    · intro v h
      rw [ha.vs]
      simp [hin, f', HasRef]
    · intro h x
      rw [show g.consumers = f'.consumers by rw [ha.rest], inSet_set]
      split
      · rename_i e
        subst e
        simp [mem_getOr, hk]
      · rename_i e
        simp [Ne.symm e]
    · intro h
      rw [show g.consumers = f'.consumers by rw [ha.rest]]
      simp only [f', Dict.mem_keys_set, List.mem_singleton, exists_eq_left, hk, true_and]
      exact Or.comm

theorem AddsIn.append {f g k : CFrame} {c : FCall} {i : SetDict} {ps qs : Dict String FRef} (h : AddsIn f g c i ps)
    (h' : AddsIn g k c i qs) : AddsIn f k c i (ps ++ qs) := by
  have ex : ∀ (P : String × FRef → Prop), (∃ p ∈ ps ++ qs, P p) ↔ (∃ p ∈ ps, P p) ∨ ∃ p ∈ qs, P p := by
    intro P
    simp only [List.mem_append, or_and_right, exists_or]
  refine ⟨?_, fun v => (h'.keys v).trans (h.keys v), ?_, h'.wf, ?_, ?_⟩
  · rw [h'.rest, h.rest]
  · intro v x; rw [h'.vs, h.vs, or_assoc, ex]
  · intro v x; rw [h'.consumers, h.consumers, or_assoc, ex, and_or_left]
  · intro v; rw [h'.consumersKey, h.consumersKey, or_assoc, ex]

theorem addInputs_spec {n : String} {c : FCall} {i : SetDict} {ps : Dict String FRef} : ∀ {f : CFrame}, RefWf f → f.inp.get? n = some i →
    (∀ l v, InSet i l v → f.IsVar v) → ∃ g, ps.foldlM (addInput n c) f = .ok g ∧ AddsIn f g c i ps := by
  induction ps with
  | nil => intro f H _ _; exact ⟨f, rfl, rfl, fun _ => Iff.rfl, by simp, H, by simp, by simp⟩
  | cons p ps ih =>
    intro f H hi hv
    obtain ⟨g, hg, ha⟩ := addInput_spec (c := c) (p := p) H hi hv
    obtain ⟨k, hk, hak⟩ := ih ha.wf (by rw [ha.rest]; exact hi) (fun l v h => (ha.keys v).2 (hv l v h))
    refine ⟨k, ?_, ha.append hak⟩
    rw [List.foldlM_cons, hg]
    exact hk

/-- The outputs `ps` of a call are added. -/
structure AddsOut (f g : CFrame) (c : FCall) (i : SetDict) (ps : Dict String FRef) : Prop where
  rest : g = { f with vs := g.vs, refinv := g.refinv, refs := g.refs, creator := g.creator }
  keys : ∀ v, g.IsVar v ↔ f.IsVar v
  vs : ∀ v h, g.HasRef v h ↔ f.HasRef v h ∨ ∃ p ∈ ps, InSet i (nameProj c.op p.1) v ∧ h = p.2.hid
  wf : RefWf g
  creator : ∀ h x, g.creator.get? h = some x ↔
    ((∃ p ∈ ps, nameProj c.op p.1 ∈ i.keys ∧ h = p.2.hid) ∧ x = c.hid) ∨
    ((¬ ∃ p ∈ ps, nameProj c.op p.1 ∈ i.keys ∧ h = p.2.hid) ∧ f.creator.get? h = some x)

theorem addOutput_spec {n : String} {c : FCall} {i : SetDict} {p : String × FRef} (H : RefWf f) (hi : f.out.get? n = some i)
    (hv : ∀ l v, InSet i l v → f.IsVar v) : ∃ g, addOutput n c f p = .ok g ∧ AddsOut f g c i [p] := by
  unfold addOutput
  rw [getE_ok.2 hi]
  simp only [bind, Except.bind]
  cases hl : Dict.get? i (nameProj c.op p.1) with
  | none =>
    have hk := Dict.get?_eq_none.1 hl
    have hk' : ∀ v, ¬ InSet i (nameProj c.op p.1) v := fun v h => hk h.key
    exact ⟨f, rfl, rfl, fun _ => Iff.rfl, by simp [hk'], H, by simp [hk]⟩
  | some vars =>
    have hin : ∀ v, InSet i (nameProj c.op p.1) v ↔ v ∈ vars := fun v => inSet_iff_mem hl
    have hk : nameProj c.op p.1 ∈ i.keys := Dict.mem_keys.2 ⟨_, hl⟩
    let f' : CFrame := { f with creator := f.creator.set p.2.hid c.hid }
    obtain ⟨g, hg, ha⟩ := addRefs_adds (r := p.2) (vars := vars) (f := f') (H.congr rfl rfl rfl) (fun v h => hv _ v ((hin v).2 h))
    refine ⟨g, hg, ?_, ha.keys, ?_, ha.wf, ?_⟩
    · rw [ha.rest]
    · intro v h
      rw [ha.vs]
      simp [hin, f', HasRef]
    · intro h x
      rw [show g.creator = f'.creator by rw [ha.rest], Dict.get?_set]
      split
      · rename_i e
        subst e
        simp [hk, eq_comm]
      · rename_i e
        simp [Ne.symm e]

theorem AddsOut.append {f g k : CFrame} {c : FCall} {i : SetDict} {ps qs : Dict String FRef} (h : AddsOut f g c i ps)
    (h' : AddsOut g k c i qs) : AddsOut f k c i (ps ++ qs) := by
  have ex : ∀ (P : String × FRef → Prop), (∃ p ∈ ps ++ qs, P p) ↔ (∃ p ∈ ps, P p) ∨ ∃ p ∈ qs, P p := by
    intro P
    simp only [List.mem_append, or_and_right, exists_or]
  refine ⟨?_, fun v => (h'.keys v).trans (h.keys v), ?_, h'.wf, ?_⟩
  · rw [h'.rest, h.rest]
  · intro v x; rw [h'.vs, h.vs, or_assoc, ex]
  · intro v x
    rw [h'.creator, h.creator, ex]
    generalize (∃ p ∈ ps, _) = P
    generalize (∃ p ∈ qs, _) = Q
    by_cases hP : P <;> by_cases hQ : Q <;> simp [hP, hQ]

theorem addOutputs_spec {n : String} {c : FCall} {i : SetDict} {ps : Dict String FRef} : ∀ {f : CFrame}, RefWf f → f.out.get? n = some i →
    (∀ l v, InSet i l v → f.IsVar v) → ∃ g, ps.foldlM (addOutput n c) f = .ok g ∧ AddsOut f g c i ps := by
  induction ps with
  | nil => intro f H _ _; exact ⟨f, rfl, rfl, fun _ => Iff.rfl, by simp, H, by simp⟩
  | cons p ps ih =>
    intro f H hi hv
    obtain ⟨g, hg, ha⟩ := addOutput_spec (c := c) (p := p) H hi hv
    obtain ⟨k, hk, hak⟩ := ih ha.wf (by rw [ha.rest]; exact hi) (fun l v h => (ha.keys v).2 (hv l v h))
    refine ⟨k, ?_, ha.append hak⟩
    rw [List.foldlM_cons, hg]
    exact hk

/-- The frame right after a call has been registered, cf.py lines 370-374. -/
def reg (f : CFrame) (n : String) (c : FCall) (s : List String) : CFrame := { f with
  calls := f.calls.set c.hid c
  fs := f.fs.set n (PySet.add s c.hid)
  callinv := f.callinv.set c.hid (PySet.add (getOr f.callinv c.hid) n) }

/-- `g` is `f` with the call `c` in the function `n`, and with whatever of its inputs and outputs has a label there. -/
structure AddsCall (f g : CFrame) (n : String) (c : FCall) : Prop where
  inp : g.inp = f.inp
  out : g.out = f.out
  vkeys : ∀ v, g.IsVar v ↔ f.IsVar v
  fkeys : ∀ v, g.IsFunc v ↔ f.IsFunc v
  fs : ∀ m h, g.HasCall m h ↔ f.HasCall m h ∨ (m = n ∧ h = c.hid)
  calls : ∀ h, g.calls.get? h = if c.hid = h then some c else f.calls.get? h
  vs : ∀ v h, g.HasRef v h ↔ f.HasRef v h ∨ (∃ p ∈ c.inputs, InAdj f.inp n (nameProj c.op p.1) v ∧ h = p.2.hid) ∨
    ∃ p ∈ c.outputs, InAdj f.out n (nameProj c.op p.1) v ∧ h = p.2.hid

/-- The labels under which the function `n` has inputs (respectively outputs), even if no variable is attached any more. -/
def HasLabel (side : Adj) (n l : String) : Prop := ∃ i, side.get? n = some i ∧ l ∈ Dict.keys i

theorem addCall_base (H : Base R f) {n : String} {c : FCall} (hc : R c) {g : CFrame} {s : List String}
    (hs : f.fs.get? n = some s) (hn : c.hid ∉ s) (h : f.addCall n c true true = .ok g ∨ f.addCall n c true false = .ok g) :
    AddsCall f g n c ∧ RefWf g ∧ CallWf R g ∧
    (∀ h x, InSet g.consumers h x ↔ InSet f.consumers h x ∨ (x = c.hid ∧ ∃ p ∈ c.inputs, HasLabel f.inp n (nameProj c.op p.1) ∧ h = p.2.hid)) ∧
    (∀ h, h ∈ g.consumers.keys ↔ h ∈ f.consumers.keys ∨ ∃ p ∈ c.inputs, HasLabel f.inp n (nameProj c.op p.1) ∧ h = p.2.hid) ∧
    (∀ h x, g.creator.get? h = some x ↔
      ((∃ p ∈ c.outputs, HasLabel f.out n (nameProj c.op p.1) ∧ h = p.2.hid) ∧ x = c.hid) ∨
      ((¬ ∃ p ∈ c.outputs, HasLabel f.out n (nameProj c.op p.1) ∧ h = p.2.hid) ∧ f.creator.get? h = some x)) := by
  obtain ⟨i, hi⟩ := Dict.mem_keys.1 ((H.graph.inpKey n).2 (.inr (Dict.mem_keys.2 ⟨s, hs⟩)))
  obtain ⟨o, ho⟩ := Dict.mem_keys.1 ((H.graph.outKey n).2 (.inr (Dict.mem_keys.2 ⟨s, hs⟩)))
  have hfn : f.IsFunc n := Dict.mem_keys.2 ⟨s, hs⟩
  have hiv : ∀ l v, InSet i l v → f.IsVar v := by
    intro l v h
    have := (H.graph.sym v n l).2 ((inAdj_of_get hi).2 h)
    rcases H.graph.bip _ _ _ this with h | h
    · exact h.1
    · exact absurd hfn (H.graph.disj _ h.2)
  have hov : ∀ l v, InSet o l v → f.IsVar v := by
    intro l v h
    rcases H.graph.bip n v l ((inAdj_of_get ho).2 h) with h | h
    · exact absurd hfn (H.graph.disj _ h.1)
    · exact h.2
  obtain ⟨g1, hg1, a1⟩ := addInputs_spec (n := n) (c := c) (i := i) (ps := c.inputs) (f := reg f n c s)
    (H.ref.congr rfl rfl rfl) hi hiv
  obtain ⟨g2, hg2, a2⟩ := addOutputs_spec (n := n) (c := c) (i := o) (ps := c.outputs) (f := g1) a1.wf
    (by rw [a1.rest]; exact ho) (fun l v h => (a1.keys v).2 (hov l v h))
  have hg : g = g2 := by
    have e : ∀ allow, f.addCall n c true allow = .ok g2 := by
      intro allow
      unfold addCall
      rw [getE_ok.2 hs]
      simp only [bind, Except.bind, hn, if_false, if_true]
      have hg1' := hg1
      unfold reg at hg1'
      rw [hg1']
      exact hg2
    rcases h with h | h <;> rw [e] at h <;> cases h <;> rfl
  subst hg
  have hlin : ∀ l, HasLabel f.inp n l ↔ l ∈ i.keys := by intro l; unfold HasLabel; simp [hi]
  have hlout : ∀ l, HasLabel f.out n l ↔ l ∈ o.keys := by intro l; unfold HasLabel; simp [ho]
  have e : g = { reg f n c s with vs := g.vs, refinv := g.refinv, refs := g.refs, consumers := g.consumers, creator := g.creator } := by
    rw [a2.rest, a1.rest]
  have efs : g.fs = f.fs.set n (PySet.add s c.hid) := by rw [e]; rfl
  have ecalls : g.calls = f.calls.set c.hid c := by rw [e]; rfl
  have einv : g.callinv = f.callinv.set c.hid (PySet.add (getOr f.callinv c.hid) n) := by rw [e]; rfl
  have hfs : ∀ m h, InSet g.fs m h ↔ InSet f.fs m h ∨ (m = n ∧ h = c.hid) := by
    intro m h
    rw [efs, inSet_set]
    split
    · rename_i e
      subst e
      simp [inSet_iff_mem hs]
    · rename_i e
      simp [Ne.symm e]
  have hex : ∀ h', (∃ v', InSet f.fs v' h' ∨ (v' = n ∧ h' = c.hid)) ↔ (∃ v', InSet f.fs v' h') ∨ h' = c.hid := by
    intro h'
    constructor
    · rintro ⟨v', h | ⟨_, h⟩⟩
      · exact .inl ⟨v', h⟩
      · exact .inr h
    · rintro (⟨v', h⟩ | h)
      · exact ⟨v', .inl h⟩
      · exact ⟨n, .inr ⟨rfl, h⟩⟩
  refine ⟨⟨by rw [e]; rfl, by rw [e]; rfl, fun v => (a2.keys v).trans (a1.keys v), ?_, hfs, ?_, ?_⟩, a2.wf, ?_, ?_, ?_, ?_⟩
  · intro v
    rw [IsFunc, efs, Dict.mem_keys_set]
    constructor
    · rintro (rfl | h)
      · exact hfn
      · exact h
    · exact .inr
  · intro h
    rw [ecalls, Dict.get?_set]
  · intro v h
    rw [a2.vs, a1.vs, or_assoc]
    simp only [inAdj_of_get hi, inAdj_of_get ho]
    rfl
  · constructor <;> simp only [HasCall, hfs, hex, ecalls, einv, Dict.mem_keys_set]
    · intro h m
      rw [inSet_set]
      split
      · rename_i e
        subst e
        simp [mem_getOr, H.call.callinv]
      · rename_i e
        simp [H.call.callinv, Ne.symm e]
    · intro h; rw [H.call.callinvKey, or_comm]
    · intro h; rw [H.call.calls, or_comm]
    · intro h c' hc'
      rw [Dict.get?_set] at hc'
      split at hc'
      · rename_i e
        cases hc'
        exact ⟨e, hc⟩
      · exact H.call.callOk h c' hc'
  · intro h x
    rw [show g.consumers = g1.consumers by rw [a2.rest], a1.consumers]
    simp only [hlin]
    rfl
  · intro h
    rw [show g.consumers = g1.consumers by rw [a2.rest], a1.consumersKey]
    simp only [hlin]
    rfl
  · intro h x
    rw [a2.creator]
    simp only [hlout]
    rw [show g1.creator = f.creator by rw [a1.rest]; rfl]

theorem addCall_spec (H : Wf R f) {n : String} {c : FCall} (hc : R c) {g : CFrame} {s : List String}
    (hs : f.fs.get? n = some s) (hn : c.hid ∉ s) (h : f.addCall n c true true = .ok g ∨ f.addCall n c true false = .ok g) :
    AddsCall f g n c ∧ RefWf g ∧ CallWf R g ∧
    (∀ h x, InSet g.consumers h x ↔ InSet f.consumers h x ∨ (x = c.hid ∧ ∃ p ∈ c.inputs, HasLabel f.inp n (nameProj c.op p.1) ∧ h = p.2.hid)) ∧
    (∀ h, h ∈ g.consumers.keys ↔ h ∈ f.consumers.keys ∨ ∃ p ∈ c.inputs, HasLabel f.inp n (nameProj c.op p.1) ∧ h = p.2.hid) ∧
    (∀ h x, g.creator.get? h = some x ↔
      ((∃ p ∈ c.outputs, HasLabel f.out n (nameProj c.op p.1) ∧ h = p.2.hid) ∧ x = c.hid) ∨
      ((¬ ∃ p ∈ c.outputs, HasLabel f.out n (nameProj c.op p.1) ∧ h = p.2.hid) ∧ f.creator.get? h = some x)) :=
  addCall_base ⟨H.graph, H.ref, H.call⟩ hc hs hn h

theorem addCall_cases {n : String} {c : FCall} {allow : Bool} {g : CFrame} (h : f.addCall n c true allow = .ok g) :
    (g = f ∧ f.HasCall n c.hid) ∨ ∃ s, f.fs.get? n = some s ∧ c.hid ∉ s := by
  unfold addCall at h
  obtain ⟨s, hs, h⟩ := exBind_ok.1 h
  rw [getE_ok] at hs
  split at h
  · rename_i hm
    split at h
    · cases h; exact .inl ⟨rfl, s, hs, hm⟩
    · cases h
  · exact .inr ⟨s, hs, by assumption⟩

theorem hasLabel_of_inAdj {side : Adj} {n l m : String} (h : InAdj side n l m) : HasLabel side n l := by
  obtain ⟨i, hi, h'⟩ := h
  exact ⟨i, hi, h'.key⟩

/-- Adding a recorded call, with its refs, to a function all of whose labels have a variable attached. -/
theorem wf_addCall (hR : RecOk R) (H : Wf R f) {n : String} {c : FCall} (hc : R c) {allow : Bool} {g : CFrame}
    (h : f.addCall n c true allow = .ok g)
    (hin : ∀ p ∈ c.inputs, HasLabel f.inp n (nameProj c.op p.1) → ∃ v, InAdj f.inp n (nameProj c.op p.1) v)
    (hout : ∀ p ∈ c.outputs, HasLabel f.out n (nameProj c.op p.1) → ∃ v, InAdj f.out n (nameProj c.op p.1) v) : Wf R g := by
  rcases addCall_cases h with ⟨rfl, _⟩ | ⟨s, hs, hn⟩
  · exact H
  have h' : f.addCall n c true true = .ok g ∨ f.addCall n c true false = .ok g := by
    cases allow
    · exact .inr h
    · exact .inl h
  obtain ⟨A, hrw, hcw, hcons, hconsk, hcr⟩ := addCall_spec H hc hs hn h'
  have hcalls : ∀ {h c'}, f.calls.get? h = some c' → g.calls.get? h = some c' := by
    intro h c' hc'
    rw [A.calls]
    split
    · rename_i e
      subst e
      obtain ⟨h1, h2⟩ := H.call.callOk _ _ hc'
      rw [hR.hid c' c h2 hc h1]
    · exact hc'
  have hcalls' : ∀ {m c'}, f.HasCall m c'.hid → g.calls.get? c'.hid = some c' → f.calls.get? c'.hid = some c' := by
    intro m c' hm hc'
    rw [A.calls] at hc'
    split at hc'
    · rename_i e
      cases hc'
      obtain ⟨c2, h1, h2, h3⟩ := H.get_call hm
      rw [hR.hid c2 c h3 hc h2] at h1
      exact h1
    · exact hc'
  have hnew : ∀ {c'}, c'.hid = c.hid → g.calls.get? c'.hid = some c' → c' = c := by
    intro c' e hc'
    rw [A.calls, if_pos e.symm] at hc'
    cases hc'
    rfl
  constructor
  · constructor <;> simp only [A.vkeys, A.fkeys, A.inp, A.out]
    · exact H.graph.disj
    · exact H.graph.inpKey
    · exact H.graph.outKey
    · exact H.graph.sym
    · exact H.graph.bip
  · exact hrw
  · exact hcw
  · rintro m c' p v hp ⟨h1, h2, h3⟩
    rw [A.inp] at h3
    rw [A.fs] at h1
    rw [A.vs, hcons]
    rcases h1 with h1 | ⟨rfl, h1⟩
    · have := H.ins m c' p v hp ⟨h1, hcalls' h1 h2, h3⟩
      exact ⟨.inl this.1, .inl this.2⟩
    · have e := hnew h1 h2
      subst e
      exact ⟨.inr (.inl ⟨p, hp, h3, rfl⟩), .inr ⟨rfl, p, hp, hasLabel_of_inAdj h3, rfl⟩⟩
  · rintro m c' p v hp ⟨h1, h2, h3⟩
    rw [A.out] at h3
    rw [A.fs] at h1
    rw [A.vs, hcr]
    rcases h1 with h1 | ⟨rfl, h1⟩
    · have := H.outs m c' p v hp ⟨h1, hcalls' h1 h2, h3⟩
      refine ⟨.inl this.1, ?_⟩
      by_cases hq : ∃ q ∈ c.outputs, HasLabel f.out n (nameProj c.op q.1) ∧ p.2.hid = q.2.hid
      · obtain ⟨q, hq1, _, hq3⟩ := hq
        have hRc' := (H.call.callOk _ _ (hcalls' h1 h2)).2
        have := hR.creator c' c p q hRc' hc hp hq1 hq3
        subst this
        exact .inl ⟨⟨q, hq1, by assumption, hq3⟩, rfl⟩
      · exact .inr ⟨hq, this.2⟩
    · have e := hnew h1 h2
      subst e
      exact ⟨.inr (.inr ⟨p, hp, h3, rfl⟩), .inl ⟨⟨p, hp, hasLabel_of_inAdj h3, rfl⟩, rfl⟩⟩
  · intro h x hx
    rw [hcr] at hx
    rcases hx with ⟨⟨p, hp, hl, rfl⟩, rfl⟩ | ⟨_, hx⟩
    · obtain ⟨v, hv⟩ := hout p hp hl
      exact ⟨⟨v, (A.vs _ _).2 (.inr (.inr ⟨p, hp, hv, rfl⟩))⟩, c, by rw [A.calls, if_pos rfl], p, hp, rfl⟩
    · obtain ⟨⟨v, hv⟩, call, hcall, hp⟩ := H.creator h x hx
      exact ⟨⟨v, (A.vs _ _).2 (.inl hv)⟩, call, hcalls hcall, hp⟩
  · intro h hk
    rw [hconsk] at hk
    rcases hk with hk | ⟨p, hp, hl, rfl⟩
    · obtain ⟨v, hv⟩ := H.consumersKey h hk
      exact ⟨v, (A.vs _ _).2 (.inl hv)⟩
    · obtain ⟨v, hv⟩ := hin p hp hl
      exact ⟨v, (A.vs _ _).2 (.inr (.inl ⟨p, hp, hv, rfl⟩))⟩
  · intro h x hx
    rw [hcons] at hx
    rcases hx with hx | ⟨rfl, p, hp, hl, rfl⟩
    · obtain ⟨call, hcall, hp⟩ := H.consumers h x hx
      exact ⟨call, hcalls hcall, hp⟩
    · exact ⟨c, by rw [A.calls, if_pos rfl], p, hp, rfl⟩

end CFrame
end Verif
