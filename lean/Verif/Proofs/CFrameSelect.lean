import Verif.Proofs.CFrame
/-!
Selecting nodes of a frame and elements of its nodes.
-/
namespace Verif

open Props

theorem get?_restrict {V : Type} {d : Dict String V} {ks : List String} {k : String} :
    (CFrame.restrict d ks).get? k = if k ∈ ks then d.get? k else none := by
  unfold CFrame.restrict
  induction d with
  | nil => simp
  | cons p d ih =>
    obtain ⟨a, b⟩ := p
    rw [List.filter_cons]
    split
    · rename_i h
      simp only [decide_eq_true_eq] at h
      rw [Dict.get?_cons, Dict.get?_cons, ih]
      split
      · rename_i e; subst e; simp [h]
      · rfl
    · rename_i h
      simp only [decide_eq_true_eq] at h
      rw [ih, Dict.get?_cons]
      split
      · rename_i e
        rw [if_neg]
        rintro rfl
        exact h e
      · rfl

theorem mem_keys_restrict {V : Type} {d : Dict String V} {ks : List String} {k : String} :
    k ∈ (CFrame.restrict d ks).keys ↔ k ∈ d.keys ∧ k ∈ ks := by
  rw [Dict.mem_keys, Dict.mem_keys, get?_restrict]
  split <;> simp_all

theorem inSet_restrict {d : SetDict} {ks : List String} {k x : String} :
    InSet (CFrame.restrict d ks) k x ↔ InSet d k x ∧ k ∈ ks := by
  unfold InSet
  rw [get?_restrict]
  split <;> simp_all

theorem mem_keys_mapVals {V W : Type} {g : V → W} {d : Dict String V} {k : String} : k ∈ (d.mapVals g).keys ↔ k ∈ d.keys := by
  rw [Dict.mem_keys, Dict.mem_keys, Dict.get?_mapVals]
  cases d.get? k <;> simp

theorem inSet_mapVals_inter {d : SetDict} {ns : List String} {k x : String} :
    InSet (d.mapVals (PySet.inter · ns)) k x ↔ InSet d k x ∧ x ∈ ns := by
  unfold InSet
  rw [Dict.get?_mapVals]
  cases d.get? k <;> simp

theorem keys_adds (g : String × String × String → String × String × String) (es : List (String × String × String)) :
    ∀ (d : Adj) (k : String), k ∈ (es.foldl (fun d e => adjAdd d (g e).1 (g e).2.2 (g e).2.1) d).keys ↔ k ∈ d.keys ∨ ∃ e ∈ es, (g e).1 = k := by
  induction es with
  | nil => simp
  | cons e es ih =>
    intro d k
    rw [List.foldl_cons, ih, adjAdd, Dict.mem_keys_set]
    simp only [List.mem_cons, exists_eq_or_imp, eq_comm (a := k)]
    constructor
    · rintro ((h | h) | h)
      · exact .inr (.inl h)
      · exact .inl h
      · exact .inr (.inr h)
    · rintro (h | h | h)
      · exact .inl (.inr h)
      · exact .inl (.inl h)
      · exact .inr h

theorem keys_adjFromEdges {es : List (String × String × String)} {ns : List String} (h : ∀ e ∈ es, e.1 ∈ ns ∧ e.2.1 ∈ ns) (k : String) :
    (k ∈ (adjFromEdges es (some ns)).1.keys ↔ k ∈ ns) ∧ (k ∈ (adjFromEdges es (some ns)).2.keys ↔ k ∈ ns) := by
  have hnil : k ∉ Dict.keys ([] : Adj) := by simp [Dict.keys]
  constructor
  · unfold adjFromEdges
    dsimp only
    rw [key_supports, keys_adds (fun e => e)]
    constructor
    · rintro ((h' | ⟨e, he, rfl⟩) | h')
      · exact absurd h' hnil
      · exact (h e he).1
      · exact h'
    · exact .inr
  · unfold adjFromEdges
    dsimp only
    rw [key_supports, keys_adds (fun e => (e.2.1, e.1, e.2.2))]
    constructor
    · rintro ((h' | ⟨e, he, rfl⟩) | h')
      · exact absurd h' hnil
      · exact (h e he).2
      · exact h'
    · exact .inr

namespace CFrame

variable {R : FCall → Prop} {f : CFrame}

/-- What `select_nodes` returns, as relations. -/
structure Selects (f g : CFrame) (ns : List String) : Prop where
  out : ∀ s l d, InAdj g.out s l d ↔ InAdj f.out s l d ∧ s ∈ ns ∧ d ∈ ns
  inp : ∀ s l d, InAdj g.inp d l s ↔ InAdj f.out s l d ∧ s ∈ ns ∧ d ∈ ns
  outKey : ∀ n, n ∈ g.out.keys ↔ n ∈ ns
  inpKey : ∀ n, n ∈ g.inp.keys ↔ n ∈ ns
  vs : ∀ v h, InSet g.vs v h ↔ InSet f.vs v h ∧ v ∈ ns
  vsKey : ∀ v, v ∈ g.vs.keys ↔ v ∈ f.vs.keys ∧ v ∈ ns
  fs : ∀ v h, InSet g.fs v h ↔ InSet f.fs v h ∧ v ∈ ns
  fsKey : ∀ v, v ∈ g.fs.keys ↔ v ∈ f.fs.keys ∧ v ∈ ns
  refs : ∀ h r, g.refs.get? h = some r ↔ f.refs.get? h = some r ∧ ∃ v, InSet f.vs v h ∧ v ∈ ns
  calls : ∀ h r, g.calls.get? h = some r ↔ f.calls.get? h = some r ∧ ∃ v, InSet f.fs v h ∧ v ∈ ns
  refinv : ∀ h v, InSet g.refinv h v ↔ InSet f.refinv h v ∧ v ∈ ns ∧ ∃ v, InSet f.vs v h ∧ v ∈ ns
  refinvKey : ∀ h, h ∈ g.refinv.keys ↔ h ∈ f.refinv.keys ∧ ∃ v, InSet f.vs v h ∧ v ∈ ns
  callinv : ∀ h v, InSet g.callinv h v ↔ InSet f.callinv h v ∧ v ∈ ns ∧ ∃ v, InSet f.fs v h ∧ v ∈ ns
  callinvKey : ∀ h, h ∈ g.callinv.keys ↔ h ∈ f.callinv.keys ∧ ∃ v, InSet f.fs v h ∧ v ∈ ns
  creator : ∀ h c, g.creator.get? h = some c ↔ f.creator.get? h = some c ∧ (∃ v, InSet f.vs v h ∧ v ∈ ns) ∧ ∃ n, InSet f.fs n c ∧ n ∈ ns
  consumers : ∀ h c, InSet g.consumers h c ↔ InSet f.consumers h c ∧ (∃ v, InSet f.vs v h ∧ v ∈ ns) ∧ ∃ n, InSet f.fs n c ∧ n ∈ ns
  consumersKey : ∀ h, h ∈ g.consumers.keys ↔ h ∈ f.consumers.keys ∧ ∃ v, InSet f.vs v h ∧ v ∈ ns

theorem selectNodes_ok {ns : List String} {g : CFrame} (h : f.selectNodes ns = .ok g) :
    (∀ n ∈ ns, n ∈ f.nodes) ∧ Selects f g ns := by
  unfold selectNodes at h
  split at h
  · rename_i hns
    simp only [List.all_eq_true, decide_eq_true_eq] at hns
    refine ⟨hns, ?_⟩
    simp only [Except.ok.injEq] at h
    subst h
    have hes : ∀ e ∈ f.edges.filter (fun e => decide (e.1 ∈ PySet.ofList ns ∧ e.2.1 ∈ PySet.ofList ns)), e.1 ∈ PySet.ofList ns ∧ e.2.1 ∈ PySet.ofList ns := by
      intro e he
      simpa using (List.mem_filter.1 he).2
    have hadj := C55_adjacency_from_edges (f.edges.filter (fun e => decide (e.1 ∈ PySet.ofList ns ∧ e.2.1 ∈ PySet.ofList ns))) (some (PySet.ofList ns))
    have hkey := fun k => keys_adjFromEdges hes k
    have hrh : ∀ {d : SetDict} {h : String}, h ∈ valsUnion (restrict d (PySet.ofList ns)) ↔ ∃ v, InSet d v h ∧ v ∈ ns := by
      intro d h
      simp only [mem_valsUnion, inSet_restrict, PySet.mem_ofList]
    constructor
    · intro s l d
      rw [hadj.1, List.mem_filter, mem_edges]
      simp [HasEdge]
    · intro s l d
      rw [hadj.2.1, List.mem_filter, mem_edges]
      simp [HasEdge]
    · exact fun n => (hkey n).1.trans PySet.mem_ofList
    · exact fun n => (hkey n).2.trans PySet.mem_ofList
    · intro v h; rw [inSet_restrict, PySet.mem_ofList]
    · intro v; rw [mem_keys_restrict, PySet.mem_ofList]
    · intro v h; rw [inSet_restrict, PySet.mem_ofList]
    · intro v; rw [mem_keys_restrict, PySet.mem_ofList]
    · intro h r
      rw [get?_restrict]
      split
      · rename_i hv
        exact ⟨fun h => ⟨h, hrh.1 hv⟩, fun h => h.1⟩
      · rename_i hv
        exact ⟨nofun, fun h => absurd (hrh.2 h.2) hv⟩
    · intro h r
      rw [get?_restrict]
      split
      · rename_i hv
        exact ⟨fun h => ⟨h, hrh.1 hv⟩, fun h => h.1⟩
      · rename_i hv
        exact ⟨nofun, fun h => absurd (hrh.2 h.2) hv⟩
    · intro h v
      simp only [inSet_mapVals_inter, inSet_restrict, mem_valsUnion, PySet.mem_ofList]
      rw [and_assoc, and_comm (a := ∃ _, _)]
    · intro h
      simp only [mem_keys_mapVals, mem_keys_restrict, mem_valsUnion, inSet_restrict, PySet.mem_ofList]
    · intro h v
      simp only [inSet_mapVals_inter, inSet_restrict, mem_valsUnion, PySet.mem_ofList]
      rw [and_assoc, and_comm (a := ∃ _, _)]
    · intro h
      simp only [mem_keys_mapVals, mem_keys_restrict, mem_valsUnion, inSet_restrict, PySet.mem_ofList]
    · intro h c
      rw [get?_filterMapKeys]
      split
      · simp [Option.filter_eq_some_iff, hrh]
      · rename_i hk
        simp [Dict.get?_eq_none.2 hk]
    · intro h c
      simp only [inSet_mapVals_inter, inSet_restrict, mem_valsUnion, PySet.mem_ofList, and_assoc]
    · intro h
      simp only [mem_keys_mapVals, mem_keys_restrict, mem_valsUnion, inSet_restrict, PySet.mem_ofList]
  · cases h

theorem selectNodes_total {ns : List String} (h : ∀ n ∈ ns, n ∈ f.nodes) : ∃ g, f.selectNodes ns = .ok g := by
  unfold selectNodes
  rw [if_pos (by simpa using h)]
  exact ⟨_, rfl⟩

/-- Selecting nodes of a consistent frame whose edges are recorded at both ends gives such a frame. -/
theorem selectNodes_consistent {ns : List String} {g : CFrame} (S : Selects f g ns) (H : f.Consistent)
    (hsym : ∀ s d l, InAdj f.out s l d ↔ InAdj f.inp d l s) : g.Consistent := by
  have hrk : ∀ h, h ∈ g.refs.keys ↔ ∃ v, InSet f.vs v h ∧ v ∈ ns := by
    intro h
    rw [Dict.mem_keys]
    simp only [S.refs]
    constructor
    · rintro ⟨r, _, hv⟩; exact hv
    · rintro ⟨v, hv, hn⟩
      obtain ⟨r, hr⟩ := Dict.mem_keys.1 ((H.refs h).2 ⟨v, hv⟩)
      exact ⟨r, hr, v, hv, hn⟩
  have hck : ∀ h, h ∈ g.calls.keys ↔ ∃ v, InSet f.fs v h ∧ v ∈ ns := by
    intro h
    rw [Dict.mem_keys]
    simp only [S.calls]
    constructor
    · rintro ⟨r, _, hv⟩; exact hv
    · rintro ⟨v, hv, hn⟩
      obtain ⟨r, hr⟩ := Dict.mem_keys.1 ((H.calls h).2 ⟨v, hv⟩)
      exact ⟨r, hr, v, hv, hn⟩
  constructor
  · intro h; simp only [hrk, HasRef, S.vs]
  · intro h; simp only [hck, HasCall, S.fs]
  · intro h v hv
    rw [S.refinv] at hv
    exact (S.vsKey v).2 ⟨H.refinv h v hv.1, hv.2.1⟩
  · intro h v hv
    rw [S.callinv] at hv
    exact (S.fsKey v).2 ⟨H.callinv h v hv.1, hv.2.1⟩
  · intro h c hc
    rw [S.creator] at hc
    exact ⟨(hrk h).2 hc.2.1, (hck c).2 hc.2.2⟩
  · intro h hk
    rw [S.consumersKey] at hk
    exact (hrk h).2 hk.2
  · intro h c hc
    rw [S.consumers] at hc
    exact (hck c).2 hc.2.2
  · intro s d l he
    rw [HasEdge, S.out] at he
    obtain ⟨h1, h2⟩ := H.edges s d l he.1
    refine ⟨?_, ?_⟩
    · rcases h1 with h1 | h1
      · exact .inl ((S.vsKey s).2 ⟨h1, he.2.1⟩)
      · exact .inr ((S.fsKey s).2 ⟨h1, he.2.1⟩)
    · rcases h2 with h1 | h1
      · exact .inl ((S.vsKey d).2 ⟨h1, he.2.2⟩)
      · exact .inr ((S.fsKey d).2 ⟨h1, he.2.2⟩)
  · intro n h hn
    rw [HasCall, S.fs] at hn
    obtain ⟨c, i, o, hc, hi, ho, h1, h2⟩ := H.io n h hn.1
    obtain ⟨i', hi'⟩ := Dict.mem_keys.1 ((S.inpKey n).2 hn.2)
    obtain ⟨o', ho'⟩ := Dict.mem_keys.1 ((S.outKey n).2 hn.2)
    refine ⟨c, i', o', (S.calls h c).2 ⟨hc, n, hn⟩, hi', ho', ?_, ?_⟩
    · intro p hp v hv
      rw [← inAdj_of_get hi', S.inp, hsym, inAdj_of_get hi] at hv
      obtain ⟨k1, k2⟩ := h1 p hp v hv.1
      exact ⟨(S.vs _ _).2 ⟨k1, hv.2.1⟩, (S.refinv _ _).2 ⟨k2, hv.2.1, v, k1, hv.2.1⟩⟩
    · intro p hp v hv
      rw [← inAdj_of_get ho', S.out, inAdj_of_get ho] at hv
      obtain ⟨k1, k2⟩ := h2 p hp v hv.1
      exact ⟨(S.vs _ _).2 ⟨k1, hv.2.2⟩, (S.refinv _ _).2 ⟨k2, hv.2.2, v, k1, hv.2.2⟩⟩
  · intro h r hr
    exact H.refHid h r ((S.refs h r).1 hr).1
  · intro h r hr
    exact H.callHid h r ((S.calls h r).1 hr).1

/-- Selecting nodes of a well-formed frame gives a well-formed frame. -/
theorem wf_selectNodes {ns : List String} {g : CFrame} (hns : ∀ n ∈ ns, n ∈ f.nodes) (S : Selects f g ns) (H : Wf R f) : Wf R g := by
  have C := selectNodes_consistent S H.consistent H.graph.sym
  have hinp : ∀ {n l v}, InAdj g.inp n l v → InAdj f.inp n l v := by
    intro n l v h
    rw [S.inp, H.graph.sym] at h
    exact h.1
  constructor
  · have G := H.graph
    constructor
    · intro n h1 h2
      exact G.disj n ((S.vsKey n).1 h1).1 ((S.fsKey n).1 h2).1
    · intro n
      rw [S.inpKey, IsVar, IsFunc, S.vsKey, S.fsKey]
      constructor
      · intro h
        rcases mem_nodes.1 (hns n h) with h' | h'
        · exact .inl ⟨h', h⟩
        · exact .inr ⟨h', h⟩
      · rintro (h | h) <;> exact h.2
    · intro n
      rw [S.outKey, IsVar, IsFunc, S.vsKey, S.fsKey]
      constructor
      · intro h
        rcases mem_nodes.1 (hns n h) with h' | h'
        · exact .inl ⟨h', h⟩
        · exact .inr ⟨h', h⟩
      · rintro (h | h) <;> exact h.2
    · intro s d l
      rw [S.out, S.inp]
    · intro s d l h
      rw [S.out] at h
      rcases G.bip s d l h.1 with h' | h'
      · exact .inl ⟨(S.vsKey s).2 ⟨h'.1, h.2.1⟩, (S.fsKey d).2 ⟨h'.2, h.2.2⟩⟩
      · exact .inr ⟨(S.fsKey s).2 ⟨h'.1, h.2.1⟩, (S.vsKey d).2 ⟨h'.2, h.2.2⟩⟩
  · refine ⟨?_, ?_, C.refs, C.refHid⟩
    · intro h v
      rw [S.refinv, HasRef, S.vs, H.ref.refinv]
      constructor
      · rintro ⟨h1, h2, _⟩; exact ⟨h1, h2⟩
      · rintro ⟨h1, h2⟩; exact ⟨h1, h2, v, h1, h2⟩
    · intro h
      simp only [S.refinvKey, HasRef, S.vs, H.ref.refinvKey]
      constructor
      · exact fun h => h.2
      · rintro ⟨v, hv⟩; exact ⟨⟨v, hv.1⟩, v, hv⟩
  · refine ⟨?_, ?_, C.calls, fun h c hc => H.call.callOk h c ((S.calls h c).1 hc).1⟩
    · intro h v
      rw [S.callinv, HasCall, S.fs, H.call.callinv]
      constructor
      · rintro ⟨h1, h2, _⟩; exact ⟨h1, h2⟩
      · rintro ⟨h1, h2⟩; exact ⟨h1, h2, v, h1, h2⟩
    · intro h
      simp only [S.callinvKey, HasCall, S.fs, H.call.callinvKey]
      constructor
      · exact fun h => h.2
      · rintro ⟨v, hv⟩; exact ⟨⟨v, hv.1⟩, v, hv⟩
  · rintro n c p v hp ⟨h1, h2, h3⟩
    rw [HasCall, S.fs] at h1
    rw [S.calls] at h2
    have hv := ((S.inp _ _ _).1 h3).2.1
    have := H.ins n c p v hp ⟨h1.1, h2.1, hinp h3⟩
    exact ⟨(S.vs _ _).2 ⟨this.1, hv⟩, (S.consumers _ _).2 ⟨this.2, ⟨v, this.1, hv⟩, n, h1⟩⟩
  · rintro n c p v hp ⟨h1, h2, h3⟩
    rw [HasCall, S.fs] at h1
    rw [S.calls] at h2
    rw [S.out] at h3
    have := H.outs n c p v hp ⟨h1.1, h2.1, h3.1⟩
    exact ⟨(S.vs _ _).2 ⟨this.1, h3.2.2⟩, (S.creator _ _).2 ⟨this.2, ⟨v, this.1, h3.2.2⟩, n, h1⟩⟩
  · intro h c hc
    rw [S.creator] at hc
    obtain ⟨v, hv⟩ := hc.2.1
    obtain ⟨_, call, h1, h2⟩ := H.creator h c hc.1
    exact ⟨⟨v, (S.vs _ _).2 hv⟩, call, (S.calls _ _).2 ⟨h1, hc.2.2⟩, h2⟩
  · intro h hk
    rw [S.consumersKey] at hk
    obtain ⟨v, hv⟩ := hk.2
    exact ⟨v, (S.vs _ _).2 hv⟩
  · intro h c hc
    rw [S.consumers] at hc
    obtain ⟨call, h1, h2⟩ := H.consumers h c hc.1
    exact ⟨call, (S.calls _ _).2 ⟨h1, hc.2.2⟩, h2⟩

end CFrame
end Verif
