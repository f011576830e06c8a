import Verif.Proofs.CFrameSelect
/-!
Restricting a frame to some of the elements of its nodes (`select_subsets`).
-/
namespace Verif

open Props

theorem pick_ok {V : Type} {d : Dict String V} {ks : List String} : ∀ {e : Dict String V}, CFrame.pick d ks = .ok e →
    (∀ k, e.get? k = if k ∈ ks then d.get? k else none) ∧ ∀ k ∈ ks, k ∈ d.keys := by
  induction ks with
  | nil => intro e h; unfold CFrame.pick at h; cases h; simp
  | cons a ks ih =>
    intro e h
    unfold CFrame.pick at h
    rw [List.mapM_cons] at h
    simp only [exBind_ok, getE_ok] at h
    obtain ⟨p, ⟨v, hv, hp⟩, e', he', h⟩ := h
    cases hp
    cases h
    obtain ⟨i1, i2⟩ := ih he'
    refine ⟨?_, ?_⟩
    · intro k
      rw [Dict.get?_cons, i1]
      by_cases hk : a = k
      · subst hk; simp [hv]
      · simp [hk, Ne.symm hk]
    · intro k hk
      rcases List.mem_cons.1 hk with rfl | hk
      · exact Dict.mem_keys.2 ⟨v, hv⟩
      · exact i2 k hk

theorem pick_total {V : Type} {d : Dict String V} {ks : List String} (h : ∀ k ∈ ks, k ∈ d.keys) : ∃ e, CFrame.pick d ks = .ok e := by
  induction ks with
  | nil => exact ⟨[], rfl⟩
  | cons a ks ih =>
    obtain ⟨e, he⟩ := ih fun k hk => h k (.tail _ hk)
    obtain ⟨v, hv⟩ := Dict.mem_keys.1 (h a (.head _))
    refine ⟨(a, v) :: e, ?_⟩
    unfold CFrame.pick at he ⊢
    rw [List.mapM_cons, exBind_ok]
    refine ⟨(a, v), ?_, ?_⟩
    · rw [exBind_ok]; exact ⟨v, getE_ok.2 hv, rfl⟩
    · rw [exBind_ok]; exact ⟨e, he, rfl⟩

theorem inSet_pick {d e : SetDict} {ks : List String} (h : CFrame.pick d ks = .ok e) {k x : String} :
    InSet e k x ↔ InSet d k x ∧ k ∈ ks := by
  unfold InSet
  rw [(pick_ok h).1]
  split <;> simp_all

theorem mem_keys_pick {V : Type} {d e : Dict String V} {ks : List String} (h : CFrame.pick d ks = .ok e) {k : String} :
    k ∈ e.keys ↔ k ∈ ks := by
  obtain ⟨h1, h2⟩ := pick_ok h
  rw [Dict.mem_keys, h1]
  split
  · rename_i hk
    simp only [hk, iff_true]
    exact Dict.mem_keys.1 (h2 k hk)
  · rename_i hk
    simp [hk]

namespace CFrame

variable {R : FCall → Prop} {f : CFrame}

/-- The value `h` is kept. -/
def KeepsRef (f : CFrame) (elts : SetDict) (h : String) : Prop := ∃ v, f.IsVar v ∧ InSet elts v h

/-- The call `h` is kept. -/
def KeepsCall (f : CFrame) (elts : SetDict) (h : String) : Prop := ∃ n, f.IsFunc n ∧ InSet elts n h

/-- What `select_subsets` returns, as relations. -/
structure Subsets (f g : CFrame) (elts : SetDict) : Prop where
  out : g.out = f.out
  inp : g.inp = f.inp
  vs : ∀ v h, InSet g.vs v h ↔ f.IsVar v ∧ InSet elts v h
  vsKey : ∀ v, v ∈ g.vs.keys ↔ f.IsVar v
  fs : ∀ v h, InSet g.fs v h ↔ f.IsFunc v ∧ InSet elts v h
  fsKey : ∀ v, v ∈ g.fs.keys ↔ f.IsFunc v
  refs : ∀ h r, g.refs.get? h = some r ↔ f.refs.get? h = some r ∧ f.KeepsRef elts h
  calls : ∀ h r, g.calls.get? h = some r ↔ f.calls.get? h = some r ∧ f.KeepsCall elts h
  refsKey : ∀ h, h ∈ g.refs.keys ↔ f.KeepsRef elts h
  callsKey : ∀ h, h ∈ g.calls.keys ↔ f.KeepsCall elts h
  refinv : ∀ h v, InSet g.refinv h v ↔ InSet f.refinv h v ∧ f.KeepsRef elts h
  refinvKey : ∀ h, h ∈ g.refinv.keys ↔ f.KeepsRef elts h
  callinv : ∀ h v, InSet g.callinv h v ↔ InSet f.callinv h v ∧ f.KeepsCall elts h
  callinvKey : ∀ h, h ∈ g.callinv.keys ↔ f.KeepsCall elts h
  creator : ∀ h c, g.creator.get? h = some c ↔ f.creator.get? h = some c ∧ f.KeepsRef elts h ∧ f.KeepsCall elts c
  consumers : ∀ h c, InSet g.consumers h c ↔ InSet f.consumers h c ∧ f.KeepsRef elts h ∧ f.KeepsCall elts c
  consumersKey : ∀ h, h ∈ g.consumers.keys ↔ h ∈ f.consumers.keys ∧ f.KeepsRef elts h

/-- The elements are elements of the nodes of the frame, for all of its nodes. -/
def Within (f : CFrame) (elts : SetDict) : Prop :=
  (∀ n, n ∈ elts.keys ↔ n ∈ f.nodes) ∧ ∀ n h, InSet elts n h → ∃ s, f.setOf n = some s ∧ h ∈ s

theorem within_iff {elts : SetDict} : Within f elts ↔
    setEqB elts.keys f.nodes = true ∧ (elts.keys.all fun n => PySet.subset (getOr elts n) ((f.setOf n).getD [])) = true := by
  unfold Within
  rw [setEqB_iff]
  refine and_congr_right fun _ => ?_
  simp only [List.all_eq_true, PySet.subset_iff, mem_getOr]
  constructor
  · intro h n _ x hx
    obtain ⟨s, hs, hx⟩ := h n x hx
    rw [hs]; exact hx
  · intro h n x hx
    have := h n hx.key x hx
    cases hs : f.setOf n with
    | none => rw [hs] at this; cases this
    | some s => rw [hs] at this; exact ⟨s, rfl, this⟩

theorem selectSubsets_ok {elts : SetDict} {g : CFrame} (h : f.selectSubsets elts = .ok g) :
    Within f elts ∧ Subsets f g elts := by
  unfold selectSubsets at h
  split at h
  · cases h
  · rename_i h1
    split at h
    · cases h
    · rename_i h2
      simp only [Bool.not_eq_true', Bool.not_eq_false] at h1 h2
      refine ⟨within_iff.2 ⟨h1, h2⟩, ?_⟩
      simp only [exBind_ok] at h
      obtain ⟨vs, hvs, fs, hfs, refs, hrefs, calls, hcalls, refinv, hrefinv, callinv, hcallinv, h⟩ := h
      cases h
      have hrh : ∀ h, h ∈ valsUnion vs ↔ f.KeepsRef elts h := by
        intro h
        simp only [mem_valsUnion, inSet_pick hvs, PySet.mem_ofList, KeepsRef, And.comm]
      have hch : ∀ h, h ∈ valsUnion fs ↔ f.KeepsCall elts h := by
        intro h
        simp only [mem_valsUnion, inSet_pick hfs, PySet.mem_ofList, KeepsCall, And.comm]
      constructor
      · rfl
      · rfl
      · intro v h; rw [inSet_pick hvs, PySet.mem_ofList]; exact And.comm
      · intro v; rw [mem_keys_pick hvs, PySet.mem_ofList]
      · intro v h; rw [inSet_pick hfs, PySet.mem_ofList]; exact And.comm
      · intro v; rw [mem_keys_pick hfs, PySet.mem_ofList]
      · intro h r
        rw [(pick_ok hrefs).1, ← hrh]
        split <;> simp_all
      · intro h r
        rw [(pick_ok hcalls).1, ← hch]
        split <;> simp_all
      · intro h; rw [mem_keys_pick hrefs, hrh]
      · intro h; rw [mem_keys_pick hcalls, hch]
      · intro h v; rw [inSet_pick hrefinv, hrh]
      · intro h; rw [mem_keys_pick hrefinv, hrh]
      · intro h v; rw [inSet_pick hcallinv, hch]
      · intro h; rw [mem_keys_pick hcallinv, hch]
      · intro h c
        rw [get?_filterMapKeys, ← hrh]
        split
        · rename_i hk
          simp [Option.filter_eq_some_iff, hch, hk]
        · rename_i hk
          simp [hk]
      · intro h c
        unfold InSet
        rw [get?_filterMapKeys, ← hrh]
        split
        · rename_i hk
          cases f.consumers.get? h <;> simp [hch, hk]
        · rename_i hk
          simp [hk]
      · intro h
        rw [Dict.mem_keys, Dict.mem_keys, get?_filterMapKeys, ← hrh]
        split
        · rename_i hk
          cases f.consumers.get? h <;> simp [hk]
        · rename_i hk
          simp [hk]

theorem setOf_var (H : GraphWf f) {v : String} (hv : f.IsVar v) {h : String} : (∃ s, f.setOf v = some s ∧ h ∈ s) ↔ f.HasRef v h := by
  unfold setOf
  rw [Dict.get?_eq_none.2 (H.disj v hv)]
  rfl

theorem setOf_func {v : String} (hv : f.IsFunc v) {h : String} : (∃ s, f.setOf v = some s ∧ h ∈ s) ↔ f.HasCall v h := by
  unfold setOf
  obtain ⟨s, hs⟩ := Dict.mem_keys.1 hv
  rw [hs]
  unfold HasCall InSet
  rw [hs]
  rfl

theorem selectSubsets_total (H : Wf R f) {elts : SetDict} (h : Within f elts) : ∃ g, f.selectSubsets elts = .ok g := by
  obtain ⟨w1, w2⟩ := within_iff.1 h
  unfold selectSubsets
  rw [if_neg (by simp [w1]), if_neg (by rw [w2]; simp)]
  obtain ⟨vs, hvs⟩ := pick_total (d := elts) (ks := PySet.ofList f.vs.keys) fun k hk =>
    (h.1 k).2 (mem_nodes.2 (.inl (PySet.mem_ofList.1 hk)))
  obtain ⟨fs, hfs⟩ := pick_total (d := elts) (ks := PySet.ofList f.fs.keys) fun k hk =>
    (h.1 k).2 (mem_nodes.2 (.inr (PySet.mem_ofList.1 hk)))
  have hr : ∀ x ∈ valsUnion vs, ∃ v, f.HasRef v x := by
    intro x hx
    obtain ⟨v, hv⟩ := mem_valsUnion.1 hx
    rw [inSet_pick hvs, PySet.mem_ofList] at hv
    exact ⟨v, (setOf_var H.graph hv.2).1 (h.2 _ _ hv.1)⟩
  have hc : ∀ x ∈ valsUnion fs, ∃ v, f.HasCall v x := by
    intro x hx
    obtain ⟨v, hv⟩ := mem_valsUnion.1 hx
    rw [inSet_pick hfs, PySet.mem_ofList] at hv
    exact ⟨v, (setOf_func hv.2).1 (h.2 _ _ hv.1)⟩
  obtain ⟨refs, hrefs⟩ := pick_total (d := f.refs) fun k hk => (H.ref.refs k).2 (hr k hk)
  obtain ⟨calls, hcalls⟩ := pick_total (d := f.calls) fun k hk => (H.call.calls k).2 (hc k hk)
  obtain ⟨refinv, hrefinv⟩ := pick_total (d := f.refinv) fun k hk => (H.ref.refinvKey k).2 (hr k hk)
  obtain ⟨callinv, hcallinv⟩ := pick_total (d := f.callinv) fun k hk => (H.call.callinvKey k).2 (hc k hk)
  simp only [hvs, hfs, bind, Except.bind, hrefs, hcalls, hrefinv, hcallinv]
  exact ⟨_, rfl⟩

/-- The calls that are kept have their tracked inputs and outputs kept in the variables that track them. -/
def Closed (f : CFrame) (elts : SetDict) : Prop :=
  ∀ n c p v, InSet elts n c.hid →
    (p ∈ c.inputs ∧ Tracks f.inp f n c p v ∨ p ∈ c.outputs ∧ Tracks f.out f n c p v) → InSet elts v p.2.hid

theorem subsets_consistent (H : Wf R f) {elts : SetDict} {g : CFrame} (W : Within f elts) (S : Subsets f g elts) :
    g.Consistent ↔ Closed f elts := by
  constructor
  · rintro C n c p v hn (⟨hp, t1, t2, t3⟩ | ⟨hp, t1, t2, t3⟩)
    · obtain ⟨c', i, o, hc, hi, ho, h1, h2⟩ := C.io n c.hid ((S.fs _ _).2 ⟨t1.key, hn⟩)
      have : f.calls.get? c.hid = some c' := ((S.calls _ _).1 hc).1
      rw [t2] at this
      cases this
      rw [S.inp] at hi
      exact ((S.vs _ _).1 (h1 p hp v ((inAdj_of_get hi).1 t3)).1).2
    · obtain ⟨c', i, o, hc, hi, ho, h1, h2⟩ := C.io n c.hid ((S.fs _ _).2 ⟨t1.key, hn⟩)
      have : f.calls.get? c.hid = some c' := ((S.calls _ _).1 hc).1
      rw [t2] at this
      cases this
      rw [S.out] at ho
      exact ((S.vs _ _).1 (h2 p hp v ((inAdj_of_get ho).1 t3)).1).2
  · intro C
    constructor
    · intro h; simp only [S.refsKey, HasRef, S.vs, KeepsRef]
    · intro h; simp only [S.callsKey, HasCall, S.fs, KeepsCall]
    · intro h v hv
      rw [S.refinv, H.ref.refinv] at hv
      exact (S.vsKey v).2 hv.1.key
    · intro h v hv
      rw [S.callinv, H.call.callinv] at hv
      exact (S.fsKey v).2 hv.1.key
    · intro h c hc
      rw [S.creator] at hc
      exact ⟨(S.refsKey h).2 hc.2.1, (S.callsKey c).2 hc.2.2⟩
    · intro h hk
      rw [S.consumersKey] at hk
      exact (S.refsKey h).2 hk.2
    · intro h c hc
      rw [S.consumers] at hc
      exact (S.callsKey c).2 hc.2.2
    · intro s d l he
      rw [HasEdge, S.out] at he
      simp only [IsVar, IsFunc, S.vsKey, S.fsKey]
      exact H.consistent.edges s d l he
    · intro n h hn
      rw [HasCall, S.fs] at hn
      have hf : f.HasCall n h := (setOf_func hn.1).1 (W.2 _ _ hn.2)
      obtain ⟨c, hc, hch, _⟩ := H.get_call hf
      subst hch
      obtain ⟨i, hi⟩ := Dict.mem_keys.1 ((H.graph.inpKey n).2 (.inr hn.1))
      obtain ⟨o, ho⟩ := Dict.mem_keys.1 ((H.graph.outKey n).2 (.inr hn.1))
      refine ⟨c, i, o, (S.calls _ _).2 ⟨hc, n, hn⟩, by rw [S.inp]; exact hi, by rw [S.out]; exact ho, ?_, ?_⟩
      · intro p hp v hv
        have t : Tracks f.inp f n c p v := ⟨hf, hc, (inAdj_of_get hi).2 hv⟩
        have h1 := H.ins n c p v hp t
        have h2 := C n c p v hn.2 (.inl ⟨hp, t⟩)
        exact ⟨(S.vs _ _).2 ⟨h1.1.key, h2⟩, (S.refinv _ _).2 ⟨(H.ref.refinv _ _).2 h1.1, v, h1.1.key, h2⟩⟩
      · intro p hp v hv
        have t : Tracks f.out f n c p v := ⟨hf, hc, (inAdj_of_get ho).2 hv⟩
        have h1 := H.outs n c p v hp t
        have h2 := C n c p v hn.2 (.inr ⟨hp, t⟩)
        exact ⟨(S.vs _ _).2 ⟨h1.1.key, h2⟩, (S.refinv _ _).2 ⟨(H.ref.refinv _ _).2 h1.1, v, h1.1.key, h2⟩⟩
    · intro h r hr
      exact H.ref.refHid h r ((S.refs h r).1 hr).1
    · intro h r hr
      exact (H.call.callOk h r ((S.calls h r).1 hr).1).1

/-- A value (call) that is kept is kept in all variables (functions) it belongs to. -/
def Uniform (f : CFrame) (elts : SetDict) : Prop :=
  (∀ v h, f.KeepsRef elts h → f.HasRef v h → InSet elts v h) ∧ ∀ n h, f.KeepsCall elts h → f.HasCall n h → InSet elts n h

theorem wf_subsets (H : Wf R f) {elts : SetDict} {g : CFrame} (W : Within f elts) (S : Subsets f g elts) (C : Closed f elts)
    (U : Uniform f elts) : Wf R g := by
  have Co := (subsets_consistent H W S).2 C
  have hv : ∀ {v h}, f.IsVar v → InSet elts v h → f.HasRef v h := fun hv h => (setOf_var H.graph hv).1 (W.2 _ _ h)
  have hf : ∀ {v h}, f.IsFunc v → InSet elts v h → f.HasCall v h := fun hv h => (setOf_func hv).1 (W.2 _ _ h)
  constructor
  · have G := H.graph
    constructor <;> simp only [IsVar, IsFunc, S.vsKey, S.fsKey, S.inp, S.out]
    · exact G.disj
    · exact G.inpKey
    · exact G.outKey
    · exact G.sym
    · exact G.bip
  · refine ⟨?_, ?_, Co.refs, Co.refHid⟩
    · intro h v
      rw [S.refinv, HasRef, S.vs, H.ref.refinv]
      constructor
      · rintro ⟨h1, h2⟩; exact ⟨h1.key, U.1 v h h2 h1⟩
      · rintro ⟨h1, h2⟩; exact ⟨hv h1 h2, v, h1, h2⟩
    · intro h; simp only [S.refinvKey, HasRef, S.vs, KeepsRef]
  · refine ⟨?_, ?_, Co.calls, fun h c hc => H.call.callOk h c ((S.calls h c).1 hc).1⟩
    · intro h v
      rw [S.callinv, HasCall, S.fs, H.call.callinv]
      constructor
      · rintro ⟨h1, h2⟩; exact ⟨h1.key, U.2 v h h2 h1⟩
      · rintro ⟨h1, h2⟩; exact ⟨hf h1 h2, v, h1, h2⟩
    · intro h; simp only [S.callinvKey, HasCall, S.fs, KeepsCall]
  · rintro n c p v hp ⟨h1, h2, h3⟩
    rw [HasCall, S.fs] at h1
    rw [S.calls] at h2
    rw [S.inp] at h3
    have t : Tracks f.inp f n c p v := ⟨hf h1.1 h1.2, h2.1, h3⟩
    have k := H.ins n c p v hp t
    have k2 := C n c p v h1.2 (.inl ⟨hp, t⟩)
    exact ⟨(S.vs _ _).2 ⟨k.1.key, k2⟩, (S.consumers _ _).2 ⟨k.2, ⟨v, k.1.key, k2⟩, n, h1⟩⟩
  · rintro n c p v hp ⟨h1, h2, h3⟩
    rw [HasCall, S.fs] at h1
    rw [S.calls] at h2
    rw [S.out] at h3
    have t : Tracks f.out f n c p v := ⟨hf h1.1 h1.2, h2.1, h3⟩
    have k := H.outs n c p v hp t
    have k2 := C n c p v h1.2 (.inr ⟨hp, t⟩)
    exact ⟨(S.vs _ _).2 ⟨k.1.key, k2⟩, (S.creator _ _).2 ⟨k.2, ⟨v, k.1.key, k2⟩, n, h1⟩⟩
  · intro h c hc
    rw [S.creator] at hc
    obtain ⟨v, hv⟩ := hc.2.1
    obtain ⟨_, call, h1, h2⟩ := H.creator h c hc.1
    exact ⟨⟨v, (S.vs _ _).2 hv⟩, call, (S.calls _ _).2 ⟨h1, hc.2.2⟩, h2⟩
  · intro h hk
    rw [S.consumersKey] at hk
    obtain ⟨v, hv⟩ := hk.2
    exact ⟨v, (S.vs _ _).2 hv⟩
  · intro h c hc
    rw [S.consumers] at hc
    obtain ⟨call, h1, h2⟩ := H.consumers h c hc.1
    exact ⟨call, (S.calls _ _).2 ⟨h1, hc.2.2⟩, h2⟩

end CFrame
end Verif
