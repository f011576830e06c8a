import Verif.Proofs.CFrame
/-!
C42: union and intersection of computation frames.

Specification: two frames are the `Same` when their dictionaries stand for the same relations (python compares sets and
dictionaries without regard to order).
-/
namespace Verif

open Props

/-- The same keys and the same elements under each. -/
def SameSet (d e : SetDict) : Prop := (∀ k, k ∈ d.keys ↔ k ∈ e.keys) ∧ ∀ k x, InSet d k x ↔ InSet e k x

/-- The same keys and the same neighbours by each label. -/
def SameAdj (d e : Adj) : Prop := (∀ k, k ∈ d.keys ↔ k ∈ e.keys) ∧ ∀ k l x, InAdj d k l x ↔ InAdj e k l x

/-- The same entries. -/
def SameDict {V : Type} (d e : Dict String V) : Prop := ∀ k, d.get? k = e.get? k

theorem SameSet.symm {d e : SetDict} (h : SameSet d e) : SameSet e d := ⟨fun k => (h.1 k).symm, fun k x => (h.2 k x).symm⟩
theorem SameAdj.symm {d e : Adj} (h : SameAdj d e) : SameAdj e d := ⟨fun k => (h.1 k).symm, fun k l x => (h.2 k l x).symm⟩
theorem SameDict.symm {V : Type} {d e : Dict String V} (h : SameDict d e) : SameDict e d := fun k => (h k).symm

theorem SameDict.keys {V : Type} {d e : Dict String V} (h : SameDict d e) (k : String) : k ∈ d.keys ↔ k ∈ e.keys := by
  rw [Dict.mem_keys, Dict.mem_keys, h k]

namespace CFrame

structure Same (f g : CFrame) : Prop where
  vs : SameSet f.vs g.vs
  fs : SameSet f.fs g.fs
  inp : SameAdj f.inp g.inp
  out : SameAdj f.out g.out
  refinv : SameSet f.refinv g.refinv
  callinv : SameSet f.callinv g.callinv
  creator : SameDict f.creator g.creator
  consumers : SameSet f.consumers g.consumers
  refs : SameDict f.refs g.refs
  calls : SameDict f.calls g.calls

theorem Same.symm {f g : CFrame} (h : Same f g) : Same g f :=
  ⟨h.vs.symm, h.fs.symm, h.inp.symm, h.out.symm, h.refinv.symm, h.callinv.symm, h.creator.symm, h.consumers.symm, h.refs.symm,
    h.calls.symm⟩

theorem Same.consistent {f g : CFrame} (h : Same f g) (H : f.Consistent) : g.Consistent := by
  have S := h.symm
  have kr := S.refs.keys
  have kc := S.calls.keys
  constructor
  · intro x; simp only [kr, HasRef, S.vs.2]; exact H.refs x
  · intro x; simp only [kc, HasCall, S.fs.2]; exact H.calls x
  · intro x v hv
    rw [S.refinv.2] at hv
    exact (h.vs.1 v).1 (H.refinv x v hv)
  · intro x v hv
    rw [S.callinv.2] at hv
    exact (h.fs.1 v).1 (H.callinv x v hv)
  · intro x c hc
    rw [S.creator] at hc
    rw [kr, kc]
    exact H.creator x c hc
  · intro x hx
    rw [S.consumers.1] at hx
    rw [kr]
    exact H.consumersKey x hx
  · intro x c hc
    rw [S.consumers.2] at hc
    rw [kc]
    exact H.consumers x c hc
  · intro s d l he
    rw [HasEdge, S.out.2] at he
    simp only [IsVar, IsFunc, S.vs.1, S.fs.1]
    exact H.edges s d l he
  · intro n x hn
    rw [HasCall, S.fs.2] at hn
    obtain ⟨c, i, o, hc, hi, ho, h1, h2⟩ := H.io n x hn
    obtain ⟨i', hi'⟩ := Dict.mem_keys.1 ((h.inp.1 n).1 (Dict.mem_keys.2 ⟨i, hi⟩))
    obtain ⟨o', ho'⟩ := Dict.mem_keys.1 ((h.out.1 n).1 (Dict.mem_keys.2 ⟨o, ho⟩))
    refine ⟨c, i', o', by rw [S.calls]; exact hc, hi', ho', ?_, ?_⟩
    · intro p hp v hv
      rw [← inAdj_of_get hi', S.inp.2, inAdj_of_get hi] at hv
      rw [HasRef, S.vs.2, S.refinv.2]
      exact h1 p hp v hv
    · intro p hp v hv
      rw [← inAdj_of_get ho', S.out.2, inAdj_of_get ho] at hv
      rw [HasRef, S.vs.2, S.refinv.2]
      exact h2 p hp v hv
  · intro x r hr
    rw [S.refs] at hr
    exact H.refHid x r hr
  · intro x r hr
    rw [S.calls] at hr
    exact H.callHid x r hr

theorem Same.check {f g : CFrame} (h : Same f g) : f.check = g.check := by
  rw [Bool.eq_iff_iff, check_iff, check_iff]
  exact ⟨h.consistent, h.symm.consistent⟩

end CFrame

namespace Props

open CFrame

/-- Entries under common keys are the same. -/
def Compat {V : Type} (a b : Dict String V) : Prop := ∀ k v w, a.get? k = some v → b.get? k = some w → v = w

/-- Two frames over the same storage: an id stands for the same object in both. -/
structure SameStore (a b : CFrame) : Prop where
  refs : Compat a.refs b.refs
  calls : Compat a.calls b.calls
  creator : Compat a.creator b.creator

/-- Well-formed frames over the same recorded calls agree on calls and creators. -/
theorem sameStore_of_wf {R : FCall → Prop} (hR : RecOk R) {a b : CFrame} (ha : Wf R a) (hb : Wf R b) (h : Compat a.refs b.refs) :
    SameStore a b := by
  refine ⟨h, ?_, ?_⟩
  · intro k c c' h1 h2
    obtain ⟨e1, r1⟩ := ha.call.callOk k c h1
    obtain ⟨e2, r2⟩ := hb.call.callOk k c' h2
    exact hR.hid c c' r1 r2 (e1.trans e2.symm)
  · intro k x y h1 h2
    obtain ⟨_, c, hc, p, hp, e1⟩ := ha.creator k x h1
    obtain ⟨_, c', hc', p', hp', e2⟩ := hb.creator k y h2
    obtain ⟨i1, r1⟩ := ha.call.callOk x c hc
    obtain ⟨i2, r2⟩ := hb.call.callOk y c' hc'
    have := hR.creator c c' p p' r1 r2 hp hp' (e1.trans e2.symm)
    rw [← i1, ← i2, this]

theorem setUnion_comm (a b : SetDict) : SameSet (setdictUnion a b) (setdictUnion b a) := by
  have A := C55_setdict_union_intersection a b
  have B := C55_setdict_union_intersection b a
  exact ⟨fun k => by rw [A.2.1, B.2.1]; exact Or.comm, fun k x => by rw [A.1, B.1]; exact Or.comm⟩

theorem setUnion_assoc (a b c : SetDict) : SameSet (setdictUnion (setdictUnion a b) c) (setdictUnion a (setdictUnion b c)) := by
  refine ⟨fun k => ?_, fun k x => ?_⟩
  · simp only [(C55_setdict_union_intersection _ _).2.1, or_assoc]
  · simp only [inSet_union, or_assoc]

theorem setUnion_self (a : SetDict) : SameSet (setdictUnion a a) a := by
  refine ⟨fun k => ?_, fun k x => ?_⟩
  · simp only [(C55_setdict_union_intersection _ _).2.1, or_self]
  · simp only [inSet_union, or_self]

theorem setInter_comm (a b : SetDict) : SameSet (setdictInter a b) (setdictInter b a) := by
  have A := C55_setdict_union_intersection a b
  have B := C55_setdict_union_intersection b a
  exact ⟨fun k => by rw [A.2.2.2.2.1, B.2.2.2.2.1]; exact And.comm, fun k x => by rw [A.2.2.2.1, B.2.2.2.1]; exact And.comm⟩

theorem setInter_assoc (a b c : SetDict) : SameSet (setdictInter (setdictInter a b) c) (setdictInter a (setdictInter b c)) := by
  refine ⟨fun k => ?_, fun k x => ?_⟩
  · simp only [(C55_setdict_union_intersection _ _).2.2.2.2.1, and_assoc]
  · simp only [inSet_inter, and_assoc]

theorem setInter_self (a : SetDict) : SameSet (setdictInter a a) a := by
  refine ⟨fun k => ?_, fun k x => ?_⟩
  · simp only [(C55_setdict_union_intersection _ _).2.2.2.2.1, and_self]
  · simp only [inSet_inter, and_self]

theorem adjUnion_comm (a b : Adj) : SameAdj (adjUnion a b) (adjUnion b a) := by
  have A := C55_adjacency_union_intersection a b
  have B := C55_adjacency_union_intersection b a
  exact ⟨fun k => by rw [A.2.1, B.2.1]; exact Or.comm, fun k l x => by rw [A.1, B.1]; exact Or.comm⟩

theorem adjUnion_assoc (a b c : Adj) : SameAdj (adjUnion (adjUnion a b) c) (adjUnion a (adjUnion b c)) := by
  refine ⟨fun k => ?_, fun k l x => ?_⟩
  · simp only [(C55_adjacency_union_intersection _ _).2.1, or_assoc]
  · simp only [(C55_adjacency_union_intersection _ _).1, or_assoc]

theorem adjUnion_self (a : Adj) : SameAdj (adjUnion a a) a := by
  refine ⟨fun k => ?_, fun k l x => ?_⟩
  · simp only [(C55_adjacency_union_intersection _ _).2.1, or_self]
  · simp only [(C55_adjacency_union_intersection _ _).1, or_self]

theorem adjInter_comm (a b : Adj) : SameAdj (adjInter a b) (adjInter b a) := by
  have A := C55_adjacency_union_intersection a b
  have B := C55_adjacency_union_intersection b a
  exact ⟨fun k => by rw [A.2.2.2, B.2.2.2]; exact And.comm, fun k l x => by rw [A.2.2.1, B.2.2.1]; exact And.comm⟩

theorem adjInter_assoc (a b c : Adj) : SameAdj (adjInter (adjInter a b) c) (adjInter a (adjInter b c)) := by
  refine ⟨fun k => ?_, fun k l x => ?_⟩
  · simp only [(C55_adjacency_union_intersection _ _).2.2.2, and_assoc]
  · simp only [(C55_adjacency_union_intersection _ _).2.2.1, and_assoc]

theorem adjInter_self (a : Adj) : SameAdj (adjInter a a) a := by
  refine ⟨fun k => ?_, fun k l x => ?_⟩
  · simp only [(C55_adjacency_union_intersection _ _).2.2.2, and_self]
  · simp only [(C55_adjacency_union_intersection _ _).2.2.1, and_self]

variable {V : Type}

theorem get?_dictUnion (a b : Dict String V) (k : String) : (dictUnion a b).get? k = (a.get? k).or (b.get? k) :=
  (C55_dict_union_intersection a b k).1

theorem get?_dictInter (a b : Dict String V) (k : String) : (dictInter a b).get? k = if k ∈ b.keys then a.get? k else none :=
  (C55_dict_union_intersection a b k).2

theorem mem_keys_dictUnion {a b : Dict String V} {k : String} : k ∈ (dictUnion a b).keys ↔ k ∈ a.keys ∨ k ∈ b.keys := by
  rw [Dict.mem_keys, Dict.mem_keys, Dict.mem_keys, get?_dictUnion]
  cases a.get? k <;> simp

theorem mem_keys_dictInter {a b : Dict String V} {k : String} : k ∈ (dictInter a b).keys ↔ k ∈ a.keys ∧ k ∈ b.keys := by
  rw [Dict.mem_keys, get?_dictInter, Dict.mem_keys (d := a)]
  split <;> simp_all

theorem dictUnion_comm {a b : Dict String V} (h : Compat a b) : SameDict (dictUnion a b) (dictUnion b a) := by
  intro k
  rw [get?_dictUnion, get?_dictUnion]
  cases ha : a.get? k with
  | none => cases b.get? k <;> rfl
  | some v =>
    cases hb : b.get? k with
    | none => rfl
    | some w => rw [h k v w ha hb]

theorem dictUnion_assoc (a b c : Dict String V) : SameDict (dictUnion (dictUnion a b) c) (dictUnion a (dictUnion b c)) := by
  intro k
  simp only [get?_dictUnion, Option.or_assoc]

theorem dictUnion_self (a : Dict String V) : SameDict (dictUnion a a) a := by
  intro k
  rw [get?_dictUnion, Option.or_self]

theorem dictInter_comm {a b : Dict String V} (h : Compat a b) : SameDict (dictInter a b) (dictInter b a) := by
  intro k
  rw [get?_dictInter, get?_dictInter]
  by_cases ha : k ∈ a.keys
  · by_cases hb : k ∈ b.keys
    · obtain ⟨v, hv⟩ := Dict.mem_keys.1 ha
      obtain ⟨w, hw⟩ := Dict.mem_keys.1 hb
      simp [ha, hb, hv, hw, h k v w hv hw]
    · simp [ha, hb, Dict.get?_eq_none.2 hb]
  · simp [ha, Dict.get?_eq_none.2 ha]

theorem dictInter_assoc (a b c : Dict String V) : SameDict (dictInter (dictInter a b) c) (dictInter a (dictInter b c)) := by
  intro k
  rw [get?_dictInter, get?_dictInter, get?_dictInter]
  by_cases hb : k ∈ b.keys <;> by_cases hc : k ∈ c.keys <;> simp [hb, hc, mem_keys_dictInter]

theorem dictInter_self (a : Dict String V) : SameDict (dictInter a a) a := by
  intro k
  rw [get?_dictInter]
  split
  · rfl
  · rename_i h; rw [Dict.get?_eq_none.2 h]

/-! ### union -/

theorem union_ok {a b g : CFrame} : a.union b = .ok g ↔ g = unionRaw a b ∧ (unionRaw a b).Consistent := by
  unfold union
  rw [← check_iff]
  split
  · rename_i h
    simp only [Except.ok.injEq, h, and_true]
    exact eq_comm
  · rename_i h
    simp only [reduceCtorEq, h, and_false]

/-- C42, the union is taken node by node, edge by edge, value by value and call by call; what is returned satisfies the
documented consistency. -/
theorem C42_union_nodewise {a b g : CFrame} (h : a.union b = .ok g) :
    (∀ v, g.IsVar v ↔ a.IsVar v ∨ b.IsVar v) ∧ (∀ n, g.IsFunc n ↔ a.IsFunc n ∨ b.IsFunc n) ∧
    (∀ s d l, g.HasEdge s d l ↔ a.HasEdge s d l ∨ b.HasEdge s d l) ∧
    (∀ v x, g.HasRef v x ↔ a.HasRef v x ∨ b.HasRef v x) ∧ (∀ n x, g.HasCall n x ↔ a.HasCall n x ∨ b.HasCall n x) ∧
    (∀ x, x ∈ g.refs.keys ↔ x ∈ a.refs.keys ∨ x ∈ b.refs.keys) ∧ (∀ x, x ∈ g.calls.keys ↔ x ∈ a.calls.keys ∨ x ∈ b.calls.keys) ∧
    g.Consistent := by
  obtain ⟨rfl, hc⟩ := union_ok.1 h
  exact ⟨(C55_setdict_union_intersection _ _).2.1, (C55_setdict_union_intersection _ _).2.1,
    fun s d l => (C55_adjacency_union_intersection _ _).1 s l d, fun _ _ => inSet_union, fun _ _ => inSet_union,
    fun _ => mem_keys_dictUnion, fun _ => mem_keys_dictUnion, hc⟩

theorem unionRaw_comm {a b : CFrame} (h : SameStore a b) : Same (unionRaw a b) (unionRaw b a) :=
  ⟨setUnion_comm _ _, setUnion_comm _ _, adjUnion_comm _ _, adjUnion_comm _ _, setUnion_comm _ _, setUnion_comm _ _,
    dictUnion_comm h.creator, setUnion_comm _ _, dictUnion_comm h.refs, dictUnion_comm h.calls⟩

/-- C42, the union does not depend on the order, for frames over the same storage: it is defined both ways or neither, and
the results are the same. -/
theorem C42_union_comm {a b : CFrame} (h : SameStore a b) :
    (∀ g, a.union b = .ok g → ∃ g', b.union a = .ok g' ∧ Same g g') ∧ ∀ g', b.union a = .ok g' → ∃ g, a.union b = .ok g ∧ Same g g' := by
  constructor
  · intro g hg
    obtain ⟨rfl, hc⟩ := union_ok.1 hg
    exact ⟨_, union_ok.2 ⟨rfl, (unionRaw_comm h).consistent hc⟩, unionRaw_comm h⟩
  · intro g hg
    obtain ⟨rfl, hc⟩ := union_ok.1 hg
    exact ⟨_, union_ok.2 ⟨rfl, (unionRaw_comm h).symm.consistent hc⟩, unionRaw_comm h⟩

theorem unionRaw_assoc (a b c : CFrame) : Same (unionRaw (unionRaw a b) c) (unionRaw a (unionRaw b c)) :=
  ⟨setUnion_assoc _ _ _, setUnion_assoc _ _ _, adjUnion_assoc _ _ _, adjUnion_assoc _ _ _, setUnion_assoc _ _ _,
    setUnion_assoc _ _ _, dictUnion_assoc _ _ _, setUnion_assoc _ _ _, dictUnion_assoc _ _ _, dictUnion_assoc _ _ _⟩

/-- C42, associativity: whenever the two inner unions are defined, the outer ones are defined both ways or neither, and then
the results are the same. -/
theorem C42_union_assoc_partial {a b c ab bc : CFrame} (h1 : a.union b = .ok ab) (h2 : b.union c = .ok bc) :
    (∀ g, ab.union c = .ok g → ∃ g', a.union bc = .ok g' ∧ Same g g') ∧ ∀ g', a.union bc = .ok g' → ∃ g, ab.union c = .ok g ∧ Same g g' := by
  obtain ⟨rfl, _⟩ := union_ok.1 h1
  obtain ⟨rfl, _⟩ := union_ok.1 h2
  constructor
  · intro g hg
    obtain ⟨rfl, hc⟩ := union_ok.1 hg
    exact ⟨_, union_ok.2 ⟨rfl, (unionRaw_assoc a b c).consistent hc⟩, unionRaw_assoc a b c⟩
  · intro g hg
    obtain ⟨rfl, hc⟩ := union_ok.1 hg
    exact ⟨_, union_ok.2 ⟨rfl, (unionRaw_assoc a b c).symm.consistent hc⟩, unionRaw_assoc a b c⟩

theorem unionRaw_self (a : CFrame) : Same (unionRaw a a) a :=
  ⟨setUnion_self _, setUnion_self _, adjUnion_self _, adjUnion_self _, setUnion_self _, setUnion_self _, dictUnion_self _,
    setUnion_self _, dictUnion_self _, dictUnion_self _⟩

/-- C42, a consistent frame united with itself is the same frame. -/
theorem C42_union_idempotent {a : CFrame} (h : a.Consistent) : ∃ g, a.union a = .ok g ∧ Same g a :=
  ⟨_, union_ok.2 ⟨rfl, (unionRaw_self a).symm.consistent h⟩, unionRaw_self a⟩

/-- A value that `x`'s edges say belongs to a call of `y` is where the edge says. -/
def Covers (x y : CFrame) : Prop := ∀ n c p v, y.HasCall n c.hid → y.calls.get? c.hid = some c →
  (p ∈ c.inputs ∧ InAdj x.inp n (nameProj c.op p.1) v ∨ p ∈ c.outputs ∧ InAdj x.out n (nameProj c.op p.1) v) →
  x.HasRef v p.2.hid ∨ y.HasRef v p.2.hid

/-- C42, when the union of two well-formed frames over the same storage is defined: exactly when the edges that only one
of them has lead to variables containing the inputs and outputs of the calls that only the other has. -/
theorem C42_union_defined_iff {R : FCall → Prop} (hR : RecOk R) {a b : CFrame} (ha : Wf R a) (hb : Wf R b) (hr : Compat a.refs b.refs) :
    (∃ g, a.union b = .ok g) ↔ Covers a b ∧ Covers b a := by
  have S := sameStore_of_wf hR ha hb hr
  have hcalls : ∀ {k c}, (unionRaw a b).calls.get? k = some c ↔ a.calls.get? k = some c ∨ b.calls.get? k = some c := by
    intro k c
    rw [unionRaw, get?_dictUnion]
    cases h1 : a.calls.get? k with
    | none => simp
    | some x =>
      cases h2 : b.calls.get? k with
      | none => simp
      | some y => have := S.calls k x y h1 h2; simp [this]
  have hv : ∀ {v x}, (unionRaw a b).HasRef v x ↔ a.HasRef v x ∨ b.HasRef v x := inSet_union
  have hn : ∀ {v x}, (unionRaw a b).HasCall v x ↔ a.HasCall v x ∨ b.HasCall v x := inSet_union
  have hki : ∀ {n}, n ∈ (unionRaw a b).inp.keys ↔ n ∈ a.inp.keys ∨ n ∈ b.inp.keys := (C55_adjacency_union_intersection _ _).2.1 _
  have hko : ∀ {n}, n ∈ (unionRaw a b).out.keys ↔ n ∈ a.out.keys ∨ n ∈ b.out.keys := (C55_adjacency_union_intersection _ _).2.1 _
  have hi : ∀ {n l v}, InAdj (unionRaw a b).inp n l v ↔ InAdj a.inp n l v ∨ InAdj b.inp n l v := (C55_adjacency_union_intersection _ _).1 _ _ _
  have ho : ∀ {n l v}, InAdj (unionRaw a b).out n l v ↔ InAdj a.out n l v ∨ InAdj b.out n l v := (C55_adjacency_union_intersection _ _).1 _ _ _
  constructor
  · rintro ⟨g, hg⟩
    obtain ⟨rfl, C⟩ := union_ok.1 hg
    constructor
    · rintro n c p v hcn hc (⟨hp, he⟩ | ⟨hp, he⟩)
      · obtain ⟨c', i, o, hc', hi', ho', h1, h2⟩ := C.io n c.hid (hn.2 (.inr hcn))
        have : c' = c := by
          rcases hcalls.1 hc' with h | h
          · exact S.calls _ _ _ h hc
          · rw [hc] at h; cases h; rfl
        subst this
        exact hv.1 (h1 p hp v ((inAdj_of_get hi').1 (hi.2 (.inl he)))).1
      · obtain ⟨c', i, o, hc', hi', ho', h1, h2⟩ := C.io n c.hid (hn.2 (.inr hcn))
        have : c' = c := by
          rcases hcalls.1 hc' with h | h
          · exact S.calls _ _ _ h hc
          · rw [hc] at h; cases h; rfl
        subst this
        exact hv.1 (h2 p hp v ((inAdj_of_get ho').1 (ho.2 (.inl he)))).1
    · rintro n c p v hcn hc (⟨hp, he⟩ | ⟨hp, he⟩)
      · obtain ⟨c', i, o, hc', hi', ho', h1, h2⟩ := C.io n c.hid (hn.2 (.inl hcn))
        have : c' = c := by
          rcases hcalls.1 hc' with h | h
          · rw [hc] at h; cases h; rfl
          · exact (S.calls _ _ _ hc h).symm
        subst this
        exact Or.comm.1 (hv.1 (h1 p hp v ((inAdj_of_get hi').1 (hi.2 (.inr he)))).1)
      · obtain ⟨c', i, o, hc', hi', ho', h1, h2⟩ := C.io n c.hid (hn.2 (.inl hcn))
        have : c' = c := by
          rcases hcalls.1 hc' with h | h
          · rw [hc] at h; cases h; rfl
          · exact (S.calls _ _ _ hc h).symm
        subst this
        exact Or.comm.1 (hv.1 (h2 p hp v ((inAdj_of_get ho').1 (ho.2 (.inr he)))).1)
  · rintro ⟨cab, cba⟩
    have A := ha.consistent
    have B := hb.consistent
    refine ⟨_, union_ok.2 ⟨rfl, ?_⟩⟩
    have hrk : ∀ {x}, x ∈ (unionRaw a b).refs.keys ↔ x ∈ a.refs.keys ∨ x ∈ b.refs.keys := mem_keys_dictUnion
    have hck : ∀ {x}, x ∈ (unionRaw a b).calls.keys ↔ x ∈ a.calls.keys ∨ x ∈ b.calls.keys := mem_keys_dictUnion
    have hvk : ∀ {x}, (unionRaw a b).IsVar x ↔ a.IsVar x ∨ b.IsVar x := (C55_setdict_union_intersection _ _).2.1 _
    have hfk : ∀ {x}, (unionRaw a b).IsFunc x ↔ a.IsFunc x ∨ b.IsFunc x := (C55_setdict_union_intersection _ _).2.1 _
    have hri : ∀ {h x}, InSet (unionRaw a b).refinv h x ↔ (unionRaw a b).HasRef x h := by
      intro h x
      rw [hv, unionRaw, inSet_union, ha.ref.refinv, hb.ref.refinv]
    constructor
    · intro h
      simp only [hrk, hv, A.refs, B.refs]
      exact ⟨fun h => h.elim (fun ⟨v, h⟩ => ⟨v, .inl h⟩) fun ⟨v, h⟩ => ⟨v, .inr h⟩,
        fun ⟨v, h⟩ => h.imp (fun h => ⟨v, h⟩) fun h => ⟨v, h⟩⟩
    · intro h
      simp only [hck, hn, A.calls, B.calls]
      exact ⟨fun h => h.elim (fun ⟨v, h⟩ => ⟨v, .inl h⟩) fun ⟨v, h⟩ => ⟨v, .inr h⟩,
        fun ⟨v, h⟩ => h.imp (fun h => ⟨v, h⟩) fun h => ⟨v, h⟩⟩
    · intro h v h1
      exact ((hri.1 h1)).key
    · intro h v h1
      rw [unionRaw, inSet_union] at h1
      exact hfk.2 (h1.imp (A.callinv h v) (B.callinv h v))
    · intro h c hc
      rw [unionRaw, get?_dictUnion] at hc
      rw [hrk, hck]
      cases h1 : a.creator.get? h with
      | none =>
        rw [h1] at hc
        exact ⟨.inr (B.creator h c hc).1, .inr (B.creator h c hc).2⟩
      | some c' =>
        rw [h1] at hc
        cases hc
        exact ⟨.inl (A.creator h c h1).1, .inl (A.creator h c h1).2⟩
    · intro h hk
      rw [hrk]
      exact ((C55_setdict_union_intersection _ _).2.1 _ |>.1 hk).imp (A.consumersKey h) (B.consumersKey h)
    · intro h c hc
      rw [unionRaw, inSet_union] at hc
      exact hck.2 (hc.imp (A.consumers h c) (B.consumers h c))
    · intro s d l he
      rw [HasEdge, ho] at he
      rw [hvk, hfk, hvk, hfk]
      rcases he with he | he
      · exact (A.edges s d l he).imp (fun h => h.imp .inl .inl) fun h => h.imp .inl .inl
      · exact (B.edges s d l he).imp (fun h => h.imp .inr .inr) fun h => h.imp .inr .inr
    · intro n h hnh
      have hk : n ∈ (unionRaw a b).inp.keys ∧ n ∈ (unionRaw a b).out.keys := by
        rw [hki, hko]
        rcases hn.1 hnh with hnh | hnh
        · exact ⟨.inl ((ha.graph.inpKey n).2 (.inr hnh.key)), .inl ((ha.graph.outKey n).2 (.inr hnh.key))⟩
        · exact ⟨.inr ((hb.graph.inpKey n).2 (.inr hnh.key)), .inr ((hb.graph.outKey n).2 (.inr hnh.key))⟩
      obtain ⟨i, hi'⟩ := Dict.mem_keys.1 hk.1
      obtain ⟨o, ho'⟩ := Dict.mem_keys.1 hk.2
      have key : ∃ c, c.hid = h ∧ (a.HasCall n h ∧ a.calls.get? h = some c ∨ b.HasCall n h ∧ b.calls.get? h = some c) := by
        rcases hn.1 hnh with hnh | hnh
        · obtain ⟨c, hc, hh, _⟩ := ha.get_call hnh
          exact ⟨c, hh, .inl ⟨hnh, hc⟩⟩
        · obtain ⟨c, hc, hh, _⟩ := hb.get_call hnh
          exact ⟨c, hh, .inr ⟨hnh, hc⟩⟩
      obtain ⟨c, rfl, hc⟩ := key
      refine ⟨c, i, o, hcalls.2 (hc.imp (fun h => h.2) fun h => h.2), hi', ho', ?_, ?_⟩
      · intro p hp v hpv
        rw [hri, and_self, hv]
        rw [← inAdj_of_get hi', hi] at hpv
        rcases hc with ⟨h1, h2⟩ | ⟨h1, h2⟩ <;> rcases hpv with h3 | h3
        · exact .inl (ha.ins n c p v hp ⟨h1, h2, h3⟩).1
        · exact Or.comm.1 (cba n c p v h1 h2 (.inl ⟨hp, h3⟩))
        · exact cab n c p v h1 h2 (.inl ⟨hp, h3⟩)
        · exact .inr (hb.ins n c p v hp ⟨h1, h2, h3⟩).1
      · intro p hp v hpv
        rw [hri, and_self, hv]
        rw [← inAdj_of_get ho', ho] at hpv
        rcases hc with ⟨h1, h2⟩ | ⟨h1, h2⟩ <;> rcases hpv with h3 | h3
        · exact .inl (ha.outs n c p v hp ⟨h1, h2, h3⟩).1
        · exact Or.comm.1 (cba n c p v h1 h2 (.inr ⟨hp, h3⟩))
        · exact cab n c p v h1 h2 (.inr ⟨hp, h3⟩)
        · exact .inr (hb.outs n c p v hp ⟨h1, h2, h3⟩).1
    · intro h r hr
      rw [unionRaw, get?_dictUnion] at hr
      cases h1 : a.refs.get? h with
      | none => rw [h1] at hr; exact B.refHid h r hr
      | some c' => rw [h1] at hr; cases hr; exact A.refHid h r h1
    · intro h r hr
      rcases hcalls.1 hr with h1 | h1
      · exact A.callHid h r h1
      · exact B.callHid h r h1

/-! ### intersection -/

/-- C42, the intersection is taken node by node, edge by edge, value by value and call by call. -/
theorem C42_intersection_nodewise (a b : CFrame) :
    (∀ v, (a.inter b).IsVar v ↔ a.IsVar v ∧ b.IsVar v) ∧ (∀ n, (a.inter b).IsFunc n ↔ a.IsFunc n ∧ b.IsFunc n) ∧
    (∀ s d l, (a.inter b).HasEdge s d l ↔ a.HasEdge s d l ∧ b.HasEdge s d l) ∧
    (∀ v x, (a.inter b).HasRef v x ↔ a.HasRef v x ∧ b.HasRef v x) ∧
    (∀ n x, (a.inter b).HasCall n x ↔ a.HasCall n x ∧ b.HasCall n x) ∧
    (∀ x, x ∈ (a.inter b).refs.keys ↔ x ∈ a.refs.keys ∧ x ∈ b.refs.keys) ∧
    ∀ x, x ∈ (a.inter b).calls.keys ↔ x ∈ a.calls.keys ∧ x ∈ b.calls.keys :=
  ⟨(C55_setdict_union_intersection _ _).2.2.2.2.1, (C55_setdict_union_intersection _ _).2.2.2.2.1,
    fun s d l => (C55_adjacency_union_intersection _ _).2.2.1 s l d, fun _ _ => inSet_inter, fun _ _ => inSet_inter,
    fun _ => mem_keys_dictInter, fun _ => mem_keys_dictInter⟩

/-- C42, the intersection does not depend on the order (for frames over the same storage) nor on the grouping, and the
intersection of a frame with itself is the same frame. -/
theorem C42_intersection_laws (a b c : CFrame) : (SameStore a b → Same (a.inter b) (b.inter a)) ∧
    Same ((a.inter b).inter c) (a.inter (b.inter c)) ∧ Same (a.inter a) a := by
  refine ⟨fun h => ?_, ?_, ?_⟩
  · exact ⟨setInter_comm _ _, setInter_comm _ _, adjInter_comm _ _, adjInter_comm _ _, setInter_comm _ _, setInter_comm _ _,
      dictInter_comm h.creator, setInter_comm _ _, dictInter_comm h.refs, dictInter_comm h.calls⟩
  · exact ⟨setInter_assoc _ _ _, setInter_assoc _ _ _, adjInter_assoc _ _ _, adjInter_assoc _ _ _, setInter_assoc _ _ _,
      setInter_assoc _ _ _, dictInter_assoc _ _ _, setInter_assoc _ _ _, dictInter_assoc _ _ _, dictInter_assoc _ _ _⟩
  · exact ⟨setInter_self _, setInter_self _, adjInter_self _, adjInter_self _, setInter_self _, setInter_self _, dictInter_self _,
      setInter_self _, dictInter_self _, dictInter_self _⟩

/-- C42, the intersection of two well-formed frames is consistent exactly when every common value is in a common variable
and every common call in a common function, provided no name is a variable of the one and a function of the other.
(`cf.py` line 844 says that every intersection is a valid frame.) -/
theorem C42_intersection_consistent_partial {R : FCall → Prop} (hR : RecOk R) {a b : CFrame} (ha : Wf R a) (hb : Wf R b)
    (hr' : Compat a.refs b.refs) (hkind : ∀ n, ¬ (a.IsVar n ∧ b.IsFunc n) ∧ ¬ (a.IsFunc n ∧ b.IsVar n)) :
    (a.inter b).Consistent ↔ (∀ x, x ∈ a.refs.keys → x ∈ b.refs.keys → ∃ v, a.HasRef v x ∧ b.HasRef v x) ∧
      ∀ x, x ∈ a.calls.keys → x ∈ b.calls.keys → ∃ n, a.HasCall n x ∧ b.HasCall n x := by
  have N := C42_intersection_nodewise a b
  have S := sameStore_of_wf hR ha hb hr'
  have ho : ∀ {n l v}, InAdj (a.inter b).out n l v ↔ InAdj a.out n l v ∧ InAdj b.out n l v := (C55_adjacency_union_intersection _ _).2.2.1 _ _ _
  have hi : ∀ {n l v}, InAdj (a.inter b).inp n l v ↔ InAdj a.inp n l v ∧ InAdj b.inp n l v := (C55_adjacency_union_intersection _ _).2.2.1 _ _ _
  have hki : ∀ {n}, n ∈ (a.inter b).inp.keys ↔ n ∈ a.inp.keys ∧ n ∈ b.inp.keys := (C55_adjacency_union_intersection _ _).2.2.2 _
  have hko : ∀ {n}, n ∈ (a.inter b).out.keys ↔ n ∈ a.out.keys ∧ n ∈ b.out.keys := (C55_adjacency_union_intersection _ _).2.2.2 _
  constructor
  · intro C
    constructor
    · intro x h1 h2
      obtain ⟨v, hv⟩ := (C.refs x).1 ((N.2.2.2.2.2.1 x).2 ⟨h1, h2⟩)
      exact ⟨v, (N.2.2.2.1 v x).1 hv⟩
    · intro x h1 h2
      obtain ⟨v, hv⟩ := (C.calls x).1 ((N.2.2.2.2.2.2 x).2 ⟨h1, h2⟩)
      exact ⟨v, (N.2.2.2.2.1 v x).1 hv⟩
  · rintro ⟨hr, hc⟩
    have A := ha.consistent
    have B := hb.consistent
    have hri : ∀ {h x}, InSet (a.inter b).refinv h x ↔ (a.inter b).HasRef x h := by
      intro h x
      rw [N.2.2.2.1, inter, inSet_inter, ha.ref.refinv, hb.ref.refinv]
    have hrk := N.2.2.2.2.2.1
    have hck := N.2.2.2.2.2.2
    constructor
    · intro h
      simp only [hrk, N.2.2.2.1]
      exact ⟨fun h' => hr h h'.1 h'.2, fun ⟨v, h1, h2⟩ => ⟨(A.refs h).2 ⟨v, h1⟩, (B.refs h).2 ⟨v, h2⟩⟩⟩
    · intro h
      simp only [hck, N.2.2.2.2.1]
      exact ⟨fun h' => hc h h'.1 h'.2, fun ⟨v, h1, h2⟩ => ⟨(A.calls h).2 ⟨v, h1⟩, (B.calls h).2 ⟨v, h2⟩⟩⟩
    · intro h v h1
      exact ((hri.1 h1)).key
    · intro h v h1
      rw [inter, inSet_inter] at h1
      exact (N.2.1 v).2 ⟨A.callinv h v h1.1, B.callinv h v h1.2⟩
    · intro h c h1
      rw [inter, get?_dictInter] at h1
      split at h1
      · rename_i hb'
        obtain ⟨c', hc'⟩ := Dict.mem_keys.1 hb'
        have := S.creator h c c' h1 hc'
        subst this
        exact ⟨(hrk h).2 ⟨(A.creator h c h1).1, (B.creator h c hc').1⟩, (hck c).2 ⟨(A.creator h c h1).2, (B.creator h c hc').2⟩⟩
      · cases h1
    · intro h hk
      have := (C55_setdict_union_intersection a.consumers b.consumers).2.2.2.2.1 h |>.1 hk
      exact (hrk h).2 ⟨A.consumersKey h this.1, B.consumersKey h this.2⟩
    · intro h c h1
      rw [inter, inSet_inter] at h1
      exact (hck c).2 ⟨A.consumers h c h1.1, B.consumers h c h1.2⟩
    · intro s d l he
      rw [N.2.2.1] at he
      rw [N.1, N.2.1, N.1, N.2.1]
      rcases ha.graph.bip _ _ _ he.1 with ⟨h1, h2⟩ | ⟨h1, h2⟩ <;> rcases hb.graph.bip _ _ _ he.2 with ⟨h3, h4⟩ | ⟨h3, h4⟩
      · exact ⟨.inl ⟨h1, h3⟩, .inr ⟨h2, h4⟩⟩
      · exact absurd ⟨h1, h3⟩ (hkind s).1
      · exact absurd ⟨h1, h3⟩ (hkind s).2
      · exact ⟨.inr ⟨h1, h3⟩, .inl ⟨h2, h4⟩⟩
    · intro n h hnh
      rw [N.2.2.2.2.1] at hnh
      obtain ⟨c, hca, hh, _⟩ := ha.get_call hnh.1
      obtain ⟨c', hcb, hh', _⟩ := hb.get_call hnh.2
      have := S.calls h c c' hca hcb
      subst this
      subst hh
      obtain ⟨i, hi'⟩ := Dict.mem_keys.1 (hki.2 ⟨(ha.graph.inpKey n).2 (.inr hnh.1.key), (hb.graph.inpKey n).2 (.inr hnh.2.key)⟩)
      obtain ⟨o, ho'⟩ := Dict.mem_keys.1 (hko.2 ⟨(ha.graph.outKey n).2 (.inr hnh.1.key), (hb.graph.outKey n).2 (.inr hnh.2.key)⟩)
      refine ⟨c, i, o, ?_, hi', ho', ?_, ?_⟩
      · rw [inter, get?_dictInter, if_pos (Dict.mem_keys.2 ⟨c, hcb⟩)]
        exact hca
      · intro p hp v hpv
        rw [hri, and_self, N.2.2.2.1]
        rw [← inAdj_of_get hi', hi] at hpv
        exact ⟨(ha.ins n c p v hp ⟨hnh.1, hca, hpv.1⟩).1, (hb.ins n c p v hp ⟨hnh.2, hcb, hpv.2⟩).1⟩
      · intro p hp v hpv
        rw [hri, and_self, N.2.2.2.1]
        rw [← inAdj_of_get ho', ho] at hpv
        exact ⟨(ha.outs n c p v hp ⟨hnh.1, hca, hpv.1⟩).1, (hb.outs n c p v hp ⟨hnh.2, hcb, hpv.2⟩).1⟩
    · intro h r h1
      rw [inter, get?_dictInter] at h1
      split at h1
      · exact A.refHid h r h1
      · cases h1
    · intro h r h1
      rw [inter, get?_dictInter] at h1
      split at h1
      · exact A.callHid h r h1
      · cases h1

end Props
end Verif
