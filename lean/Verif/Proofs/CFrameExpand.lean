import Verif.Model.CFrameExpand
import Verif.Spec.FrameExpand
import Verif.Proofs.CFrameReach
/-!
Expanding a frame: every step only adds.
-/
namespace Verif

open Props

namespace CFrame

variable {R S : FCall → Prop} {f g k : CFrame} {F V : String → Prop}

theorem Grows.refl : Grows S f f :=
  ⟨fun _ h => h, fun _ h => h, fun _ _ _ h => h, fun _ _ h => h, fun _ _ h => h, fun _ _ h => .inl h, fun _ _ h => .inl h, fun _ _ h => .inl h⟩

theorem Grows.trans (h : Grows S f g) (h' : Grows S g k) : Grows S f k where
  var v hv := h'.var v (h.var v hv)
  func n hn := h'.func n (h.func n hn)
  edge s d l he := h'.edge s d l (h.edge s d l he)
  ref v x hx := h'.ref v x (h.ref v x hx)
  call n x hx := h'.call n x (h.call n x hx)
  newRef v x hx := (h'.newRef v x hx).elim (fun hx => (h.newRef v x hx).imp id fun ⟨n, c, hc, hn, hp⟩ => ⟨n, c, hc, h'.call n _ hn,
    hp.imp (fun ⟨p, h1, h2, h3⟩ => ⟨p, h1, h'.edge _ _ _ h2, h3⟩) fun ⟨p, h1, h2, h3⟩ => ⟨p, h1, h'.edge _ _ _ h2, h3⟩⟩) .inr
  newCall n x hx := (h'.newCall n x hx).elim (h.newCall n x) .inr
  object x c hx := (h'.object x c hx).elim (h.object x c) .inr

theorem Grows.mono {S' : FCall → Prop} (hS : ∀ c, S c → S' c) (h : Grows S f g) : Grows S' f g where
  var := h.var
  func := h.func
  edge := h.edge
  ref := h.ref
  call := h.call
  newRef v x hx := (h.newRef v x hx).imp id fun ⟨n, c, hc, hp⟩ => ⟨n, c, hS c hc, hp⟩
  newCall n x hx := (h.newCall n x hx).imp id fun ⟨c, hc, hp⟩ => ⟨c, hS c hc, hp⟩
  object x c hx := (h.object x c hx).imp id fun ⟨hc, hp⟩ => ⟨hS c hc, hp⟩

theorem Grows.joined (h : Grows S f g) {dir : Side} {v n l : String} (hj : Joined f dir v n l) : Joined g dir v n l := by
  cases dir
  · exact h.edge _ _ _ hj
  · exact h.edge _ _ _ hj

/-! ### nodes -/

theorem Base.not_node_inp (H : Base R f) {n : String} (h : n ∉ f.nodes) {l m : String} : ¬ InAdj f.inp n l m :=
  fun h' => h (mem_nodes.2 ((H.graph.inpKey n).1 (inAdj_key h')))

theorem Base.not_node_out (H : Base R f) {n : String} (h : n ∉ f.nodes) {l m : String} : ¬ InAdj f.out n l m :=
  fun h' => h (mem_nodes.2 ((H.graph.outKey n).1 (inAdj_key h')))

theorem base_addVar (H : Base R f) {v : String} (hv : v ∉ f.nodes) :
    Base R (f.addVar v) ∧ Grows S f (f.addVar v) ∧ ∀ w, (f.addVar v).IsVar w ↔ w = v ∨ f.IsVar w := by
  have hv' : ¬ f.IsVar v ∧ ¬ f.IsFunc v := by rw [mem_nodes] at hv; exact not_or.1 hv
  have hi : ∀ {n l m}, InAdj (f.inp.set v []) n l m ↔ InAdj f.inp n l m := inAdj_set_nil fun _ _ => H.not_node_inp hv
  have ho : ∀ {n l m}, InAdj (f.out.set v []) n l m ↔ InAdj f.out n l m := inAdj_set_nil fun _ _ => H.not_node_out hv
  have hs : ∀ {n m}, InSet (f.vs.set v []) n m ↔ InSet f.vs n m := inSet_set_nil fun _ => not_inSet_of_key hv'.1
  unfold addVar
  refine ⟨?_, ?_, fun w => Dict.mem_keys_set⟩
  · constructor
    · constructor <;> simp only [IsVar, IsFunc, hi, ho, Dict.mem_keys_set]
      · rintro n (rfl | h)
        · exact hv'.2
        · exact H.graph.disj n h
      · intro n; rw [H.graph.inpKey, or_assoc]
      · intro n; rw [H.graph.outKey, or_assoc]
      · exact H.graph.sym
      · intro s d l h
        rcases H.graph.bip s d l h with h | h
        · exact .inl ⟨.inr h.1, h.2⟩
        · exact .inr ⟨h.1, .inr h.2⟩
    · constructor <;> simp only [HasRef, hs]
      · exact H.ref.refinv
      · exact H.ref.refinvKey
      · exact H.ref.refs
      · exact H.ref.refHid
    · exact ⟨H.call.callinv, H.call.callinvKey, H.call.calls, H.call.callOk⟩
  · exact ⟨fun w hw => Dict.mem_keys_set.2 (.inr hw), fun _ h => h, fun _ _ _ h => ho.2 h, fun _ _ h => hs.2 h, fun _ _ h => h,
      fun _ _ h => .inl (hs.1 h), fun _ _ h => .inl h, fun _ _ h => .inl h⟩

theorem base_addFunc (H : Base R f) {v : String} (hv : v ∉ f.nodes) :
    Base R (f.addFunc v) ∧ Grows S f (f.addFunc v) ∧ ∀ w, (f.addFunc v).IsFunc w ↔ w = v ∨ f.IsFunc w := by
  have hv' : ¬ f.IsVar v ∧ ¬ f.IsFunc v := by rw [mem_nodes] at hv; exact not_or.1 hv
  have hi : ∀ {n l m}, InAdj (f.inp.set v []) n l m ↔ InAdj f.inp n l m := inAdj_set_nil fun _ _ => H.not_node_inp hv
  have ho : ∀ {n l m}, InAdj (f.out.set v []) n l m ↔ InAdj f.out n l m := inAdj_set_nil fun _ _ => H.not_node_out hv
  have hs : ∀ {n m}, InSet (f.fs.set v []) n m ↔ InSet f.fs n m := inSet_set_nil fun _ => not_inSet_of_key hv'.2
  unfold addFunc
  refine ⟨?_, ?_, fun w => Dict.mem_keys_set⟩
  · constructor
    · constructor <;> simp only [IsVar, IsFunc, hi, ho, Dict.mem_keys_set]
      · rintro n h (rfl | h')
        · exact hv'.1 h
        · exact H.graph.disj n h h'
      · intro n; rw [H.graph.inpKey, or_left_comm]
      · intro n; rw [H.graph.outKey, or_left_comm]
      · exact H.graph.sym
      · intro s d l h
        rcases H.graph.bip s d l h with h | h
        · exact .inl ⟨h.1, .inr h.2⟩
        · exact .inr ⟨.inr h.1, h.2⟩
    · exact ⟨H.ref.refinv, H.ref.refinvKey, H.ref.refs, H.ref.refHid⟩
    · constructor <;> simp only [HasCall, hs]
      · exact H.call.callinv
      · exact H.call.callinvKey
      · exact H.call.calls
      · exact H.call.callOk
  · exact ⟨fun _ h => h, fun w hw => Dict.mem_keys_set.2 (.inr hw), fun _ _ _ h => ho.2 h, fun _ _ h => h, fun _ _ h => hs.2 h,
      fun _ _ h => .inl h, fun _ _ h => .inl (hs.1 h), fun _ _ h => .inl h⟩

/-! ### edges -/

theorem base_addEdge (H : Base R f) {s d l : String} {allow : Bool} (h : f.addEdge s d l allow = .ok g)
    (hb : (f.IsVar s ∧ f.IsFunc d) ∨ (f.IsFunc s ∧ f.IsVar d)) :
    Base R g ∧ Grows S f g ∧ g.HasEdge s d l ∧ g.vs = f.vs ∧ g.fs = f.fs ∧ g.calls = f.calls := by
  rcases addEdge_ok h with ⟨rfl, he, _⟩ | ⟨_, hs, hd, rfl⟩
  · exact ⟨H, .refl, he, rfl, rfl, rfl⟩
  refine ⟨?_, ?_, inAdj_add.2 (.inr ⟨rfl, rfl, rfl⟩), rfl, rfl, rfl⟩
  · constructor
    · constructor <;> simp only [IsVar, IsFunc, inAdj_add, mem_keys_adjAdd]
      · exact H.graph.disj
      · intro n
        rw [H.graph.inpKey]
        constructor
        · rintro (rfl | h)
          · exact (H.graph.inpKey _).1 hd
          · exact h
        · exact .inr
      · intro n
        rw [H.graph.outKey]
        constructor
        · rintro (rfl | h)
          · exact (H.graph.outKey _).1 hs
          · exact h
        · exact .inr
      · intro s' d' l'
        rw [H.graph.sym]
        constructor
        · rintro (h | ⟨rfl, rfl, rfl⟩) <;> simp_all
        · rintro (h | ⟨rfl, rfl, rfl⟩) <;> simp_all
      · rintro s' d' l' (h | ⟨rfl, rfl, rfl⟩)
        · exact H.graph.bip _ _ _ h
        · exact hb
    · exact ⟨H.ref.refinv, H.ref.refinvKey, H.ref.refs, H.ref.refHid⟩
    · exact ⟨H.call.callinv, H.call.callinvKey, H.call.calls, H.call.callOk⟩
  · exact ⟨fun _ h => h, fun _ h => h, fun _ _ _ h => inAdj_add.2 (.inl h), fun _ _ h => h, fun _ _ h => h, fun _ _ h => .inl h,
      fun _ _ h => .inl h, fun _ _ h => .inl h⟩

theorem base_joinEdge (H : Base R f) {dir : Side} {v n l : String} {allow : Bool} (h : f.joinEdge dir v n l allow = .ok g)
    (hv : f.IsVar v) (hn : f.IsFunc n) : Base R g ∧ Grows S f g ∧ Joined g dir v n l ∧ g.vs = f.vs ∧ g.fs = f.fs ∧ g.calls = f.calls := by
  cases dir
  · exact base_addEdge H h (.inr ⟨hn, hv⟩)
  · exact base_addEdge H h (.inl ⟨hv, hn⟩)

/-! ### calls -/

theorem base_addCall (H : Base R f) {n : String} {c : FCall} (hc : R c) (hs : S c) {allow : Bool} (h : f.addCall n c true allow = .ok g) :
    Base R g ∧ Grows S f g ∧ g.HasCall n c.hid ∧ g.inp = f.inp ∧ g.out = f.out ∧ (∀ v, g.IsVar v ↔ f.IsVar v) ∧ ∀ m, g.IsFunc m ↔ f.IsFunc m := by
  rcases addCall_cases h with ⟨rfl, hn⟩ | ⟨s, hs', hn⟩
  · exact ⟨H, .refl, hn, rfl, rfl, fun _ => Iff.rfl, fun _ => Iff.rfl⟩
  have h' : f.addCall n c true true = .ok g ∨ f.addCall n c true false = .ok g := by
    cases allow
    · exact .inr h
    · exact .inl h
  obtain ⟨A, hrw, hcw, -⟩ := addCall_base H hc hs' hn h'
  refine ⟨⟨?_, hrw, hcw⟩, ?_, (A.fs _ _).2 (.inr ⟨rfl, rfl⟩), A.inp, A.out, A.vkeys, A.fkeys⟩
  · have G := H.graph
    constructor <;> simp only [A.vkeys, A.fkeys, A.inp, A.out]
    · exact G.disj
    · exact G.inpKey
    · exact G.outKey
    · exact G.sym
    · exact G.bip
  · refine ⟨fun v hv => (A.vkeys v).2 hv, fun n hn => (A.fkeys n).2 hn, fun s d l he => by unfold HasEdge; rw [A.out]; exact he,
      fun v x hx => (A.vs v x).2 (.inl hx), fun n x hx => (A.fs n x).2 (.inl hx), ?_, ?_, ?_⟩
    · intro v x hx
      rcases (A.vs v x).1 hx with hx | ⟨p, hp, he, rfl⟩ | ⟨p, hp, he, rfl⟩
      · exact .inl hx
      · exact .inr ⟨n, c, hs, (A.fs _ _).2 (.inr ⟨rfl, rfl⟩), .inl ⟨p, hp, by unfold HasEdge; rw [A.out]; exact (H.graph.sym _ _ _).2 he, rfl⟩⟩
      · exact .inr ⟨n, c, hs, (A.fs _ _).2 (.inr ⟨rfl, rfl⟩), .inr ⟨p, hp, by unfold HasEdge; rw [A.out]; exact he, rfl⟩⟩
    · intro m x hx
      rcases (A.fs m x).1 hx with hx | ⟨_, rfl⟩
      · exact .inl hx
      · exact .inr ⟨c, hs, rfl⟩
    · intro x c' hx
      rw [A.calls] at hx
      split at hx
      · cases hx; exact .inr ⟨hs, by assumption⟩
      · exact .inl hx

end CFrame
end Verif
