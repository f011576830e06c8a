import Verif.Proofs.CFrameExpandGroup
import Mathlib.Data.List.Nodup
/-!
Expanding a frame, in all modes: one round, and the loops.
-/
namespace Verif

open Props

namespace CFrame

variable {R S : FCall → Prop} {f g : CFrame} {F V : String → Prop}

theorem Grows.node (h : Grows S f g) {n : String} (hn : n ∈ f.nodes) : n ∈ g.nodes := by
  rw [mem_nodes] at *
  exact hn.imp (h.var n) (h.func n)

/-- No two inputs (outputs) of the call belong to the same label. -/
def Apart (dir : Side) (c : FCall) : Prop := ((ioRefs dir c).map fun p => nameProj c.op p.1).Nodup

theorem mem_recordedAt {rec : List FCall} {dir : Side} {hids : List String} {c : FCall} :
    c ∈ recordedAt rec dir hids ↔ c ∈ rec ∧ ∃ p ∈ ioRefs dir c, p.2.hid ∈ hids := by
  unfold recordedAt
  simp

theorem groups_get {d : Dict GroupId (List FCall)} (hd : d.keys.Nodup) {k : GroupId} {cs : List FCall} : (k, cs) ∈ sortGroups d ↔ d.get? k = some cs := by
  rw [(sortGroups_perm d).mem_iff, Dict.get?_eq_some_iff hd]

/-- The groups that a round handles. -/
structure Groups (f : CFrame) (dir : Side) (varnames : List String) (calls : List FCall) (gs : List (GroupId × List FCall)) : Prop where
  op : ∀ k ∈ gs, ∃ c ∈ k.2, k.1.1 = c.op
  same : ∀ k ∈ gs, ∀ c ∈ k.2, k.1.1 = c.op
  sub : ∀ k ∈ gs, k.2.Sublist calls
  var : ∀ k ∈ gs, ∀ lv ∈ k.1.2, ∀ v ∈ lv.2, v ∈ varnames ∧ ∀ c ∈ k.2, ∃ p ∈ ioRefs dir c, lv.1 = nameProj c.op p.1 ∧ f.HasRef v p.2.hid
  all : ∀ c ∈ calls, ∃ k ∈ gs, c ∈ k.2
  found : ∀ k ∈ gs, ∀ c ∈ k.2, Apart dir c → ∀ p ∈ ioRefs dir c, ∀ v ∈ varnames, f.HasRef v p.2.hid → ∃ lv ∈ k.1.2, lv.1 = nameProj c.op p.1 ∧ v ∈ lv.2
  pairs : ∀ k ∈ gs, (k.1.2.flatMap fun lv => lv.2.map fun v => (lv.1, v)).Nodup

theorem nodup_pairs {k : List (String × List String)} (h : (k.map (·.1)).Nodup) (h' : ∀ lv ∈ k, lv.2.Nodup) :
    (k.flatMap fun lv => lv.2.map fun v => (lv.1, v)).Nodup := by
  induction k with
  | nil => simp
  | cons a k ih =>
    rw [List.map_cons, List.nodup_cons] at h
    rw [List.flatMap_cons, List.nodup_append]
    refine ⟨?_, ih h.2 fun lv hlv => h' lv (by simp [hlv]), ?_⟩
    · refine List.Nodup.map ?_ (h' a (by simp))
      intro x y e
      exact (Prod.mk.inj e).2
    · intro x hx y hy e
      subst e
      obtain ⟨v, _, rfl⟩ := List.mem_map.1 hx
      obtain ⟨lv, hlv, hy⟩ := List.mem_flatMap.1 hy
      obtain ⟨w, _, e⟩ := List.mem_map.1 hy
      exact h.1 (List.mem_map.2 ⟨lv, hlv, (Prod.mk.inj e).1⟩)

theorem groups_ok (H : RefWf f) (dir : Side) (varnames : List String) (calls : List FCall) :
    ∃ d, f.groupCalls calls varnames dir = .ok d ∧ Groups f dir varnames calls (sortGroups d) := by
  obtain ⟨d, h1, h2, h3, h4⟩ := groupCalls_ok H varnames dir calls
  have key : ∀ k ∈ sortGroups d, k.2 ≠ [] ∧ k.2.Sublist calls ∧ ∀ c ∈ k.2, f.groupOf varnames dir c = .ok k.1 :=
    fun k hk => h3 k.1 k.2 ((groups_get h2).1 hk)
  have gof : ∀ k ∈ sortGroups d, ∀ c ∈ k.2, k.1.1 = c.op ∧
      (∀ lv ∈ k.1.2, ∀ v ∈ lv.2, v ∈ varnames ∧ ∃ p ∈ ioRefs dir c, lv.1 = nameProj c.op p.1 ∧ f.HasRef v p.2.hid) ∧
      (Apart dir c → ∀ p ∈ ioRefs dir c, ∀ v ∈ varnames, f.HasRef v p.2.hid → ∃ lv ∈ k.1.2, lv.1 = nameProj c.op p.1 ∧ v ∈ lv.2) ∧
      (k.1.2.flatMap fun lv => lv.2.map fun v => (lv.1, v)).Nodup := by
    intro k hk c hc
    obtain ⟨k', a1, a2, a3, a4, a5, a6⟩ := groupOf_ok H varnames dir c
    rw [(key k hk).2.2 c hc] at a1
    cases a1
    exact ⟨a2, a3, a4, nodup_pairs a5 a6⟩
  have ne : ∀ k ∈ sortGroups d, ∃ c, c ∈ k.2 := fun k hk => List.exists_mem_of_ne_nil _ (key k hk).1
  refine ⟨d, h1, ?_, fun k hk c hc => (gof k hk c hc).1, fun k hk => (key k hk).2.1, ?_, ?_, fun k hk c hc => (gof k hk c hc).2.2.1, ?_⟩
  · intro k hk
    obtain ⟨c, hc⟩ := ne k hk
    exact ⟨c, hc, (gof k hk c hc).1⟩
  · intro k hk lv hlv v hv
    obtain ⟨c, hc⟩ := ne k hk
    exact ⟨((gof k hk c hc).2.1 lv hlv v hv).1, fun c hc => ((gof k hk c hc).2.1 lv hlv v hv).2⟩
  · intro c hc
    obtain ⟨k, cs, a, b⟩ := h4 c hc
    exact ⟨(k, cs), (groups_get h2).2 a, b⟩
  · intro k hk
    obtain ⟨c, hc⟩ := ne k hk
    exact (gof k hk c hc).2.2.2

/-- The calls that a round adds. -/
def selected (rec : List FCall) (dir : Side) (skip : Bool) (f : CFrame) (elts : SetDict) : List FCall :=
  if skip then (recordedAt rec dir (valsUnion elts)).filter fun c => !f.calls.has c.hid else recordedAt rec dir (valsUnion elts)

theorem mem_selected {rec : List FCall} {dir : Side} {skip : Bool} {elts : SetDict} {c : FCall} :
    c ∈ selected rec dir skip f elts ↔ c ∈ rec ∧ (∃ p ∈ ioRefs dir c, ∃ v, InSet elts v p.2.hid) ∧ (skip = true → c.hid ∉ f.calls.keys) := by
  have hh : ∀ h, (!f.calls.has h) = true ↔ h ∉ f.calls.keys := by
    intro h
    rw [← Dict.has_iff, Bool.not_eq_true']
    exact Bool.not_eq_true _ |>.symm ▸ Iff.rfl
  unfold selected
  cases skip <;> simp [mem_recordedAt, mem_valsUnion, hh, and_assoc]

theorem inSet_filter {d : SetDict} {ns : List String} {v x : String} : InSet (d.filter fun p => p.1 ∈ ns) v x ↔ v ∈ ns ∧ InSet d v x := by
  induction d with
  | nil => simp [InSet, Dict.get?]
  | cons p d ih =>
    by_cases hp : p.1 ∈ ns
    · rw [List.filter_cons_of_pos (by simpa using hp)]
      unfold InSet at *
      rw [Dict.get?_cons, Dict.get?_cons]
      by_cases e : p.1 = v
      · subst e; simp [hp]
      · simp only [e, if_false]; exact ih
    · rw [List.filter_cons_of_neg (by simpa using hp), ih]
      unfold InSet
      rw [Dict.get?_cons]
      by_cases e : p.1 = v
      · subst e; simp [hp]
      · simp only [e, if_false]

theorem expandOnce_cases {rec : List FCall} {dir : Side} {reuse skip : Bool} {varnames : List String} (h : f.expandOnce rec dir reuse skip varnames = .ok g)
    (H : RefWf f) : ∃ ends gs, f.endElts dir.flip = .ok ends ∧
      Groups f dir varnames (selected rec dir skip f (ends.filter fun p => p.1 ∈ varnames)) gs ∧ gs.foldlM (expandGroup dir reuse) f = .ok g := by
  unfold expandOnce at h
  obtain ⟨ends, h1, h⟩ := exBind_ok.1 h
  simp only at h
  split at h
  · cases h
  · obtain ⟨d, h2, h3⟩ := exBind_ok.1 h
    obtain ⟨d', a1, a2⟩ := groups_ok H dir varnames (selected rec dir skip f (ends.filter fun p => p.1 ∈ varnames))
    unfold selected at a1
    rw [h2] at a1
    cases a1
    exact ⟨ends, _, h1, a2, h3⟩

/-- One round, in any mode: recorded calls are added, among them all those with an output (input) among the given values. -/
theorem expandGroups_ok (E : Ready R F V f) {dir : Side} {reuse : Bool} {varnames : List String} {calls : List FCall} {gs : List (GroupId × List FCall)}
    (G : Groups f dir varnames calls gs) (hrec : ∀ c ∈ calls, R c) (hs : ∀ c ∈ calls, S c) (hv : ∀ v ∈ varnames, f.IsVar v)
    (h : gs.foldlM (expandGroup dir reuse) f = .ok g) :
    Ready R F V g ∧ Grows S f g ∧ ∀ c ∈ calls, ∃ n, g.HasCall n c.hid ∧ (reuse = false → n ∉ f.nodes) ∧
      (Apart dir c → ∀ p ∈ ioRefs dir c, ∀ v ∈ varnames, f.HasRef v p.2.hid → Joined g dir v n (nameProj c.op p.1)) := by
  obtain ⟨⟨E', G'⟩, hQ, -⟩ := foldlM_keeps (step := expandGroup dir reuse) (P := fun g => Ready R F V g ∧ Grows S f g)
    (Q := fun k g => ∃ n, (∀ c ∈ k.2, g.HasCall n c.hid) ∧ (∀ lv ∈ k.1.2, ∀ v ∈ lv.2, Joined g dir v n lv.1) ∧ (reuse = false → n ∉ f.nodes)) gs (by
      intro k hk a b ⟨Ea, Ga⟩ hab
      have hsub := (G.sub k hk).subset
      obtain ⟨b1, b2, n, b3, b4, b5⟩ := expandGroup_ok (S := S) Ea (G.op k hk) (fun c hc => hrec c (hsub hc)) (fun c hc => hs c (hsub hc))
        (fun lv hlv v hv' => Ga.var v (hv v (G.var k hk lv hlv v hv').1)) hab
      refine ⟨⟨b1, Ga.trans b2⟩, ⟨n, b3, b4, fun hr hn => b5 hr (Ga.node hn)⟩, ?_⟩
      rintro y ⟨m, y1, y2, y3⟩
      exact ⟨m, fun c hc => b2.call _ _ (y1 c hc), fun lv hlv v hv => b2.joined (y2 lv hlv v hv), y3⟩) f g ⟨E, .refl⟩ h
  refine ⟨E', G', fun c hc => ?_⟩
  obtain ⟨k, hk, hck⟩ := G.all c hc
  obtain ⟨n, q1, q2, q3⟩ := hQ k hk
  refine ⟨n, q1 c hck, q3, fun hap p hp v hv' hr => ?_⟩
  obtain ⟨lv, hlv, e, hin⟩ := G.found k hk c hck hap p hp v hv' hr
  rw [← e]
  exact q2 lv hlv v hin

theorem expandOnce_ok (E : Ready R F V f) {rec : List FCall} (hrec : ∀ c ∈ rec, R c) {dir : Side} {reuse skip : Bool} {varnames : List String}
    (hv : ∀ v ∈ varnames, f.IsVar v) (h : f.expandOnce rec dir reuse skip varnames = .ok g) :
    Ready R F V g ∧ Grows (· ∈ rec) f g ∧ ∃ ends, f.endElts dir.flip = .ok ends ∧
      ∀ v ∈ varnames, ∀ c ∈ rec, (skip = true → c.hid ∉ f.calls.keys) → ∀ p ∈ ioRefs dir c, InSet ends v p.2.hid →
        ∃ n, g.HasCall n c.hid ∧ (reuse = false → n ∉ f.nodes) ∧ (Apart dir c → f.HasRef v p.2.hid → Joined g dir v n (nameProj c.op p.1)) := by
  obtain ⟨ends, gs, h1, G, h2⟩ := expandOnce_cases h E.base.ref
  have hsub : ∀ c ∈ selected rec dir skip f (ends.filter fun p => p.1 ∈ varnames), c ∈ rec := fun c hc => (mem_selected.1 hc).1
  obtain ⟨a1, a2, a3⟩ := expandGroups_ok (S := (· ∈ rec)) E G (fun c hc => hrec c (hsub c hc)) hsub hv h2
  refine ⟨a1, a2, ends, h1, fun v hv' c hc hsk p hp hin => ?_⟩
  obtain ⟨n, b1, b2, b3⟩ := a3 c (mem_selected.2 ⟨hc, ⟨p, hp, v, inSet_filter.2 ⟨hv', hin⟩⟩, hsk⟩)
  exact ⟨n, b1, b2, fun hap hr => b3 hap p hp v hv' hr⟩

theorem expandAllVars_ok {rec : List FCall} (hrec : ∀ c ∈ rec, R c) {dir : Side} {reuse skip recursive : Bool} : ∀ {k : Nat} {f g : CFrame}, Ready R F V f →
    f.expandAllVars rec dir reuse skip recursive k = .ok g → Ready R F V g ∧ Grows (· ∈ rec) f g := by
  intro k
  induction k with
  | zero => intro f g _ h; cases h
  | succ k ih =>
    intro f g E h
    unfold expandAllVars at h
    obtain ⟨f', h1, h⟩ := exBind_ok.1 h
    obtain ⟨a1, a2, -⟩ := expandOnce_ok E hrec (fun v hv => hv) h1
    split at h
    · cases h; exact ⟨a1, a2⟩
    · obtain ⟨b1, b2⟩ := ih a1 h
      exact ⟨b1, a2.trans b2⟩

theorem expandAll_ok {rec : List FCall} (hrec : ∀ c ∈ rec, R c) {reuse skip : Bool} {rounds : Nat} : ∀ {k size : Nat} {f g : CFrame}, Ready R F V f →
    f.expandAll rec reuse skip rounds k size = .ok g → Ready R F V g ∧ Grows (· ∈ rec) f g := by
  intro k
  induction k with
  | zero => intro size f g _ h; cases h
  | succ k ih =>
    intro size f g E h
    unfold expandAll at h
    obtain ⟨f1, h1, h⟩ := exBind_ok.1 h
    obtain ⟨f2, h2, h⟩ := exBind_ok.1 h
    obtain ⟨a1, a2⟩ := expandAllVars_ok hrec E h1
    obtain ⟨b1, b2⟩ := expandAllVars_ok hrec a1 h2
    simp only at h
    split at h
    · cases h; exact ⟨b1, a2.trans b2⟩
    · obtain ⟨c1, c2⟩ := ih b1 h
      exact ⟨c1, (a2.trans b2).trans c2⟩

end CFrame
end Verif
