import Verif.Proofs.CFrameMerge
import Verif.Proofs.CFrameReach
import Verif.Props.Frame
/-!
C59: merging variables.
-/
namespace Verif.Props

open Verif CFrame Ex

/-- C59: merging a variable into another one (in place) succeeds in every well-formed frame. The result is well formed, has
the same functions with the same calls and the same values altogether; the values and edges of the merged variable are now
those of the other. -/
theorem C59_merge_into {R : FCall → Prop} {f : CFrame} (H : Wf R f) {a b : String} (ha : f.IsVar a) (hb : f.IsVar b) (hab : a ≠ b) :
    ∃ g, f.mergeInto a b = .ok g ∧ Wf R g ∧ g.check = true ∧ (∀ v, g.IsVar v ↔ f.IsVar v ∧ v ≠ a) ∧ (∀ n, g.IsFunc n ↔ f.IsFunc n) ∧
      (∀ n h, g.HasCall n h ↔ f.HasCall n h) ∧ (∀ v h, g.HasRef v h ↔ v ≠ a ∧ (f.HasRef v h ∨ (v = b ∧ f.HasRef a h))) ∧
      (∀ h, (∃ v, g.HasRef v h) ↔ ∃ v, f.HasRef v h) ∧
      (∀ s d l, g.HasEdge s d l ↔ (f.HasEdge s d l ∧ s ≠ a ∧ d ≠ a) ∨ (d = b ∧ f.HasEdge s a l) ∨ (s = b ∧ f.HasEdge a d l)) := by
  obtain ⟨g, g1, g2, g3, g4, g5, g6, g7, _⟩ := mergeInto_spec H ha hb hab
  refine ⟨g, g1, g2, check_iff.2 g2.consistent, g3, g4, g6, g5, fun h => ⟨?_, ?_⟩, g7⟩
  · rintro ⟨v, hv⟩
    rcases (g5 v h).1 hv with ⟨_, h' | ⟨_, h'⟩⟩
    · exact ⟨v, h'⟩
    · exact ⟨a, h'⟩
  · rintro ⟨v, hv⟩
    by_cases e : v = a
    · exact ⟨b, (g5 b h).2 ⟨Ne.symm hab, .inr ⟨rfl, e ▸ hv⟩⟩⟩
    · exact ⟨v, (g5 v h).2 ⟨e, .inl hv⟩⟩

example : frameFG.IsVar "var_0" ∧ frameFG.IsVar "o" := by decide +kernel
/-- The outputs of `f` and `g` merged into one variable. -/
example : (frameFG.mergeInto "var_0" "o").toOption.map (fun g => (g.vs, g.check)) = some ([("a", ["x"]), ("o", ["z", "y"])], true) := by decide +kernel
example : (frameFG.mergeInto "var_0" "o").toOption.map edges = some [("f", "o", "output_0"), ("a", "f", "a"), ("a", "g", "a"), ("a", "g", "b"), ("g", "o", "output_0")] := by
  decide +kernel

/-! ### all variables -/

/-- The values of `v` are some, but not all, of those of `w`. -/
def Below (f : CFrame) (v w : String) : Prop := f.IsVar v ∧ f.IsVar w ∧ (∀ h, f.HasRef v h → f.HasRef w h) ∧ ∃ h, f.HasRef w h ∧ ¬ f.HasRef v h

theorem below_iff {f : CFrame} {v w : String} (hv : f.IsVar v) (hw : f.IsVar w) :
    Below f v w ↔ v ≠ w ∧ PySet.subset (getOr f.vs v) (getOr f.vs w) = true ∧ setLen (getOr f.vs v) < setLen (getOr f.vs w) := by
  rw [PySet.subset_iff]
  constructor
  · rintro ⟨_, _, h1, h, hh, hn⟩
    refine ⟨?_, fun x hx => mem_getOr.2 (h1 x (mem_getOr.1 hx)), ?_⟩
    · rintro rfl; exact hn hh
    · unfold setLen
      apply Classical.byContradiction
      intro hlt
      have := nodup_subset_of_length (PySet.nodup_ofList (getOr f.vs v)) (t := PySet.ofList (getOr f.vs w))
        (fun x hx => PySet.mem_ofList.2 (mem_getOr.2 (h1 x (mem_getOr.1 (PySet.mem_ofList.1 hx))))) (by omega) h (PySet.mem_ofList.2 (mem_getOr.2 hh))
      exact hn (mem_getOr.1 (PySet.mem_ofList.1 this))
  · rintro ⟨_, h1, h2⟩
    refine ⟨hv, hw, fun h hh => mem_getOr.1 (h1 h (mem_getOr.2 hh)), ?_⟩
    apply Classical.byContradiction
    intro hne
    have : setLen (getOr f.vs w) ≤ setLen (getOr f.vs v) := nodup_subset_length (PySet.nodup_ofList _) (fun x hx => by
      rw [PySet.mem_ofList] at hx ⊢
      apply Classical.byContradiction
      intro hn
      exact hne ⟨x, mem_getOr.1 hx, fun h => hn (mem_getOr.2 h)⟩)
    omega

theorem mergePair_none {f : CFrame} (h : f.mergePair = none) (v w : String) : ¬ Below f v w := by
  intro hb
  unfold mergePair at h
  rw [List.find?_eq_none] at h
  have := h (v, w) (List.mem_flatMap.2 ⟨v, hb.1, List.mem_map.2 ⟨w, hb.2.1, rfl⟩⟩)
  exact this (decide_eq_true ((below_iff hb.1 hb.2.1).1 hb))

theorem mergePair_some {f : CFrame} {v w : String} (h : f.mergePair = some (v, w)) : Below f v w := by
  unfold mergePair at h
  have h1 := List.find?_some h
  have h2 := List.mem_of_find?_eq_some h
  obtain ⟨v', hv, h2⟩ := List.mem_flatMap.1 h2
  obtain ⟨w', hw, h2⟩ := List.mem_map.1 h2
  cases h2
  exact (below_iff hv hw).2 (of_decide_eq_true h1)

theorem Below.trans {f : CFrame} {u v w : String} (h : Below f u v) (h' : Below f v w) : Below f u w := by
  obtain ⟨h1, _, h2, x, hx, hn⟩ := h
  obtain ⟨_, h3, h4, _⟩ := h'
  exact ⟨h1, h3, fun y hy => h4 y (h2 y hy), x, h4 x hx, hn⟩

/-- What has become of the variables after some rounds. -/
structure Merged (f g : CFrame) : Prop where
  isVar : ∀ v, g.IsVar v → f.IsVar v
  gone : ∀ v, f.IsVar v → ¬ g.IsVar v → ∃ w, g.IsVar w ∧ Below f v w
  hasRef : ∀ v h, g.HasRef v h ↔ g.IsVar v ∧ f.HasRef v h
  isFunc : ∀ n, g.IsFunc n ↔ f.IsFunc n
  hasCall : ∀ n h, g.HasCall n h ↔ f.HasCall n h

theorem mergeVarsLoop_spec {R : FCall → Prop} : ∀ (k : Nat) {f : CFrame}, Wf R f → setLen f.vs.keys < k →
    ∃ g, mergeVarsLoop k f = .ok g ∧ Wf R g ∧ Merged f g ∧ ∀ v w, ¬ Below g v w := by
  intro k
  induction k with
  | zero => intro f _ h; omega
  | succ k ih =>
    intro f H hk
    unfold mergeVarsLoop
    cases hp : f.mergePair with
    | none =>
      exact ⟨f, rfl, H, ⟨fun _ h => h, fun v h h' => absurd h h', fun v h => ⟨fun h => ⟨h.key, h⟩, fun h => h.2⟩, fun _ => Iff.rfl, fun _ _ => Iff.rfl⟩,
        mergePair_none hp⟩
    | some p =>
      obtain ⟨v, w⟩ := p
      have hb := mergePair_some hp
      have hvw : v ≠ w := fun e => by
        obtain ⟨_, _, _, x, h1, h2⟩ := hb
        exact h2 (e ▸ h1)
      obtain ⟨g, g1, g2, g3, g4, g5, g6, _⟩ := mergeInto_spec H hb.1 hb.2.1 hvw
      have hg : ∀ u h, g.HasRef u h ↔ g.IsVar u ∧ f.HasRef u h := by
        intro u h
        rw [g5, g3]
        constructor
        · rintro ⟨h1, h2 | ⟨rfl, h2⟩⟩
          · exact ⟨⟨h2.key, h1⟩, h2⟩
          · exact ⟨⟨hb.2.1, h1⟩, hb.2.2.1 h h2⟩
        · rintro ⟨⟨h1, h2⟩, h3⟩
          exact ⟨h2, .inl h3⟩
      have hlt : setLen g.vs.keys < setLen f.vs.keys := by
        unfold setLen
        have hsub : ∀ x ∈ PySet.ofList g.vs.keys, x ∈ PySet.ofList f.vs.keys := fun x hx => by
          rw [PySet.mem_ofList] at hx ⊢
          exact ((g3 x).1 hx).1
        apply Classical.byContradiction
        intro hn
        have := nodup_subset_of_length (PySet.nodup_ofList g.vs.keys) hsub (by omega) v (PySet.mem_ofList.2 hb.1)
        exact ((g3 v).1 (PySet.mem_ofList.1 this)).2 rfl
      obtain ⟨k', k1, k2, M, k4⟩ := ih g2 (by omega)
      simp only [g1, bind, Except.bind]
      rw [if_neg (by omega)]
      refine ⟨k', k1, k2, ⟨?_, ?_, ?_, ?_, ?_⟩, k4⟩
      · exact fun u hu => ((g3 u).1 (M.isVar u hu)).1
      · have lift : ∀ u u', Below g u u' → Below f u u' := by
          rintro u u' ⟨h1, h2, h3, x, h4, h5⟩
          refine ⟨((g3 u).1 h1).1, ((g3 u').1 h2).1, fun h hh => ((hg u' h).1 (h3 h ((hg u h).2 ⟨h1, hh⟩))).2, x, ((hg u' x).1 h4).2, fun hc => h5 ((hg u x).2 ⟨h1, hc⟩)⟩
        intro u hu hn
        by_cases e : u = v
        · subst e
          by_cases hw' : k'.IsVar w
          · exact ⟨w, hw', hb⟩
          · obtain ⟨w', h1, h2⟩ := M.gone w ((g3 w).2 ⟨hb.2.1, Ne.symm hvw⟩) hw'
            exact ⟨w', h1, hb.trans (lift _ _ h2)⟩
        · obtain ⟨w', h1, h2⟩ := M.gone u ((g3 u).2 ⟨hu, e⟩) hn
          exact ⟨w', h1, lift _ _ h2⟩
      · intro u h
        rw [M.hasRef, hg]
        exact ⟨fun h => ⟨h.1, h.2.2⟩, fun h => ⟨h.1, M.isVar u h.1, h.2⟩⟩
      · exact fun n => (M.isFunc n).trans (g4 n)
      · exact fun n h => (M.hasCall n h).trans (g6 n h)

/-- C59 (partial, see the refutation): `merge_vars` ends for every well-formed frame, in a well-formed frame with the same functions, calls and values, whose
variables are exactly those not contained in a larger one, with the values they had. -/
theorem C59_merge_vars_partial {R : FCall → Prop} {f : CFrame} (H : Wf R f) :
    ∃ g, f.mergeVars = .ok g ∧ Wf R g ∧ g.check = true ∧ (∀ v, g.IsVar v ↔ f.IsVar v ∧ ∀ w, ¬ Below f v w) ∧
      (∀ v h, g.HasRef v h ↔ g.IsVar v ∧ f.HasRef v h) ∧ (∀ h, (∃ v, g.HasRef v h) ↔ ∃ v, f.HasRef v h) ∧
      (∀ n, g.IsFunc n ↔ f.IsFunc n) ∧ ∀ n h, g.HasCall n h ↔ f.HasCall n h := by
  obtain ⟨g, g1, g2, M, g4⟩ := mergeVarsLoop_spec (setLen f.vs.keys + 1) H (by omega)
  refine ⟨g, g1, g2, check_iff.2 g2.consistent, fun v => ⟨?_, ?_⟩, M.hasRef, fun h => ⟨?_, ?_⟩, M.isFunc, M.hasCall⟩
  · intro hv
    refine ⟨M.isVar v hv, fun w hb => ?_⟩
    have push : ∀ w, g.IsVar w → ¬ Below f v w := by
      rintro w hw ⟨_, _, h1, x, h2, h3⟩
      exact g4 v w ⟨hv, hw, fun h hh => (M.hasRef w h).2 ⟨hw, h1 h ((M.hasRef v h).1 hh).2⟩, x, (M.hasRef w x).2 ⟨hw, h2⟩,
        fun hc => h3 ((M.hasRef v x).1 hc).2⟩
    by_cases hw : g.IsVar w
    · exact push w hw hb
    · obtain ⟨w', h1, h2⟩ := M.gone w hb.2.1 hw
      exact push w' h1 (hb.trans h2)
  · rintro ⟨hv, hn⟩
    apply Classical.byContradiction
    intro hg
    obtain ⟨w, _, hb⟩ := M.gone v hv hg
    exact hn w hb
  · rintro ⟨v, hv⟩
    exact ⟨v, ((M.hasRef v h).1 hv).2⟩
  · rintro ⟨v, hv⟩
    by_cases hg : g.IsVar v
    · exact ⟨v, (M.hasRef v h).2 ⟨hg, hv⟩⟩
    · obtain ⟨w, hw, hb⟩ := M.gone v hv.key hg
      exact ⟨w, (M.hasRef w h).2 ⟨hw, hb.2.2.1 h hv⟩⟩

namespace Ex
/-- three variables in a chain of inclusions, one of them an input of `f` -/
def chain : List FOp := buildF ++ [.addVar "b", .addRef "b" x, .addRef "b" y, .addVar "c", .addRef "c" x, .addRef "c" y, .addRef "c" z]
def frameChain : CFrame := ((runOps {} chain).toOption).getD {}
theorem wf_chain : Wf (· ∈ recd) frameChain := wf_builds recOk wf_empty (builds_of (by decide +kernel : buildB recd {} chain = some frameChain))
end Ex

example : frameChain.mergeVars.toOption.map (fun g => (g.vs, g.check)) = some ([("c", ["x", "y", "z"])], true) := by decide +kernel
example : frameChain.mergeVars.toOption.map edges = some [("f", "c", "output_0"), ("c", "f", "a")] := by decide +kernel

/-- Refutation of the documented effect "until no such intersections are found" (cf.py lines 2005-2006): overlapping variables
without inclusion, and variables with the same values, stay. -/
theorem C59_refuted_intersections :
    let f := ((runOps {} [.addVar "u", .addRef "u" x, .addVar "v", .addRef "v" x, .addRef "v" y, .addVar "w", .addRef "w" y, .addRef "w" z, .addVar "u2", .addRef "u2" x]).toOption).getD {}
    f.mergeVars.toOption.map (·.vs) = some [("v", ["x", "y"]), ("w", ["y", "z"])] ∧
    let f := ((runOps {} [.addVar "v", .addRef "v" x, .addVar "w", .addRef "w" x]).toOption).getD {}
    f.mergeVars.toOption.map (·.vs) = some [("v", ["x"]), ("w", ["x"])] := by decide +kernel

end Verif.Props
