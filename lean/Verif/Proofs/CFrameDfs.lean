import Verif.Model.CFrameReach
import Verif.Proofs.CFrame
import Verif.Basic.Star
/-!
`get_reachable_nodes` visits exactly the nodes reachable in the graph.
-/
namespace Verif

open Props

namespace CFrame

variable {nb : String → Except Err (List String)}

/-- `b` is among the neighbours of `a`. -/
def Nbr (nb : String → Except Err (List String)) (a b : String) : Prop := ∃ ns, nb a = .ok ns ∧ b ∈ ns

/-- What a visit does: `v'` has the visited nodes `v`, the start nodes and only nodes reachable from these, and the
neighbours of all that is new. -/
structure Visits (nb : String → Except Err (List String)) (v v' : List String) (starts : List String) : Prop where
  keep : ∀ x ∈ v, x ∈ v'
  start : ∀ x ∈ starts, x ∈ v'
  sound : ∀ x ∈ v', x ∈ v ∨ ∃ s ∈ starts, Star (Nbr nb) s x
  closed : ∀ x ∈ v', x ∉ v → ∀ y, Nbr nb x y → y ∈ v'

theorem visits_fold {F : List String → String → Except Err (List String)} {ms : List String}
    (hF : ∀ v v' m, F v m = .ok v' → Visits nb v v' [m]) : ∀ {v v'}, ms.foldlM F v = .ok v' → Visits nb v v' ms := by
  induction ms with
  | nil =>
    intro v v' h
    cases h
    exact ⟨fun _ h => h, by simp, fun x h => .inl h, fun x h h' => absurd h h'⟩
  | cons m ms ih =>
    intro v v' h
    rw [List.foldlM_cons, exBind_ok] at h
    obtain ⟨w, hw, h⟩ := h
    have A := hF _ _ _ hw
    have B := ih h
    refine ⟨fun x hx => B.keep x (A.keep x hx), ?_, ?_, ?_⟩
    · intro x hx
      rcases List.mem_cons.1 hx with rfl | hx
      · exact B.keep x (A.start x (by simp))
      · exact B.start x hx
    · intro x hx
      rcases B.sound x hx with h1 | ⟨s, hs, h1⟩
      · rcases A.sound x h1 with h2 | ⟨s, hs, h2⟩
        · exact .inl h2
        · exact .inr ⟨s, by simp_all, h2⟩
      · exact .inr ⟨s, by simp [hs], h1⟩
    · intro x hx hxv y hy
      by_cases hxw : x ∈ w
      · exact B.keep y (A.closed x hxw hxv y hy)
      · exact B.closed x hx hxw y hy

theorem dfs_visits {k : Nat} : ∀ {v v' : List String} {n : String}, dfs nb k v n = .ok v' →
    Visits nb v v' [n] ∧ ∀ y, Nbr nb n y → y ∈ v' := by
  induction k with
  | zero => intro v v' n h; cases h
  | succ k ih =>
    intro v v' n h
    rw [dfs, exBind_ok] at h
    obtain ⟨ns, hns, h⟩ := h
    have A : Visits nb (PySet.add v n) v' ns := by
      refine visits_fold (fun w w' m hm => ?_) h
      split at hm
      · rename_i hmw
        cases hm
        refine ⟨fun _ h => h, ?_, fun x h => .inl h, fun x h h' => absurd h h'⟩
        intro x hx
        rw [List.mem_singleton.1 hx]
        exact hmw
      · exact (ih hm).1
    have hn : ∀ y, Nbr nb n y → y ∈ v' := by
      rintro y ⟨ns', hns', hy⟩
      rw [hns] at hns'
      cases hns'
      exact A.start y hy
    refine ⟨⟨fun x hx => A.keep x (PySet.mem_add.2 (.inl hx)), ?_, ?_, ?_⟩, hn⟩
    · intro x hx
      exact A.keep x (PySet.mem_add.2 (.inr (List.mem_singleton.1 hx)))
    · intro x hx
      rcases A.sound x hx with h1 | ⟨s, hs, h1⟩
      · rcases PySet.mem_add.1 h1 with h2 | rfl
        · exact .inl h2
        · exact .inr ⟨x, by simp, .refl⟩
      · exact .inr ⟨n, by simp, .head ⟨ns, hns, hs⟩ h1⟩
    · intro x hx hxv y hy
      by_cases e : x = n
      · subst e; exact hn y hy
      · exact A.closed x hx (by rw [PySet.mem_add]; exact fun h => h.elim hxv e) y hy

/-- Nodes of `N` not yet visited. -/
def unvisited (N v : List String) : Nat := N.countP (fun x => decide (x ∉ v))

theorem unvisited_mono {N v v' : List String} (h : ∀ x ∈ v, x ∈ v') : unvisited N v' ≤ unvisited N v := by
  refine List.countP_mono_left fun x _ hx => ?_
  rw [decide_eq_true_eq] at hx ⊢
  exact fun h' => hx (h x h')

theorem unvisited_add {N v : List String} {m : String} (hm : m ∈ N) (hv : m ∉ v) : unvisited N (PySet.add v m) < unvisited N v := by
  refine countP_lt_of_imp _ _ _ ?_ m hm (by simpa using hv) ?_
  · intro x _ hx
    rw [decide_eq_true_eq] at hx ⊢
    exact fun h' => hx (PySet.mem_add.2 (.inl h'))
  · rw [decide_eq_false_iff_not]
    exact fun h => h (PySet.mem_add.2 (.inr rfl))

theorem dfs_total {N : List String} (hN : ∀ n ∈ N, ∃ ns, nb n = .ok ns ∧ ∀ m ∈ ns, m ∈ N) {k : Nat} : ∀ {v : List String} {n : String}, n ∈ N →
    unvisited N (PySet.add v n) < k → ∃ v', dfs nb k v n = .ok v' := by
  induction k with
  | zero => intro v n _ h; omega
  | succ k ih =>
    intro v n hn hk
    obtain ⟨ns, hns, hsub⟩ := hN n hn
    have key : ∀ (ms : List String), (∀ m ∈ ms, m ∈ N) → ∀ w, (∀ x ∈ PySet.add v n, x ∈ w) →
        ∃ w', ms.foldlM (fun vis m => if m ∈ vis then .ok vis else dfs nb k vis m) w = .ok w' := by
      intro ms
      induction ms with
      | nil => intro _ w _; exact ⟨w, rfl⟩
      | cons m ms ihm =>
        intro hms w hw
        rw [List.foldlM_cons]
        by_cases hm : m ∈ w
        · rw [if_pos hm]
          exact ihm (fun x hx => hms x (by simp [hx])) w hw
        · rw [if_neg hm]
          have h1 := unvisited_add (hms m (by simp)) hm
          have h2 := unvisited_mono (N := N) hw
          obtain ⟨w', hw'⟩ := ih (hms m (by simp)) (v := w) (by omega)
          rw [hw']
          exact ihm (fun x hx => hms x (by simp [hx])) w' (fun x hx => (dfs_visits hw').1.keep x (hw x hx))
    obtain ⟨w', h⟩ := key ns hsub _ (fun _ h => h)
    refine ⟨w', ?_⟩
    rw [dfs]
    simp only [hns, bind, Except.bind]
    exact h

variable {f : CFrame}

theorem nbr_back {a b : String} : Nbr (f.neighborsIn .back) a b ↔ ∃ l, InAdj f.inp a l b := by
  unfold Nbr neighborsIn inNeighbors InAdj
  simp only [exBind_ok, getE_ok]
  constructor
  · rintro ⟨ns, ⟨i, hi, h⟩, hb⟩
    cases h
    obtain ⟨l, hl⟩ := mem_valsUnion.1 hb
    exact ⟨l, i, hi, hl⟩
  · rintro ⟨l, i, hi, hl⟩
    exact ⟨_, ⟨i, hi, rfl⟩, mem_valsUnion.2 ⟨l, hl⟩⟩

theorem nbr_forward {a b : String} : Nbr (f.neighborsIn .forward) a b ↔ ∃ l, InAdj f.out a l b := by
  unfold Nbr neighborsIn outNeighbors InAdj
  simp only [exBind_ok, getE_ok]
  constructor
  · rintro ⟨ns, ⟨i, hi, h⟩, hb⟩
    cases h
    obtain ⟨l, hl⟩ := mem_valsUnion.1 hb
    exact ⟨l, i, hi, hl⟩
  · rintro ⟨l, i, hi, hl⟩
    exact ⟨_, ⟨i, hi, rfl⟩, mem_valsUnion.2 ⟨l, hl⟩⟩

/-- An edge, traversed in the direction. -/
def Step (f : CFrame) (dir : Side) (a b : String) : Prop :=
  match dir with
  | .forward => ∃ l, f.HasEdge a b l
  | .back => ∃ l, f.HasEdge b a l

theorem nbr_step (G : GraphWf f) {dir : Side} {a b : String} : Nbr (f.neighborsIn dir) a b ↔ Step f dir a b := by
  cases dir
  · simp only [nbr_back, Step, HasEdge, G.sym]
  · exact nbr_forward

theorem nbr_total (G : GraphWf f) {dir : Side} : ∀ n ∈ f.nodes, ∃ ns, f.neighborsIn dir n = .ok ns ∧ ∀ m ∈ ns, m ∈ f.nodes := by
  intro n hn
  rw [mem_nodes] at hn
  have hb : ∀ ns, f.neighborsIn dir n = .ok ns → ∀ m ∈ ns, m ∈ f.nodes := by
    intro ns hns m hm
    have := (nbr_step G).1 ⟨ns, hns, hm⟩
    rw [mem_nodes]
    cases dir
    · obtain ⟨l, hl⟩ := this
      exact (G.outKey m).1 (inAdj_key hl)
    · obtain ⟨l, hl⟩ := this
      exact (G.inpKey m).1 (inAdj_key ((G.sym _ _ _).1 hl))
  cases dir
  · obtain ⟨i, hi⟩ := Dict.mem_keys.1 ((G.inpKey n).2 hn)
    have e : f.neighborsIn .back n = .ok (valsUnion i) := by
      simp only [neighborsIn, inNeighbors, getE_ok.2 hi, bind, Except.bind]
    exact ⟨_, e, hb _ e⟩
  · obtain ⟨i, hi⟩ := Dict.mem_keys.1 ((G.outKey n).2 hn)
    have e : f.neighborsIn .forward n = .ok (valsUnion i) := by
      simp only [neighborsIn, outNeighbors, getE_ok.2 hi, bind, Except.bind]
    exact ⟨_, e, hb _ e⟩

theorem reachableNodes_spec (G : GraphWf f) {ns : List String} (hns : ∀ n ∈ ns, n ∈ f.nodes) (dir : Side) :
    ∃ vis, f.reachableNodes ns dir = .ok vis ∧ ∀ x, x ∈ vis ↔ ∃ n ∈ ns, Star (Step f dir) n x := by
  have tot : ∀ (ms : List String), (∀ m ∈ ms, m ∈ f.nodes) → ∀ w,
      ∃ w', ms.foldlM (dfs (f.neighborsIn dir) (f.nodes.length + 1)) w = .ok w' := by
    intro ms
    induction ms with
    | nil => intro _ w; exact ⟨w, rfl⟩
    | cons m ms ih =>
      intro hm w
      have : unvisited f.nodes (PySet.add w m) < f.nodes.length + 1 := by
        have := List.countP_le_length (p := fun x => decide (x ∉ PySet.add w m)) (l := f.nodes)
        unfold unvisited
        omega
      obtain ⟨w', hw'⟩ := dfs_total (nbr_total G) (hm m (by simp)) this
      rw [List.foldlM_cons, hw']
      exact ih (fun x hx => hm x (by simp [hx])) w'
  obtain ⟨vis, hv⟩ := tot ns hns []
  refine ⟨vis, hv, ?_⟩
  have V := visits_fold (nb := f.neighborsIn dir) (fun _ _ _ h => (dfs_visits h).1) hv
  intro x
  constructor
  · intro hx
    rcases V.sound x hx with h | ⟨s, hs, h⟩
    · cases h
    · exact ⟨s, hs, h.mono fun _ _ h => (nbr_step G).1 h⟩
  · rintro ⟨n, hn, h⟩
    exact h.closed (P := fun x => x ∈ vis) (V.start n hn) fun a b ha hab => V.closed a ha (by simp) b ((nbr_step G).2 hab)

end CFrame
end Verif
