import Verif.Proofs.TopSort
/-!
C47: the edges on paths between two nodes.
-/
namespace Verif.Props

open Verif

section
variable {K : Type} [DecidableEq K]

omit [DecidableEq K] in
theorem walk_append {E : K → K → Prop} {a b c : K} {p q : List (K × K)} (h : Walk E a p b) (h' : Walk E b q c) : Walk E a (p ++ q) c := by
  induction h with
  | nil => exact h'
  | cons hab _ ih => exact .cons hab (ih h')

omit [DecidableEq K] in
theorem walk_star {E : K → K → Prop} {a b : K} {p : List (K × K)} (h : Walk E a p b) : Star E a b := by
  induction h with
  | nil => exact .refl
  | cons hab _ ih => exact .head hab ih

omit [DecidableEq K] in
theorem walk_mem {E : K → K → Prop} {a b : K} {p : List (K × K)} (h : Walk E a p b) {x : K} (hx : x ∈ p.map (·.2)) :
    ∃ y, E a y ∧ Star E y x := by
  induction h with
  | nil => simp at hx
  | @cons a b c q hab hq ih =>
    rw [List.map_cons, List.mem_cons] at hx
    rcases hx with rfl | hx
    · exact ⟨_, hab, .refl⟩
    · obtain ⟨y, h1, h2⟩ := ih hx
      exact ⟨b, hab, .head h1 h2⟩

/-- In an acyclic graph every walk is simple. -/
theorem walk_simple {g : Graph K} (hac : g.Acyclic) {a b : K} {p : List (K × K)} (h : Walk g.Edge a p b) : SimplePath g.Edge a p b := by
  refine ⟨h, ?_⟩
  induction h with
  | nil => simp
  | @cons a b c q hab hq ih =>
    rw [List.nodup_cons]
    refine ⟨?_, ih⟩
    intro hx
    obtain ⟨y, h1, h2⟩ := walk_mem (.cons hab hq) hx
    exact hac a y h1 h2

/-! ### soundness: every edge returned lies on a walk -/

theorem mem_foldl_add {α : Type} [DecidableEq α] {l : List α} {s : List α} {x : α} : x ∈ l.foldl PySet.add s ↔ x ∈ s ∨ x ∈ l := PySet.mem_union

def OnWalks (g : Graph K) (start stop : K) (s : PathSt K) : Prop := ∀ e ∈ s.valid, ∃ q, Walk g.Edge start q stop ∧ e ∈ q

theorem pathLoop_sound {g : Graph K} {start stop : K} {rec : K → List (K × K) → PathSt K → Option (PathSt K)}
    (hrec : ∀ m path s s', Walk g.Edge start path m → OnWalks g start stop s → rec m path s = some s' → OnWalks g start stop s')
    (n : K) (path : List (K × K)) (hp : Walk g.Edge start path n) : ∀ (ms : List K) (s s' : PathSt K), (∀ m ∈ ms, g.Edge n m) →
    OnWalks g start stop s → pathLoop rec n path ms s = some s' → OnWalks g start stop s'
  | [], s, s', _, hs, h => by unfold pathLoop at h; cases h; exact hs
  | m :: ms, s, s', hm, hs, h => by
    have hw : Walk g.Edge start (path ++ [(n, m)]) m := walk_append hp (.cons (hm m (by simp)) .nil)
    have hms : ∀ m ∈ ms, g.Edge n m := fun x hx => hm x (List.mem_cons_of_mem _ hx)
    have hgo : (rec m (path ++ [(n, m)]) s).bind (pathLoop rec n path ms) = some s' → OnWalks g start stop s' := by
      intro h
      cases hr : rec m (path ++ [(n, m)]) s with
      | none => rw [hr] at h; cases h
      | some s1 =>
        rw [hr, Option.bind_some] at h
        exact pathLoop_sound hrec n path hp ms s1 s' hms (hrec m _ s s1 hw hs hr) h
    unfold pathLoop at h
    split at h
    · exact hgo h
    · split at h
      · exact hgo h
      · exact pathLoop_sound hrec n path hp ms s s' hms hs h

theorem pathDfs_sound {g : Graph K} {start stop : K} : ∀ (f : Nat) (n : K) (path : List (K × K)) (s s' : PathSt K),
    Walk g.Edge start path n → OnWalks g start stop s → pathDfs g stop f n path s = some s' → OnWalks g start stop s'
  | 0, _, _, _, _, _, _, h => by cases h
  | f + 1, n, path, s, s', hp, hs, h => by
    unfold pathDfs at h
    split at h
    · rename_i hn
      subst hn
      cases h
      intro e he
      rcases mem_foldl_add.1 he with he | he
      · exact hs e he
      · exact ⟨path, hp, he⟩
    · cases hl : pathLoop (pathDfs g stop f) n path (g.nbrs n) { s with visited := PySet.add s.visited n } with
      | none => rw [hl] at h; cases h
      | some s1 =>
        rw [hl, Option.map_some] at h
        cases h
        exact pathLoop_sound (fun m p s s' => pathDfs_sound f m p s s') n path hp (g.nbrs n) { s with visited := PySet.add s.visited n }
          s1 (fun m hm => hm) hs hl

/-- C47, any graph: if the search terminates, every edge returned lies on a walk from the start to the end.
Missing: the walk need not be simple, and the search need not terminate (`C47_refuted`, `C47_diverges`). -/
theorem C47_edges_on_walks_partial (g : Graph K) (f : Nat) (start stop : K) (es : List (K × K)) (h : edgesInPaths g f start stop = some es) :
    ∀ e ∈ es, ∃ q, Walk g.Edge start q stop ∧ e ∈ q := by
  unfold edgesInPaths at h
  cases hd : pathDfs g stop f start [] ⟨[], []⟩ with
  | none => rw [hd] at h; cases h
  | some s =>
    rw [hd, Option.map_some] at h
    cases h
    exact pathDfs_sound f start [] ⟨[], []⟩ s .nil (by intro e he; cases he) hd

/-! ### acyclic graphs -/

theorem pathLoop_acyclic {g : Graph K} {stop : K} {rec : K → List (K × K) → PathSt K → Option (PathSt K)} {V : List K}
    (n : K) (path : List (K × K))
    (hrec : ∀ m path valid, g.Edge n m → ∃ valid', rec m path ⟨V, valid⟩ = some ⟨V, valid'⟩ ∧
      ∀ e, e ∈ valid' ↔ e ∈ valid ∨ ∃ q, Walk g.Edge m q stop ∧ (e ∈ path ∨ e ∈ q)) :
    ∀ (ms : List K) (valid : List (K × K)), (∀ m ∈ ms, g.Edge n m ∧ m ∉ V) →
      ∃ valid', pathLoop rec n path ms ⟨V, valid⟩ = some ⟨V, valid'⟩ ∧
        ∀ e, e ∈ valid' ↔ e ∈ valid ∨ ∃ m ∈ ms, ∃ q, Walk g.Edge m q stop ∧ (e ∈ path ++ [(n, m)] ∨ e ∈ q)
  | [], valid, _ => ⟨valid, rfl, by simp⟩
  | m :: ms, valid, hm => by
    obtain ⟨h1, h2⟩ := hm m (by simp)
    obtain ⟨v1, h3, h4⟩ := hrec m (path ++ [(n, m)]) valid h1
    obtain ⟨v2, h5, h6⟩ := pathLoop_acyclic n path hrec ms v1 (fun x hx => hm x (List.mem_cons_of_mem _ hx))
    refine ⟨v2, ?_, ?_⟩
    · unfold pathLoop
      rw [if_pos h2, h3, Option.bind_some, h5]
    · intro e
      rw [h6, h4]
      constructor
      · rintro ((h | ⟨q, h7, h8⟩) | ⟨m', hm', h⟩)
        · exact .inl h
        · exact .inr ⟨m, by simp, q, h7, h8⟩
        · exact .inr ⟨m', List.mem_cons_of_mem _ hm', h⟩
      · rintro (h | ⟨m', hm', q, h7, h8⟩)
        · exact .inl (.inl h)
        · rcases List.mem_cons.1 hm' with rfl | hm'
          · exact .inl (.inr ⟨q, h7, h8⟩)
          · exact .inr ⟨m', hm', q, h7, h8⟩

theorem remove_add {V : List K} {n : K} (h : n ∉ V) : PySet.remove (PySet.add V n) n = V := by
  unfold PySet.remove PySet.add
  rw [if_neg h, List.filter_append]
  simp only [ne_eq, decide_not, List.filter_cons, decide_true, Bool.not_true, Bool.false_eq_true, if_false, List.filter_nil,
    List.append_nil]
  rw [List.filter_eq_self]
  intro a ha
  simp only [Bool.not_eq_eq_eq_not, Bool.not_true, decide_eq_false_iff_not]
  rintro rfl
  exact h ha

theorem pathDfs_acyclic {g : Graph K} (hac : g.Acyclic) {stop : K} : ∀ (f : Nat) (n : K) (path : List (K × K)) (V : List K)
    (valid : List (K × K)), (∀ v ∈ V, ∃ y, g.Edge v y ∧ Star g.Edge y n) → n ∈ g.mentioned → unvisited g V ≤ f →
    ∃ valid', pathDfs g stop f n path ⟨V, valid⟩ = some ⟨V, valid'⟩ ∧
      ∀ e, e ∈ valid' ↔ e ∈ valid ∨ ∃ q, Walk g.Edge n q stop ∧ (e ∈ path ∨ e ∈ q)
  | 0, n, path, V, valid, hV, hn, hf => by
    have hnV : n ∉ V := fun h => by obtain ⟨y, h1, h2⟩ := hV n h; exact hac n y h1 h2
    have : 0 < unvisited g V := List.countP_pos_iff.2 ⟨n, hn, by simpa using hnV⟩
    omega
  | f + 1, n, path, V, valid, hV, hn, hf => by
    have hnV : n ∉ V := fun h => by obtain ⟨y, h1, h2⟩ := hV n h; exact hac n y h1 h2
    unfold pathDfs
    by_cases hs : n = stop
    · subst hs
      rw [if_pos rfl]
      refine ⟨_, rfl, fun e => ?_⟩
      rw [mem_foldl_add]
      constructor
      · rintro (h | h)
        · exact .inl h
        · exact .inr ⟨[], .nil, .inl h⟩
      · rintro (h | ⟨q, h1, h2⟩)
        · exact .inl h
        · cases h1 with
          | nil => simpa using Or.inr h2
          | cons hab hw => exact absurd (walk_star hw) (hac _ _ hab)
    · rw [if_neg hs]
      have hV' : ∀ m, g.Edge n m → ∀ v ∈ PySet.add V n, ∃ y, g.Edge v y ∧ Star g.Edge y m := by
        intro m hm v hv
        rcases PySet.mem_add.1 hv with hv | rfl
        · obtain ⟨y, h1, h2⟩ := hV v hv
          exact ⟨y, h1, h2.tail hm⟩
        · exact ⟨m, hm, .refl⟩
      have hlt : unvisited g (PySet.add V n) < unvisited g V :=
        unvisited_lt (fun x hx => PySet.mem_add.2 (.inl hx)) hn hnV (PySet.mem_add.2 (.inr rfl))
      obtain ⟨v', h1, h2⟩ := pathLoop_acyclic (g := g) (stop := stop) (rec := pathDfs g stop f) (V := PySet.add V n) n path
        (fun m p v hm => pathDfs_acyclic hac f m p _ v (hV' m hm) (edge_mentioned hm) (by omega)) (g.nbrs n) valid
        (fun m hm => ⟨hm, fun h => by obtain ⟨y, h1, h2⟩ := hV' m hm m h; exact hac m y h1 h2⟩)
      refine ⟨v', ?_, fun e => ?_⟩
      · show Option.map _ (pathLoop (pathDfs g stop f) n path (g.nbrs n) ⟨PySet.add V n, valid⟩) = _
        rw [h1, Option.map_some]
        dsimp only
        rw [remove_add hnV]
      · rw [h2]
        constructor
        · rintro (h | ⟨m, hm, q, h3, h4⟩)
          · exact .inl h
          · refine .inr ⟨(n, m) :: q, .cons hm h3, ?_⟩
            simp only [List.mem_append, List.mem_cons, List.not_mem_nil, or_false] at h4 ⊢
            rcases h4 with (h4 | h4) | h4
            · exact .inl h4
            · exact .inr (.inl h4)
            · exact .inr (.inr h4)
        · rintro (h | ⟨q, h3, h4⟩)
          · exact .inl h
          · cases h3 with
            | nil => exact absurd rfl hs
            | @cons _ m _ q hab hw =>
              refine .inr ⟨m, hab, q, hw, ?_⟩
              simp only [List.mem_append, List.mem_cons, List.not_mem_nil, or_false] at h4 ⊢
              rcases h4 with h4 | h4 | h4
              · exact .inl (.inl h4)
              · exact .inl (.inr h4)
              · exact .inr h4

/-- C47 on acyclic graphs: the search terminates (recursion depth at most the number of nodes) and returns exactly the edges
that lie on a simple path from the start to the end.
Missing: cyclic graphs, where the claim is false (`C47_refuted`, `C47_diverges`). -/
theorem C47_edges_on_simple_paths_partial (g : Graph K) (hac : g.Acyclic) (start stop : K) (hs : start ∈ g.keys) (f : Nat)
    (hf : g.mentioned.length ≤ f) :
    ∃ es, edgesInPaths g f start stop = some es ∧ ∀ e, e ∈ es ↔ ∃ q, SimplePath g.Edge start q stop ∧ e ∈ q := by
  obtain ⟨v, h1, h2⟩ := pathDfs_acyclic hac (stop := stop) f start [] [] [] (by simp) (key_mentioned hs)
    (Nat.le_trans List.countP_le_length hf)
  refine ⟨v, by unfold edgesInPaths; rw [h1]; rfl, fun e => ?_⟩
  rw [h2]
  constructor
  · rintro (h | ⟨q, h3, h4⟩)
    · cases h
    · rcases h4 with h4 | h4
      · cases h4
      · exact ⟨q, walk_simple hac h3, h4⟩
  · rintro ⟨q, h3, h4⟩
    exact .inr ⟨q, h3.1, .inr h4⟩

end

/-- An acyclic graph with two paths and a dead end. -/
def dagGraph : Graph String := [("x", ["f", "g"]), ("f", ["y"]), ("g", ["y", "z"]), ("y", []), ("z", [])]

example : edgesInPaths dagGraph 9 "x" "y" = some [("x", "f"), ("f", "y"), ("x", "g"), ("g", "y")] := by decide +kernel

/-- `x → f → x` (an iterated function) and `x → g → y` -/
def loopGraph : Graph String := [("x", ["f", "g"]), ("f", ["x"]), ("g", ["y"]), ("y", [])]

/-- C47 is false: on a frame with a cycle, edges are returned that lie on no simple path (the cycle through the start). -/
theorem C47_refuted : ∃ es, edgesInPaths loopGraph 10 "x" "y" = some es ∧ ("f", "x") ∈ es ∧
    ¬ ∃ q, SimplePath loopGraph.Edge "x" q "y" ∧ ("f", "x") ∈ q := by
  refine ⟨_, rfl, by decide +kernel, ?_⟩
  rintro ⟨q, ⟨_, h⟩, h2⟩
  rw [List.nodup_cons] at h
  exact h.1 (List.mem_map.2 ⟨_, h2, rfl⟩)

/-- `x → f → x`, `x → g → x`, `f → y → g`: variables `x`, `y` and functions `f`, `g` of a frame, and an isolated `z`. -/
def divGraph : Graph String := [("x", ["f", "g"]), ("y", ["g"]), ("f", ["x", "y"]), ("g", ["x"]), ("z", [])]

section
variable {p : List (String × String)}

theorem div_step (k : Nat) (n : String) (p : List (String × String)) (s : PathSt String) (hn : n ≠ "z") :
    pathDfs divGraph "z" (k + 1) n p s =
      (pathLoop (pathDfs divGraph "z" k) n p (divGraph.nbrs n) ⟨PySet.add s.visited n, s.valid⟩).map
        fun s1 => ⟨PySet.remove s1.visited n, s1.valid⟩ := by
  rw [pathDfs, if_neg hn]

theorem loop_new {rec : String → List (String × String) → PathSt String → Option (PathSt String)} {n m : String} {ms : List String}
    {s : PathSt String} (h : m ∉ s.visited) : pathLoop rec n p (m :: ms) s = (rec m (p ++ [(n, m)]) s).bind (pathLoop rec n p ms) := by
  rw [pathLoop, if_pos h]

theorem loop_edge {rec : String → List (String × String) → PathSt String → Option (PathSt String)} {n m : String} {ms : List String}
    {s : PathSt String} (h : m ∈ s.visited) (hv : (n, m) ∉ s.valid) (h' : (n, m) ∉ p) :
    pathLoop rec n p (m :: ms) s = (rec m (p ++ [(n, m)]) s).bind (pathLoop rec n p ms) := by
  rw [pathLoop, if_neg (not_not_intro h), if_pos ⟨hv, h'⟩]

theorem loop_skip {rec : String → List (String × String) → PathSt String → Option (PathSt String)} {n m : String} {ms : List String}
    {s : PathSt String} (h : m ∈ s.visited) (h' : (n, m) ∈ p) : pathLoop rec n p (m :: ms) s = pathLoop rec n p ms s := by
  rw [pathLoop, if_neg (not_not_intro h), if_neg fun hc => hc.2 h']

/-- The search either runs out of fuel or comes back with the given set of visited nodes. -/
def Or2 (r : Option (PathSt String)) (V : List String) : Prop := r = none ∨ r = some ⟨V, []⟩

theorem div_x1 (k : Nat) (h1 : ("x", "f") ∈ p) (h2 : ("x", "g") ∈ p) : Or2 (pathDfs divGraph "z" k "x" p ⟨["g", "x", "f"], []⟩) ["g", "f"] := by
  cases k with
  | zero => exact .inl rfl
  | succ k =>
    right
    rw [div_step _ _ _ _ (by decide)]
    show Option.map _ (pathLoop _ _ _ ["f", "g"] ⟨["g", "x", "f"], []⟩) = _
    rw [loop_skip (by decide) h1, loop_skip (by decide) h2]
    rfl

theorem div_x2 (k : Nat) (h1 : ("x", "f") ∈ p) (h2 : ("x", "g") ∈ p) : Or2 (pathDfs divGraph "z" k "x" p ⟨["g", "f", "y"], []⟩) ["g", "f", "y"] := by
  cases k with
  | zero => exact .inl rfl
  | succ k =>
    right
    rw [div_step _ _ _ _ (by decide)]
    show Option.map _ (pathLoop _ _ _ ["f", "g"] ⟨["g", "f", "y", "x"], []⟩) = _
    rw [loop_skip (by decide) h1, loop_skip (by decide) h2]
    rfl

theorem div_g (k : Nat) (h1 : ("x", "f") ∈ p) (h2 : ("x", "g") ∈ p) : Or2 (pathDfs divGraph "z" k "g" p ⟨["g", "f", "y"], []⟩) ["f", "y"] := by
  cases k with
  | zero => exact .inl rfl
  | succ k =>
    rw [div_step _ _ _ _ (by decide)]
    show Or2 (Option.map _ (pathLoop _ _ _ ["x"] ⟨["g", "f", "y"], []⟩)) _
    rw [loop_new (by decide)]
    rcases div_x2 (p := p ++ [("g", "x")]) k (by simp [h1]) (by simp [h2]) with h | h <;> rw [h]
    · exact .inl rfl
    · exact .inr rfl

theorem div_y (k : Nat) (h1 : ("x", "f") ∈ p) (h2 : ("x", "g") ∈ p) (h3 : ("y", "g") ∉ p) :
    Or2 (pathDfs divGraph "z" k "y" p ⟨["g", "f"], []⟩) ["f"] := by
  cases k with
  | zero => exact .inl rfl
  | succ k =>
    rw [div_step _ _ _ _ (by decide)]
    show Or2 (Option.map _ (pathLoop _ _ _ ["g"] ⟨["g", "f", "y"], []⟩)) _
    rw [loop_edge (by decide) (by decide) h3]
    rcases div_g (p := p ++ [("y", "g")]) k (by simp [h1]) (by simp [h2]) with h | h <;> rw [h]
    · exact .inl rfl
    · exact .inr rfl

theorem div_f (k : Nat) (h1 : ("x", "f") ∈ p) (h2 : ("x", "g") ∈ p) (h3 : ("y", "g") ∉ p) (h4 : ("f", "x") ∉ p) :
    Or2 (pathDfs divGraph "z" k "f" p ⟨["g", "x"], []⟩) [] := by
  cases k with
  | zero => exact .inl rfl
  | succ k =>
    rw [div_step _ _ _ _ (by decide)]
    show Or2 (Option.map _ (pathLoop _ _ _ ["x", "y"] ⟨["g", "x", "f"], []⟩)) _
    rw [loop_edge (by decide) (by decide) h4]
    rcases div_x1 (p := p ++ [("f", "x")]) k (by simp [h1]) (by simp [h2]) with h | h <;> rw [h]
    · exact .inl rfl
    · rw [Option.bind_some, loop_new (by decide)]
      rcases div_y (p := p ++ [("f", "y")]) k (by simp [h1]) (by simp [h2]) (by simp [h3]) with h | h <;> rw [h]
      · exact .inl rfl
      · exact .inr rfl

/-- The search comes back to `g` with nothing marked as visited and a path of the same edges, over and over. -/
theorem div_loop : ∀ (k : Nat) (p : List (String × String)), ("x", "g") ∈ p → (∀ e ∈ p, e = ("x", "g") ∨ e = ("g", "x")) →
    pathDfs divGraph "z" k "g" p ⟨[], []⟩ = none
  | 0, _, _, _ => rfl
  | 1, p, _, _ => by
    rw [div_step _ _ _ _ (by decide)]
    show Option.map _ (pathLoop _ _ _ ["x"] ⟨["g"], []⟩) = _
    rw [loop_new (by decide)]
    rfl
  | k + 2, p, h1, h2 => by
    rw [div_step _ _ _ _ (by decide)]
    show Option.map _ (pathLoop _ _ _ ["x"] ⟨["g"], []⟩) = _
    rw [loop_new (by decide), div_step _ _ _ _ (by decide)]
    show Option.map _ (Option.bind (Option.map _ (pathLoop _ _ _ ["f", "g"] ⟨["g", "x"], []⟩)) _) = _
    rw [loop_new (by decide)]
    have hn : ∀ e : String × String, e ≠ ("x", "g") → e ≠ ("g", "x") → e ≠ ("x", "f") → e ∉ p ++ [("g", "x")] ++ [("x", "f")] := by
      intro e e1 e2 e3 he
      simp only [List.mem_append, List.mem_cons, List.not_mem_nil, or_false] at he
      rcases he with (he | he) | he
      · exact (h2 e he).elim e1 e2
      · exact e2 he
      · exact e3 he
    rcases div_f (p := p ++ [("g", "x")] ++ [("x", "f")]) k (by simp) (by simp [h1]) (hn _ (by decide) (by decide) (by decide))
      (hn _ (by decide) (by decide) (by decide)) with h | h <;> rw [h]
    · rfl
    · rw [Option.bind_some, loop_new (by decide), div_loop k (p ++ [("g", "x")] ++ [("x", "g")]) (by simp) (by
        intro e he
        simp only [List.mem_append, List.mem_cons, List.not_mem_nil, or_false] at he
        rcases he with (he | he) | he
        · exact h2 e he
        · exact .inr he
        · exact .inl he)]
      rfl

end

theorem pathLoop_mono {K : Type} [DecidableEq K] {r r' : K → List (K × K) → PathSt K → Option (PathSt K)}
    (h : ∀ n p s s', r n p s = some s' → r' n p s = some s') (n : K) (p : List (K × K)) : ∀ (ms : List K) (s s' : PathSt K),
    pathLoop r n p ms s = some s' → pathLoop r' n p ms s = some s'
  | [], _, _, hs => hs
  | m :: ms, s, s', hs => by
    have go : (r m (p ++ [(n, m)]) s).bind (pathLoop r n p ms) = some s' → (r' m (p ++ [(n, m)]) s).bind (pathLoop r' n p ms) = some s' := by
      intro hs
      cases hr : r m (p ++ [(n, m)]) s with
      | none => rw [hr] at hs; cases hs
      | some s1 =>
        rw [hr, Option.bind_some] at hs
        rw [h _ _ _ _ hr, Option.bind_some]
        exact pathLoop_mono h n p ms _ _ hs
    unfold pathLoop at hs ⊢
    split at hs
    · rename_i h1
      rw [if_pos h1]; exact go hs
    · rename_i h1
      rw [if_neg h1]
      split at hs
      · rename_i h2
        rw [if_pos h2]; exact go hs
      · rename_i h2
        rw [if_neg h2]; exact pathLoop_mono h n p ms _ _ hs

theorem pathDfs_mono {K : Type} [DecidableEq K] {g : Graph K} {stop : K} : ∀ (f : Nat) (n : K) (p : List (K × K)) (s s' : PathSt K),
    pathDfs g stop f n p s = some s' → pathDfs g stop (f + 1) n p s = some s'
  | 0, _, _, _, _, h => by cases h
  | f + 1, n, p, s, s', h => by
    unfold pathDfs at h ⊢
    split at h
    · rename_i h1; rw [if_pos h1]; exact h
    · rename_i h1
      rw [if_neg h1]
      cases hl : pathLoop (pathDfs g stop f) n p (g.nbrs n) { s with visited := PySet.add s.visited n } with
      | none => rw [hl] at h; cases h
      | some s1 =>
        rw [hl] at h
        rw [pathLoop_mono (fun n p s s' => pathDfs_mono f n p s s') n p _ _ s1 hl]
        exact h

theorem pathDfs_mono_le {K : Type} [DecidableEq K] {g : Graph K} {stop : K} {f f' : Nat} (h : f ≤ f') {n : K} {p : List (K × K)}
    {s s' : PathSt K} (hs : pathDfs g stop f n p s = some s') : pathDfs g stop f' n p s = some s' := by
  induction h with
  | refl => exact hs
  | step _ ih => exact pathDfs_mono _ _ _ _ _ ih

/-- C47 also fails in a worse way: on a frame with two interleaved cycles the search never ends, whatever the recursion depth. -/
theorem C47_diverges (k : Nat) : edgesInPaths divGraph k "x" "z" = none := by
  cases hs : edgesInPaths divGraph k "x" "z" with
  | none => rfl
  | some es =>
    exfalso
    unfold edgesInPaths at hs
    cases hd : pathDfs divGraph "z" k "x" [] ⟨[], []⟩ with
    | none => rw [hd] at hs; cases hs
    | some s =>
      have h := pathDfs_mono_le (show k ≤ (k + 8) + 1 by omega) hd
      rw [div_step _ _ _ _ (by decide)] at h
      change Option.map _ (pathLoop _ _ _ ["f", "g"] ⟨["x"], []⟩) = _ at h
      have hf : pathDfs divGraph "z" (k + 8) "f" [("x", "f")] ⟨["x"], []⟩ = some ⟨[], []⟩ :=
        pathDfs_mono_le (show 8 ≤ k + 8 by omega) (by decide +kernel)
      rw [loop_new (by decide), show [] ++ [("x", "f")] = [("x", "f")] from rfl, hf, Option.bind_some, loop_new (by decide),
        div_loop _ _ (by decide) (by decide)] at h
      cases h

end Verif.Props
