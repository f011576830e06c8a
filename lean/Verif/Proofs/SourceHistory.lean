import Verif.Spec.SourceHistory
import Verif.Props.CodeHistory
/-!
Printing the tree of commits.
-/
namespace Verif
namespace Dag

variable {K C : Type} [DecidableEq K] {hash : C → K}

theorem Grown.nodup {l : Dict K (Commit K C)} {r : K} (hg : Grown hash l r) : l.keys.Nodup := by
  induction hg with
  | root c => simp [Dict.keys]
  | snoc c hc h ho b _ hn _ ih =>
    simp only [Dict.keys, List.map_append, List.map_cons, List.map_nil] at hn ih ⊢
    refine List.nodup_append.2 ⟨ih, by simp, fun a ha b hb => ?_⟩
    simp only [List.mem_cons, List.not_mem_nil, or_false] at hb
    rintro rfl
    exact hn (hb ▸ ha)

theorem Grown.index {l : Dict K (Commit K C)} {r : K} (hg : Grown hash l r) :
    ∃ idx : K → Nat, (∀ a b, ParentIn l a b → idx b < idx a) ∧ ∀ a ∈ l.keys, idx a < l.length := by
  induction hg with
  | root c =>
    refine ⟨fun _ => 0, ?_, by simp⟩
    rintro a b ⟨o, h, hb⟩
    rw [Dict.get?_cons] at h
    split at h
    · cases h; cases hb
    · cases h
  | @snoc l r c hc h ho b hg hn hget ih =>
    obtain ⟨idx, ih, ih'⟩ := ih
    refine ⟨fun k => if k = hash c then l.length else idx k, ?_, fun a ha => ?_⟩
    · rintro x y ⟨o, hx, hy⟩
      rw [get?_snoc hn] at hx
      split at hx
      · rename_i he
        subst he
        cases hx
        simp only [List.mem_cons, List.not_mem_nil, or_false] at hy
        subst hy
        have hk := Dict.mem_keys.2 ⟨_, hget⟩
        have : y ≠ hash c := by rintro rfl; exact hn hk
        simpa [this] using ih' y hk
      · rename_i he
        have hp : y ∈ l.keys := by
          rcases (hg.entries.2 x o hx).shape with h1 | ⟨_, p, po, df, h1, _, h3, _⟩
          · rw [h1.2.1] at hy; cases hy
          · rw [h1] at hy
            simp only [List.mem_cons, List.not_mem_nil, or_false] at hy
            exact Dict.mem_keys.2 ⟨po, hy ▸ h3⟩
        have hy' : y ≠ hash c := by rintro rfl; exact hn hp
        dsimp only
        rw [if_neg hy', if_neg (Ne.symm he)]
        exact ih x y ⟨o, hx, hy⟩
    · dsimp only
      split
      · simp
      · rename_i hne
        simp only [Dict.keys, List.map_append, List.mem_append, List.map_cons, List.map_nil, List.mem_cons, List.not_mem_nil, or_false] at ha
        have := ih' a (ha.resolve_right hne)
        rw [List.length_append]
        omega

theorem parent_iff {d : Dag K C} {r : K} (hg : Grown hash d.commits r) {k p : K} : d.Parent k p ↔ ParentIn d.commits k p := by
  constructor
  · rintro ⟨o, h1, h2⟩
    exact ⟨o, h1, by rw [h2]; simp⟩
  · rintro ⟨o, h1, h2⟩
    refine ⟨o, h1, ?_⟩
    rcases (hg.entries.2 k o h1).shape with h | ⟨_, q, _, _, h, _⟩
    · rw [h.2.1] at h2; cases h2
    · rw [h] at h2 ⊢
      simp only [List.mem_cons, List.not_mem_nil, or_false] at h2
      rw [h2]

theorem Parent.unique {d : Dag K C} {k p q : K} (h : d.Parent k p) (h' : d.Parent k q) : p = q := by
  obtain ⟨o, h1, h2⟩ := h
  obtain ⟨o', h3, h4⟩ := h'
  rw [h1] at h3
  cases h3
  rw [h2] at h4
  exact (List.cons.inj h4).1

theorem Parent.key {d : Dag K C} {k p : K} (h : d.Parent k p) : k ∈ d.commits.keys := by
  obtain ⟨o, h1, _⟩ := h
  exact Dict.mem_keys.2 ⟨o, h1⟩

/-- With one parent each, what is above a commit is a line. -/
theorem above_line {d : Dag K C} {x a : K} (ha : Star d.Parent x a) : ∀ {b : K}, Star d.Parent x b → Star d.Parent a b ∨ Star d.Parent b a := by
  induction ha with
  | refl => exact fun h => .inl h
  | tail _ h ih =>
    intro b hb
    rcases ih hb with h' | h'
    · rcases h'.head_cases with rfl | ⟨c, h1, h2⟩
      · exact .inr (.single h)
      · exact .inl (h.unique h1 ▸ h2)
    · exact .inr (.tail h' h)

/-! ### `_get_tree_neighbors_representation` -/

theorem neighbors_fold (xs : Dict K (Commit K C)) : ∀ (acc : Dict K (List K)) (q : K),
    (∀ x, x ∈ ((xs.foldl (fun acc p => match p.2.parents.head? with
      | none => acc
      | some q => acc.set q (PySet.add ((acc.get? q).getD []) p.2.contentHash)) acc).get? q).getD [] ↔
        x ∈ (acc.get? q).getD [] ∨ ∃ p ∈ xs, p.2.parents.head? = some q ∧ p.2.contentHash = x) ∧
    (((acc.get? q).getD []).Nodup → (((xs.foldl (fun acc p => match p.2.parents.head? with
      | none => acc
      | some q => acc.set q (PySet.add ((acc.get? q).getD []) p.2.contentHash)) acc).get? q).getD []).Nodup) := by
  induction xs with
  | nil => intro acc q; exact ⟨by simp, fun h => h⟩
  | cons p xs ih =>
    intro acc q
    rw [List.foldl_cons]
    cases hp : p.2.parents.head? with
    | none =>
      obtain ⟨h1, h2⟩ := ih acc q
      refine ⟨fun x => ?_, h2⟩
      simp only [h1 x, List.mem_cons, exists_eq_or_imp, hp, reduceCtorEq, false_and, false_or]
    | some q' =>
      obtain ⟨h1, h2⟩ := ih (acc.set q' (PySet.add ((acc.get? q').getD []) p.2.contentHash)) q
      dsimp only
      by_cases e : q' = q
      · subst e
        simp only [Dict.get?_set_self, Option.getD_some] at h1 h2
        refine ⟨fun x => ?_, fun h => h2 (PySet.nodup_add h _)⟩
        simp only [h1 x, PySet.mem_add, List.mem_cons, exists_eq_or_imp, hp, true_and]
        constructor
        · rintro ((h | h) | h)
          · exact .inl h
          · exact .inr (.inl h.symm)
          · exact .inr (.inr h)
        · rintro (h | h | h)
          · exact .inl (.inl h)
          · exact .inl (.inr h.symm)
          · exact .inr h
      · rw [Dict.get?_set_ne _ _ e] at h1 h2
        refine ⟨fun x => ?_, h2⟩
        simp only [h1 x, List.mem_cons, exists_eq_or_imp, hp, Option.some.injEq, e, false_and, false_or]

theorem neighbors_ok {d : Dag K C} {r : K} (hg : Grown hash d.commits r) (q : K) :
    ((d.treeNeighbors.get? q).getD []).Nodup ∧ ∀ x, x ∈ (d.treeNeighbors.get? q).getD [] ↔ d.Parent x q := by
  obtain ⟨h1, h2⟩ := neighbors_fold d.commits [] q
  refine ⟨h2 (by simp [Dict.get?]), fun x => ?_⟩
  refine (h1 x).trans ?_
  simp only [Dict.get?, Option.getD_none, List.not_mem_nil, false_or]
  constructor
  · rintro ⟨⟨k, o⟩, hm, hp, rfl⟩
    have hget := Verif.Props.mem_get? hg hm
    have he := hg.entries.2 k o hget
    refine ⟨o, by rw [he.id]; exact hget, ?_⟩
    rcases he.shape with h | ⟨_, p, _, _, h, _⟩
    · rw [h.2.1] at hp; cases hp
    · rw [h] at hp ⊢
      cases hp
      rfl
  · rintro ⟨o, hget, hp⟩
    exact ⟨(x, o), Dict.mem_of_get? hget, by rw [hp]; rfl, (hg.entries.2 x o hget).id⟩

theorem presentation_ok {d : Dag K C} {r h : K} (hg : Grown hash d.commits r) (hi : d.initialCommit = some r) (hh : d.head = some h) (diffOnly ids : Bool)
    {k : K} (hk : k ∈ d.commits.keys) (depth : Nat) : ∃ e, d.presentation k diffOnly ids depth = .ok e ∧ e.commit = k ∧ e.depth = depth ∧ d.Tells diffOnly ids e := by
  obtain ⟨o, ho⟩ := Dict.mem_keys.1 hk
  obtain ⟨c, hc, -, hget⟩ := hg.content d rfl (d.commits.length + 1) (by omega) k o ho
  have fin : ∀ body, ((body = .code c ∧ (diffOnly = false ∨ d.initialCommit = some k)) ∨
      (diffOnly = true ∧ ∃ p pc, d.Parent k p ∧ d.getContent (d.commits.length + 1) p = .ok pc ∧ body = .diff pc c)) →
      d.Tells diffOnly ids ⟨k, depth, d.head = some k, if ids then some (k, o.semanticHash) else none, body⟩ := fun body hb =>
    ⟨decide_eq_true_iff, ⟨o, ho, rfl⟩, c, hget, hb⟩
  unfold presentation
  cases diffOnly with
  | false =>
    simp only [hget, ho, bind, Except.bind, pure, Except.pure, Bool.false_eq_true, if_false]
    exact ⟨_, rfl, rfl, rfl, fin _ (.inl ⟨rfl, .inl rfl⟩)⟩
  | true =>
    simp only [hh, reduceCtorEq, if_false, if_true, hi]
    by_cases e : k = r
    · subst e
      simp only [if_true, hget, ho, bind, Except.bind, pure, Except.pure]
      rw [← hh]
      exact ⟨_, rfl, rfl, rfl, fin _ (.inl ⟨rfl, .inr hi⟩)⟩
    · rcases (hg.entries.2 k o ho).shape with h' | ⟨_, p, po, df, h1, h2, h3, _, h5, _⟩
      · exact absurd h'.1 e
      · obtain ⟨pc, -, -, hpc⟩ := hg.content d rfl (d.commits.length + 1) (by omega) p po h3
        have hdf : df.1 = c := by
          unfold contentOf at hc
          rw [h5, h2] at hc
          exact Option.some.inj hc
        have e' : ¬ some k = some r := fun h => e (Option.some.inj h)
        simp only [e', if_false, ho, h1, h2, List.head?_cons, hpc, bind, Except.bind, pure, Except.pure, applyDiff]
        rw [← hh, hdf]
        exact ⟨_, rfl, rfl, rfl, fin _ (.inr ⟨rfl, p, pc, ⟨o, ho, h1⟩, hpc, rfl⟩)⟩

/-- What is printed for the commits `cs` and those under them. -/
structure Listing (d : Dag K C) (diffOnly ids : Bool) (depth : Nat) (cs : List K) (out : List (ShownCommit K C)) : Prop where
  tells : ∀ e ∈ out, d.Tells diffOnly ids e ∧ depth < e.depth
  once : (out.map (·.commit)).Nodup
  all : ∀ x, x ∈ out.map (·.commit) ↔ ∃ c ∈ cs, Star d.Parent x c
  outline : ∀ pre e post, out = pre ++ e :: post → (e.commit ∈ cs ∧ e.depth = depth + 1) ∨
    ∃ pre' p mid, pre = pre' ++ p :: mid ∧ d.Parent e.commit p.commit ∧ e.depth = p.depth + 1 ∧ ∀ x ∈ mid, p.depth < x.depth

/-- An entry with what is under it. -/
theorem Listing.below {d : Dag K C} {diffOnly ids : Bool} {e : ShownCommit K C} {cs : List K} {rest : List (ShownCommit K C)} (h : Listing d diffOnly ids e.depth cs rest)
    (hcs : ∀ c ∈ cs, d.Parent c e.commit) {pre : List (ShownCommit K C)} {x : ShownCommit K C} {post : List (ShownCommit K C)} (hs : e :: rest = pre ++ x :: post) :
    (pre = [] ∧ x = e) ∨ ∃ pre' p mid, pre = pre' ++ p :: mid ∧ d.Parent x.commit p.commit ∧ x.depth = p.depth + 1 ∧ ∀ y ∈ mid, p.depth < y.depth := by
  cases pre with
  | nil => exact .inl ⟨rfl, (List.cons.inj hs).1.symm⟩
  | cons y pre =>
    obtain ⟨rfl, hs'⟩ := List.cons.inj hs
    rcases h.outline pre x post hs' with ⟨h1, h2⟩ | ⟨pre', p, mid, rfl, h1, h2, h3⟩
    · exact .inr ⟨[], e, pre, rfl, hcs _ h1, h2, fun y hy => (h.tells y (by rw [hs']; exact List.mem_append_left _ hy)).2⟩
    · exact .inr ⟨e :: pre', p, mid, rfl, h1, h2, h3⟩

theorem showUnder_ok {d : Dag K C} {r h : K} (hg : Grown hash d.commits r) (hi : d.initialCommit = some r) (hh : d.head = some h) {ord : List K → List K}
    (hord : ∀ l, (ord l).Perm l) (diffOnly ids : Bool) {idx : K → Nat} (hidx : ∀ a b, d.Parent a b → idx b < idx a) (hlt : ∀ a ∈ d.commits.keys, idx a < d.commits.length) :
    ∀ (f : Nat) (k : K) (depth : Nat), k ∈ d.commits.keys → d.commits.length + 1 ≤ f + idx k →
      ∃ out cs, d.showUnder ord diffOnly ids f k depth = .ok out ∧ (∀ c, c ∈ cs ↔ d.Parent c k) ∧ Listing d diffOnly ids depth cs out := by
  have hstar : ∀ {x c}, Star d.Parent x c → idx c ≤ idx x := fun h => by
    induction h with
    | refl => exact Nat.le_refl _
    | tail _ h ih => have := hidx _ _ h; omega
  intro f
  induction f with
  | zero => intro k depth hk hf; have := hlt k hk; omega
  | succ f ih =>
    intro k depth hk hf
    have inner : ∀ (cs : List K), cs.Nodup → (∀ c ∈ cs, d.Parent c k) → ∀ acc : List (ShownCommit K C), ∃ out,
        cs.foldlM (fun acc c => do
          let e ← d.presentation c diffOnly ids (depth + 1)
          let rest ← showUnder d ord diffOnly ids f c (depth + 1)
          pure (acc ++ e :: rest)) acc = .ok (acc ++ out) ∧ Listing d diffOnly ids depth cs out := by
      intro cs
      induction cs with
      | nil => exact fun _ _ acc => ⟨[], by simp [pure, Except.pure], by simp, by simp, by simp, by simp⟩
      | cons c cs ihc =>
        intro hn hp acc
        obtain ⟨hnc, hn⟩ := List.nodup_cons.1 hn
        have hc := hp c (by simp)
        have := hidx c k hc
        obtain ⟨e, e1, e2, e3, e4⟩ := presentation_ok hg hi hh diffOnly ids hc.key (depth + 1)
        obtain ⟨rest, cs', r1, r2, r3⟩ := ih c (depth + 1) hc.key (by omega)
        obtain ⟨out, o1, o2⟩ := ihc hn (fun c' h' => hp c' (by simp [h'])) (acc ++ e :: rest)
        rw [← e3] at r3
        have hunder : ∀ x, x ∈ (e :: rest).map (·.commit) ↔ Star d.Parent x c := by
          intro x
          rw [List.map_cons, List.mem_cons, r3.all, e2]
          constructor
          · rintro (rfl | ⟨c', h1, h2⟩)
            · exact .refl
            · exact .tail h2 ((r2 c').1 h1)
          · intro h'
            cases h' with
            | refl => exact .inl rfl
            | tail h1 h2 => exact .inr ⟨_, (r2 _).2 h2, h1⟩
        refine ⟨(e :: rest) ++ out, ?_, ⟨?_, ?_, ?_, ?_⟩⟩
        · rw [List.foldlM_cons]
          simp only [e1, r1, bind, Except.bind, pure, Except.pure]
          rw [← List.append_assoc]
          exact o1
        · intro x hx
          rcases List.mem_append.1 hx with hx | hx
          · rcases List.mem_cons.1 hx with rfl | hx
            · exact ⟨e4, by omega⟩
            · have := r3.tells x hx
              exact ⟨this.1, by omega⟩
          · exact o2.tells x hx
        · rw [List.map_append, List.nodup_append]
          refine ⟨?_, o2.once, fun x hx y hy => ?_⟩
          · rw [List.map_cons, List.nodup_cons]
            refine ⟨fun hm => ?_, r3.once⟩
            rw [e2] at hm
            obtain ⟨c', h1, h2⟩ := (r3.all c).1 hm
            have h3 := hidx _ _ ((r2 c').1 h1)
            have h4 := hstar h2
            omega
          · rintro rfl
            have h1 := (hunder x).1 hx
            obtain ⟨c2, hc2, h2⟩ := (o2.all x).1 hy
            have hne : c ≠ c2 := fun e => hnc (e ▸ hc2)
            have no : ∀ {a b}, a ≠ b → d.Parent a k → d.Parent b k → ¬ Star d.Parent a b := by
              intro a b hab ha hb hs
              rcases hs.head_cases with e | ⟨m, m1, m2⟩
              · exact hab e
              · rw [m1.unique ha] at m2
                have h3 := hstar m2
                have h4 := hidx _ _ hb
                omega
            rcases above_line h1 h2 with h' | h'
            · exact no hne hc (hp c2 (by simp [hc2])) h'
            · exact no hne.symm (hp c2 (by simp [hc2])) hc h'
        · intro x
          rw [List.map_append, List.mem_append, hunder, o2.all]
          simp
        · intro pre x post hs
          rcases List.append_eq_append_iff.1 hs with ⟨m, rfl, hm⟩ | ⟨m, hm, hr⟩
          · rcases o2.outline m x post hm with ⟨h1, h2⟩ | ⟨pre', p, mid, rfl, h1, h2, h3⟩
            · exact .inl ⟨by simp [h1], h2⟩
            · exact .inr ⟨(e :: rest) ++ pre', p, mid, by simp, h1, h2, h3⟩
          · cases m with
            | nil =>
              rw [List.append_nil] at hm
              subst hm
              rcases o2.outline [] x post (by simpa using hr.symm) with ⟨h1, h2⟩ | ⟨pre', p, mid, h0, _⟩
              · exact .inl ⟨by simp [h1], h2⟩
              · cases pre' <;> cases h0
            | cons y m =>
              obtain ⟨rfl, _⟩ := List.cons.inj hr
              rcases r3.below (fun c' h' => by rw [e2]; exact (r2 c').1 h') hm with ⟨rfl, rfl⟩ | h'
              · exact .inl ⟨by simp [e2], e3⟩
              · exact .inr h'
    obtain ⟨n1, n2⟩ := neighbors_ok hg k
    unfold showUnder
    cases hnb : d.treeNeighbors.get? k with
    | none =>
      rw [hnb] at n2
      refine ⟨[], [], rfl, fun c => by simpa using n2 c, by simp, by simp, by simp, by simp⟩
    | some cs =>
      rw [hnb] at n1 n2
      simp only [Option.getD_some] at n1 n2
      obtain ⟨out, o1, o2⟩ := inner (ord cs) ((hord cs).nodup_iff.2 n1) (fun c hc => (n2 c).1 ((hord cs).mem_iff.1 hc)) []
      exact ⟨out, ord cs, by simpa using o1, fun c => (hord cs).mem_iff.trans (n2 c), o2⟩

end Dag
end Verif
