import Verif.Proofs.CodeHistory
/-!
C29, C30, C31: the history of the code of one dependency.

`Dag.run hash Dag.new ops` is the history after any sequence of uses, including failing and aborted ones. The hash need not
be injective unless said so.
-/
namespace Verif.Props

open Verif Verif.Dag

variable {K C : Type} [DecidableEq K]

/-- The recursion depth that python allows `get_content` is taken as large enough for the number of commits. -/
def Deep (d : Dag K C) (f : Nat) : Prop := d.commits.length ≤ f

/-- `o` is the commit with id `k` -/
def IsCommit (d : Dag K C) (k : K) (o : Commit K C) : Prop := d.commits.get? k = some o

/-- The uses that bring in the content `c`. -/
def Brings (op : Step K C) (c : C) : Prop := op = .init c ∨ (∃ b a, op = .commit c b a) ∨ ∃ b a, op = .sync c b a

theorem run_append (hash : C → K) (d : Dag K C) (xs ys : List (Step K C)) : run hash d (xs ++ ys) = run hash (run hash d xs) ys := by
  unfold run; rw [List.foldl_append]

theorem run_one (hash : C → K) (d : Dag K C) (op : Step K C) : run hash d [op] = step hash d op := rfl

theorem reachable_ok (hash : C → K) (ops : List (Step K C)) : OK hash (run hash new ops) := run_keeps ops (.inl rfl)

/-! ### C29 -/

/-- Commits are never altered or removed. -/
theorem C29_commits_immutable (hash : C → K) (ops more : List (Step K C)) (k : K) (o : Commit K C)
    (h : IsCommit (run hash new ops) k o) : IsCommit (run hash new (ops ++ more)) k o := by
  rw [run_append]
  exact run_old more (reachable_ok hash ops) h

/-- The content read for a commit id was brought in by the very use that created this commit, and has this id as its hash;
every commit id of the history can be read. -/
theorem C29_content_was_committed (hash : C → K) (ops : List (Step K C)) (k : K) (o : Commit K C)
    (h : IsCommit (run hash new ops) k o) (f : Nat) (hf : Deep (run hash new ops) f) :
    ∃ c xs op ys, (run hash new ops).getContent f k = .ok c ∧ hash c = k ∧ ops = xs ++ op :: ys ∧ Brings op c ∧
      k ∉ (run hash new xs).commits.keys ∧ k ∈ (run hash new (xs ++ [op])).commits.keys := by
  obtain ⟨_, r, h4, h5, h6, hg⟩ := (reachable_ok hash ops).grown (Dict.mem_keys.2 ⟨o, h⟩)
  obtain ⟨c, h1, h2, h3⟩ := hg.content _ rfl f hf k o h
  refine ⟨c, ?_⟩
  suffices ∃ xs op ys, ops = xs ++ op :: ys ∧ Brings op c ∧ k ∉ (run hash new xs).commits.keys ∧
      k ∈ (run hash new (xs ++ [op])).commits.keys by
    obtain ⟨xs, op, ys, h7⟩ := this
    exact ⟨xs, op, ys, h3, h2, h7⟩
  clear hg h3 hf h2 h4 h5 h6
  generalize hl : ops.length = n
  induction n generalizing ops with
  | zero =>
    obtain rfl := List.length_eq_zero_iff.1 hl
    cases h
  | succ n ih =>
    obtain ⟨ys, op, rfl⟩ : ∃ ys op, ops = ys ++ [op] := by
      rcases List.eq_nil_or_concat ops with rfl | ⟨ys, op, rfl⟩
      · cases hl
      · exact ⟨ys, op, List.concat_eq_append⟩
    by_cases hk : k ∈ (run hash new ys).commits.keys
    · obtain ⟨o', ho'⟩ := Dict.mem_keys.1 hk
      have := C29_commits_immutable hash ys [op] k o' ho'
      obtain rfl : o' = o := by unfold IsCommit at h this; rw [h] at this; cases this; rfl
      obtain ⟨xs, op', zs, rfl, h5⟩ := ih ys ho' (by simpa using hl)
      exact ⟨xs, op', zs ++ [op], by simp, h5⟩
    · refine ⟨ys, op, [], rfl, ?_, hk, Dict.mem_keys.2 ⟨o, h⟩⟩
      rw [run_append] at h
      obtain ⟨c', h5, h6, h7⟩ := step_new (reachable_ok hash ys) op hk h
      rw [h1] at h6
      cases h6
      cases op with
      | init => cases h5; exact .inl rfl
      | checkout => cases h5
      | commit c b a => cases h5; exact .inr (.inl ⟨b, a, rfl⟩)
      | sync c b a => cases h5; exact .inr (.inr ⟨b, a, rfl⟩)

/-- What was committed is read back, forever. -/
theorem C29_committed_content_read_back (hash : C → K) (ops more : List (Step K C)) (c : C) (b : Option Bool) (a : Answer) (d : Dag K C)
    (k : K) (h : (run hash new ops).commit hash c b a = .ok (d, k)) (f : Nat) (hf : Deep (run hash d more) f) :
    (run hash d more).getContent f k = .ok c := by
  have hd := commit_keeps (reachable_ok hash ops) h
  obtain ⟨rfl, hn, x, ho, s, hc, h1, h2, h3, rfl⟩ := commit_ok h
  have hget := run_old (hash := hash) more hd (k := hash c)
    (o := ⟨[x], [(c, hc)], hash c, if s then hash c else ho.semanticHash, none⟩) (by rw [get?_append_new hn, Dict.get?_cons, if_pos rfl])
  obtain ⟨_, r, _, _, _, hg⟩ := (run_keeps (hash := hash) more hd).grown (Dict.mem_keys.2 ⟨_, hget⟩)
  obtain ⟨c', h4, _, h6⟩ := hg.content _ rfl f hf (hash c) _ hget
  cases h4
  exact h6

/-- The same for the content the history was initialised with. -/
theorem C29_initial_content_read_back (hash : C → K) (more : List (Step K C)) (c : C) (d : Dag K C) (k : K)
    (h : (new : Dag K C).init hash c = .ok (d, k)) (f : Nat) (hf : Deep (run hash d more) f) :
    (run hash d more).getContent f k = .ok c := by
  obtain ⟨_, rfl, rfl⟩ := init_ok (hash := hash) (.inl rfl) h
  have hd : OK hash (⟨some (hash c), [(hash c, ⟨[], [], hash c, hash c, some c⟩)], some (hash c)⟩ : Dag K C) :=
    .inr ⟨_, _, rfl, by simp [Dict.keys], rfl, .root c⟩
  have hget := run_old (hash := hash) more hd (k := hash c) (o := ⟨[], [], hash c, hash c, some c⟩) (by rw [Dict.get?_cons, if_pos rfl])
  obtain ⟨_, r, _, _, _, hg⟩ := (run_keeps (hash := hash) more hd).grown (Dict.mem_keys.2 ⟨_, hget⟩)
  obtain ⟨c', h4, _, h6⟩ := hg.content _ rfl f hf (hash c) _ hget
  cases h4
  exact h6

/-- After a successful `sync` the content of the head is the synced content, provided the hash tells contents apart. -/
theorem C29_synced_content_is_current (hash : C → K) (hinj : Function.Injective hash) (ops : List (Step K C)) (c : C) (b : Option Bool)
    (a : Answer) (d : Dag K C) (k : K) (h : (run hash new ops).sync hash c b a = .ok (d, k)) (f : Nat) (hf : Deep d f) :
    d.head = some k ∧ d.getContent f k = .ok c := by
  have hok := reachable_ok hash ops
  obtain ⟨rfl, h1 | ⟨_, h1⟩⟩ := sync_ok h hok
  · obtain ⟨hk, rfl⟩ := h1
    refine ⟨rfl, ?_⟩
    obtain ⟨o, ho⟩ := Dict.mem_keys.1 hk
    obtain ⟨_, r, _, _, _, hg⟩ := hok.grown hk
    obtain ⟨c', _, h2, h3⟩ := hg.content { run hash new ops with head := some (hash c) } rfl f hf _ o ho
    rw [h3, hinj h2]
  · refine ⟨?_, C29_committed_content_read_back hash ops [] c b a d _ h1 f hf⟩
    obtain ⟨_, _, _, _, _, _, _, _, _, rfl⟩ := commit_ok h1
    rfl

/-! ### C30 -/

/-- `p` is a parent of `k` -/
def IsParent (d : Dag K C) (k p : K) : Prop := ∃ o, IsCommit d k o ∧ p ∈ o.parents

/-- The commit graph is a tree: one root, every other commit has exactly one parent, which exists; no cycles; everything
descends from the root; the head exists; the semantic version of a commit is its own or that of its parent. -/
structure IsTree (d : Dag K C) (root : K) : Prop where
  isRoot : ∃ o, IsCommit d root o ∧ o.parents = []
  parent : ∀ k o, IsCommit d k o → k ≠ root → ∃ p po, o.parents = [p] ∧ IsCommit d p po ∧
    (o.semanticHash = k ∨ o.semanticHash = po.semanticHash)
  acyclic : ∀ k p, IsParent d k p → ¬ Star (IsParent d) p k
  connected : ∀ k o, IsCommit d k o → Star (IsParent d) k root
  hasHead : ∃ h o, d.head = some h ∧ IsCommit d h o
  semantic : ∀ k o, IsCommit d k o → ∃ v vo, o.semanticHash = v ∧ IsCommit d v vo ∧ vo.semanticHash = v

omit [DecidableEq K] in
theorem rank_star {rank : K → Nat} {R : K → K → Prop} (h : ∀ a b, R a b → rank b < rank a) {a b : K} (hs : Star R a b) : rank b ≤ rank a := by
  induction hs with
  | refl => exact Nat.le_refl _
  | tail _ hr ih => exact Nat.le_trans (Nat.le_of_lt (h _ _ hr)) ih

theorem sem_fix {hash : C → K} {l : Dict K (Commit K C)} {r : K} (hg : Grown hash l r) :
    ∀ k o, l.get? k = some o → ∃ vo, l.get? o.semanticHash = some vo ∧ vo.semanticHash = o.semanticHash := by
  induction hg with
  | root c =>
    intro k o ho
    rw [Dict.get?_cons] at ho
    split at ho
    · cases ho; exact ⟨_, by rw [Dict.get?_cons, if_pos rfl], rfl⟩
    · cases ho
  | @snoc l r c hc h ho b hg hn hget ih =>
    have lift : ∀ v vo, l.get? v = some vo → Dict.get? (l ++ [(hash c, (⟨[h], [(c, hc)], hash c, if b then hash c else ho.semanticHash, none⟩ :
        Commit K C))]) v = some vo := fun v vo hv => by rw [get?_append_old (Dict.mem_keys.2 ⟨_, hv⟩), hv]
    intro k o hk
    rw [get?_snoc hn] at hk
    split at hk
    · cases hk
      cases b
      · obtain ⟨vo, h1, h2⟩ := ih h ho hget
        exact ⟨vo, lift _ _ h1, h2⟩
      · exact ⟨⟨[h], [(c, hc)], hash c, hash c, none⟩, by rw [get?_snoc hn]; exact if_pos rfl, rfl⟩
    · obtain ⟨vo, h1, h2⟩ := ih k o hk
      exact ⟨vo, lift _ _ h1, h2⟩

theorem mem_get? {hash : C → K} {l : Dict K (Commit K C)} {r : K} (hg : Grown hash l r) {k : K} {o : Commit K C} (h : (k, o) ∈ l) :
    l.get? k = some o := by
  induction hg with
  | root c =>
    simp only [List.mem_cons, List.not_mem_nil, or_false] at h
    cases h
    rw [Dict.get?_cons, if_pos rfl]
  | snoc c hc h' ho b _ hn _ ih =>
    rw [get?_snoc hn]
    rw [List.mem_append] at h
    rcases h with h | h
    · have : k ∈ Dict.keys _ := List.mem_map.2 ⟨_, h, rfl⟩
      rw [if_neg (by rintro rfl; exact hn this), ih h]
    · simp only [List.mem_cons, List.not_mem_nil, or_false] at h
      cases h
      rw [if_pos rfl]

/-- C30: every history is empty or a tree, and passes the check of the code. -/
theorem C30_tree (hash : C → K) (ops : List (Step K C)) :
    (run hash new ops).checkInvariants = true ∧ (run hash new ops = new ∨ ∃ root, IsTree (run hash new ops) root ∧
      (run hash new ops).initialCommit = some root) := by
  rcases reachable_ok hash ops with h | ⟨hd, r, h1, h2, h3, hg⟩
  · rw [h]; exact ⟨rfl, .inl rfl⟩
  · generalize run hash new ops = d at *
    obtain ⟨hr, he⟩ := hg.entries
    refine ⟨?_, .inr ⟨r, ⟨?_, ?_, ?_, ?_, ?_, ?_⟩, h3⟩⟩
    · unfold checkInvariants
      rw [h1, Bool.and_eq_true, List.all_eq_true]
      refine ⟨Dict.has_iff.2 h2, ?_⟩
      rintro ⟨k, o⟩ hmem
      have hget : d.commits.get? k = some o := mem_get? hg hmem
      have e := he k o hget
      rcases e.shape with ⟨_, s1, s2, s3, s4⟩ | ⟨_, p, po, df, s1, s2, s3, _⟩
      · simp [s1, s2, s4, e.id, Dict.has_iff.2 e.sem]
      · simp [s1, s2, e.id, Dict.has_iff.2 e.sem, Dict.has_iff.2 (Dict.mem_keys.2 ⟨po, s3⟩)]
    · obtain ⟨o, ho⟩ := Dict.mem_keys.1 hr
      refine ⟨o, ho, ?_⟩
      rcases (he r o ho).shape with h | h
      · exact h.2.1
      · exact absurd rfl h.1
    · intro k o ho hk
      rcases (he k o ho).shape with h | ⟨_, p, po, df, s1, _, s3, _, _, s6⟩
      · exact absurd h.1 hk
      · exact ⟨p, po, s1, s3, s6.imp (·.1) id⟩
    · intro k p hkp hs
      obtain ⟨rank, hrank⟩ := hg.acyclic
      have := rank_star hrank hs
      have := hrank k p hkp
      omega
    · exact fun k o ho => hg.toRoot k (Dict.mem_keys.2 ⟨o, ho⟩)
    · obtain ⟨o, ho⟩ := Dict.mem_keys.1 h2
      exact ⟨hd, o, h1, ho⟩
    · intro k o ho
      obtain ⟨vo, h4, h5⟩ := sem_fix hg k o ho
      exact ⟨_, vo, rfl, h4, h5⟩

/-- What the caller or the user declared about the change. -/
def Declared (b : Option Bool) (a : Answer) (semantic : Bool) : Prop :=
  b = some semantic ∨ b = none ∧ (semantic = true ∧ a = .yes ∨ semantic = false ∧ a = .no)

/-- C30: a new commit hangs below the head and has the semantic version of the head iff the change was declared
non-semantic; otherwise its semantic version is new. -/
theorem C30_semantic_iff_declared (hash : C → K) (ops : List (Step K C)) (c : C) (b : Option Bool) (a : Answer) (d : Dag K C) (k : K)
    (h : (run hash new ops).commit hash c b a = .ok (d, k)) :
    ∃ hd ho o semantic, (run hash new ops).head = some hd ∧ IsCommit (run hash new ops) hd ho ∧ IsCommit d k o ∧ d.head = some k ∧
      o.parents = [hd] ∧ Declared b a semantic ∧ (o.semanticHash = ho.semanticHash ↔ semantic = false) ∧
      (semantic = true → ∀ k' o', IsCommit (run hash new ops) k' o' → o'.semanticHash ≠ o.semanticHash) := by
  obtain ⟨rfl, hn, x, ho, s, hc, h1, h2, h3, rfl⟩ := commit_ok h
  have hok := reachable_ok hash ops
  obtain ⟨_, r, _, _, _, hg⟩ := hok.grown (Dict.mem_keys.2 ⟨_, h2⟩)
  have hnew : ∀ k' o', IsCommit (run hash new ops) k' o' → o'.semanticHash ≠ hash c :=
    fun k' o' hk heq => hn (heq ▸ (hg.entries.2 k' o' hk).sem)
  refine ⟨x, ho, ⟨[x], [(c, hc)], hash c, if s then hash c else ho.semanticHash, none⟩, s, h1, h2, ?_, rfl, rfl, ?_, ?_, ?_⟩
  · show Dict.get? (_ ++ _) _ = _
    rw [get?_append_new hn, Dict.get?_cons, if_pos rfl]
  · unfold declared at h3
    cases b with
    | some b => cases h3; exact .inl rfl
    | none => cases a <;> cases h3 <;> simp [Declared]
  · cases s
    · simp
    · simpa using fun h => hnew x ho h2 h.symm
  · rintro rfl k' o' hk
    exact hnew k' o' hk

/-- Committing or syncing new code to a history that was initialised succeeds unless the user aborts. -/
theorem C30_commit_succeeds (hash : C → K) (ops : List (Step K C)) (c : C) (b : Option Bool) (a : Answer) (semantic : Bool)
    (hdecl : Declared b a semantic) (hinit : run hash new ops ≠ new) (hnew : hash c ∉ (run hash new ops).commits.keys) :
    ∃ d, (run hash new ops).commit hash c b a = .ok (d, hash c) ∧ (run hash new ops).sync hash c b a = .ok (d, hash c) := by
  rcases reachable_ok hash ops with h | ⟨x, r, h1, h2, h3, hg⟩
  · exact absurd h hinit
  · generalize run hash new ops = d at *
    have hs : declared b a = some semantic := by
      unfold declared
      rcases hdecl with rfl | ⟨rfl, ⟨rfl, rfl⟩ | ⟨rfl, rfl⟩⟩ <;> rfl
    obtain ⟨o, ho⟩ := Dict.mem_keys.1 h2
    obtain ⟨pc, _, _, h4⟩ := hg.content d rfl (d.commits.length + 1) (by omega) x o ho
    have hn : ¬ d.commits.has (hash c) = true := fun h => hnew (Dict.has_iff.1 h)
    have hc : d.commit hash c b a = .ok (⟨some (hash c), d.commits.set (hash c)
        ⟨[x], [getDiff c pc], hash c, if semantic then hash c else o.semanticHash, none⟩, d.initialCommit⟩, hash c) := by
      unfold commit
      rw [h1]
      dsimp only
      rw [if_neg hn, ho]
      dsimp only
      rw [hs, h4]
    refine ⟨_, hc, ?_⟩
    unfold sync
    rw [h1]
    dsimp only
    rw [if_neg (by rintro rfl; exact hnew h2), if_neg hn, hc]

/-- Aborting leaves the history alone (and reports it). -/
theorem C30_abort_changes_nothing (hash : C → K) (ops : List (Step K C)) (c : C)
    (hnew : hash c ∉ (run hash new ops).commits.keys) :
    (∃ e, (run hash new ops).commit hash c none .abort = .error e) ∧
      run hash new (ops ++ [.commit c none .abort]) = run hash new ops ∧ run hash new (ops ++ [.sync c none .abort]) = run hash new ops := by
  have he : ∃ e, (run hash new ops).commit hash c none .abort = .error e := by
    cases h : (run hash new ops).commit hash c none .abort with
    | error e => exact ⟨e, rfl⟩
    | ok r =>
      obtain ⟨d, k⟩ := r
      obtain ⟨_, _, _, _, _, _, _, _, h3, _⟩ := commit_ok h
      cases h3
  refine ⟨he, ?_, ?_⟩
  · obtain ⟨e, he⟩ := he
    rw [run_append, run_one]
    unfold step; dsimp only
    rw [he]
  · rw [run_append, run_one]
    unfold step; dsimp only
    cases h : (run hash new ops).sync hash c none .abort with
    | error e => rfl
    | ok r =>
      obtain ⟨d, k⟩ := r
      obtain ⟨rfl, h1 | ⟨_, h1⟩⟩ := sync_ok h (reachable_ok hash ops)
      · exact absurd h1.1 hnew
      · obtain ⟨e, he⟩ := he
        rw [he] at h1
        cases h1

/-! ### C31 -/

/-- C31: syncing to code that the history has already seen (at any earlier point, then as semantic version `v`) succeeds
whatever the user would answer, creates no commit, makes it the head, and its semantic version is `v` again. -/
theorem C31_revert_restores_version (hash : C → K) (ops more : List (Step K C)) (c : C) (o : Commit K C)
    (hseen : IsCommit (run hash new ops) (hash c) o) (b : Option Bool) (a : Answer) :
    ∃ d, (run hash new (ops ++ more)).sync hash c b a = .ok (d, hash c) ∧ d.commits = (run hash new (ops ++ more)).commits ∧
      d.head = some (hash c) ∧ ∃ o', IsCommit d (hash c) o' ∧ o'.semanticHash = o.semanticHash := by
  have hget := C29_commits_immutable hash ops more _ _ hseen
  have hk : hash c ∈ (run hash new (ops ++ more)).commits.keys := Dict.mem_keys.2 ⟨o, hget⟩
  obtain ⟨x, r, h1, h2, h3, hg⟩ := (reachable_ok hash (ops ++ more)).grown hk
  generalize run hash new (ops ++ more) = d at *
  unfold sync
  rw [h1]
  dsimp only
  split
  · rename_i he
    subst he
    exact ⟨d, rfl, rfl, h1, o, hget, rfl⟩
  · rw [if_pos (Dict.has_iff.2 hk)]
    unfold checkout
    rw [if_pos (Dict.has_iff.2 hk)]
    exact ⟨_, rfl, rfl, rfl, o, hget, rfl⟩

/-- C31: syncing to the code that is current changes nothing at all. -/
theorem C31_unchanged_code (hash : C → K) (ops : List (Step K C)) (c : C) (hcur : (run hash new ops).head = some (hash c)) (b : Option Bool)
    (a : Answer) : (run hash new ops).sync hash c b a = .ok (run hash new ops, hash c) := by
  unfold sync
  rw [hcur]
  dsimp only
  rw [if_pos rfl]

/-! ### a concrete history -/

/-- Initial code, a semantic change, a non-semantic change, back to the initial code, an aborted change, another change. -/
def devHistory : List (Step String String) :=
  [.init "v1", .commit "v2" (some true) .yes, .sync "v3" none .no, .sync "v1" none .abort, .sync "v4" none .abort, .sync "v5" none .yes]

example : (run id new devHistory).head = some "v5" ∧ (run id new devHistory).commits.keys = ["v1", "v2", "v3", "v5"] ∧
    (run id new devHistory).commits.vals.map (·.semanticHash) = ["v1", "v2", "v2", "v5"] ∧
    (run id new devHistory).getContent 4 "v3" = .ok "v3" := by decide

example : ∃ d, (run id new devHistory).sync id "v3" none .abort = .ok (d, "v3") ∧ d.head = some "v3" := ⟨_, rfl, rfl⟩

example : ∃ d, (run id new devHistory).commit id "v6" none .no = .ok (d, "v6") := ⟨_, rfl⟩

end Verif.Props
