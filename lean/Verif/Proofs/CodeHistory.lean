import Verif.Model.CodeHistory
import Verif.Basic.Star
/-!
The shape of the commit dictionary of a code history, and what follows from it.
-/
namespace Verif
namespace Dag

variable {K C : Type} [DecidableEq K]

theorem get?_append_old {V : Type} {l m : Dict K V} {k : K} (h : k ∈ l.keys) : Dict.get? (l ++ m) k = Dict.get? l k := by
  induction l with
  | nil => cases h
  | cons p l ih =>
    obtain ⟨a, v⟩ := p
    rw [List.cons_append, Dict.get?_cons, Dict.get?_cons]
    split
    · rfl
    · rename_i hne
      refine ih ?_
      simp only [Dict.keys, List.map_cons, List.mem_cons] at h
      rcases h with h | h
      · exact absurd h.symm hne
      · exact h

theorem get?_append_new {V : Type} {l m : Dict K V} {k : K} (h : k ∉ l.keys) : Dict.get? (l ++ m) k = Dict.get? m k := by
  induction l with
  | nil => rfl
  | cons p l ih =>
    obtain ⟨a, v⟩ := p
    simp only [Dict.keys, List.map_cons, List.mem_cons, not_or] at h
    rw [List.cons_append, Dict.get?_cons, if_neg (Ne.symm h.1)]
    exact ih h.2

theorem set_new {V : Type} {l : Dict K V} {k : K} (h : k ∉ l.keys) (v : V) : l.set k v = l ++ [(k, v)] := by
  induction l with
  | nil => rfl
  | cons p l ih =>
    obtain ⟨a, w⟩ := p
    simp only [Dict.keys, List.map_cons, List.mem_cons, not_or] at h
    rw [Dict.set, if_neg (Ne.symm h.1), ih h.2]
    rfl

/-- The commit dictionaries that arise: a root, then commits whose parent is already there. -/
inductive Grown (hash : C → K) : Dict K (Commit K C) → K → Prop
  | root (c : C) : Grown hash [(hash c, ⟨[], [], hash c, hash c, some c⟩)] (hash c)
  | snoc {l : Dict K (Commit K C)} {r : K} (c hc : C) (h : K) (ho : Commit K C) (b : Bool) : Grown hash l r → hash c ∉ l.keys →
      l.get? h = some ho → Grown hash (l ++ [(hash c, ⟨[h], [(c, hc)], hash c, if b then hash c else ho.semanticHash, none⟩)]) r

/-- Reachable histories: empty, or grown with an existing head. -/
def OK (hash : C → K) (d : Dag K C) : Prop :=
  d = new ∨ ∃ h r, d.head = some h ∧ h ∈ d.commits.keys ∧ d.initialCommit = some r ∧ Grown hash d.commits r

/-- Lookup of a commit in a grown dictionary extended by one commit. -/
theorem get?_snoc {V : Type} {l : Dict K V} {k k' : K} {v : V} (hk : k ∉ l.keys) :
    Dict.get? (l ++ [(k, v)]) k' = if k = k' then some v else l.get? k' := by
  by_cases h : k = k'
  · subst h
    rw [if_pos rfl, get?_append_new hk, Dict.get?_cons, if_pos rfl]
  · rw [if_neg h]
    by_cases h' : k' ∈ l.keys
    · rw [get?_append_old h']
    · rw [get?_append_new h', Dict.get?_cons, if_neg h, Dict.get?_eq_none.2 h']
      rfl

/-- The content a commit stands for. -/
def contentOf (o : Commit K C) : Option C := match o.content with | some c => some c | none => o.diffs.head?.map (·.1)

/-- What is true of each entry of a grown dictionary. -/
structure Entry (hash : C → K) (l : Dict K (Commit K C)) (r k : K) (o : Commit K C) : Prop where
  id : o.contentHash = k
  content : ∃ c, contentOf o = some c ∧ hash c = k
  shape : (k = r ∧ o.parents = [] ∧ o.diffs = [] ∧ o.semanticHash = k ∧ o.content.isSome) ∨
    (k ≠ r ∧ ∃ p po df, o.parents = [p] ∧ o.diffs = [df] ∧ l.get? p = some po ∧ p ≠ k ∧ o.content = none ∧
      (o.semanticHash = k ∧ po.semanticHash ≠ k ∨ o.semanticHash = po.semanticHash))
  sem : o.semanticHash ∈ l.keys

theorem Grown.entries {hash : C → K} {l : Dict K (Commit K C)} {r : K} (hg : Grown hash l r) :
    r ∈ l.keys ∧ ∀ k o, l.get? k = some o → Entry hash l r k o := by
  induction hg with
  | root c =>
    refine ⟨by simp [Dict.keys], ?_⟩
    intro k o ho
    rw [Dict.get?_cons] at ho
    split at ho
    · rename_i hk
      cases ho
      subst hk
      exact ⟨rfl, ⟨c, rfl, rfl⟩, .inl ⟨rfl, rfl, rfl, rfl, rfl⟩, by simp [Dict.keys]⟩
    · cases ho
  | @snoc l r c hc h ho b hg hn hget ih =>
    obtain ⟨hr, ih⟩ := ih
    have hkeys : ∀ {k}, k ∈ l.keys → k ∈ Dict.keys (l ++ [(hash c, (⟨[h], [(c, hc)], hash c, if b then hash c else ho.semanticHash, none⟩ : Commit K C))]) := by
      intro k hk
      simp only [Dict.keys, List.map_append, List.mem_append]
      exact .inl hk
    refine ⟨hkeys hr, ?_⟩
    have hsem : ho.semanticHash ∈ l.keys := (ih h ho hget).sem
    intro k o hk
    rw [get?_snoc hn] at hk
    split at hk
    · rename_i he
      subst he
      cases hk
      refine ⟨rfl, ⟨c, rfl, rfl⟩, .inr ⟨fun hc => hn (hc ▸ hr), h, ho, (c, hc), rfl, rfl, ?_, ?_, rfl, ?_⟩, ?_⟩
      · rw [get?_append_old (Dict.mem_keys.2 ⟨_, hget⟩), hget]
      · rintro rfl; exact hn (Dict.mem_keys.2 ⟨_, hget⟩)
      · cases b
        · exact .inr rfl
        · exact .inl ⟨rfl, fun h => hn (h ▸ hsem)⟩
      · cases b
        · exact hkeys hsem
        · simp [Dict.keys]
    · have he := ih k o hk
      refine ⟨he.id, he.content, ?_, hkeys he.sem⟩
      rcases he.shape with h1 | ⟨h0, p, po, df, h1, h2, h3, h4, h5, h6⟩
      · exact .inl h1
      · refine .inr ⟨h0, p, po, df, h1, h2, ?_, h4, h5, h6⟩
        rw [get?_append_old (Dict.mem_keys.2 ⟨_, h3⟩), h3]

/-- `a` is the first commit's parent relation: `b` is a parent of `a`. -/
def ParentIn (l : Dict K (Commit K C)) (a b : K) : Prop := ∃ o, l.get? a = some o ∧ b ∈ o.parents

theorem Grown.acyclic {hash : C → K} {l : Dict K (Commit K C)} {r : K} (hg : Grown hash l r) :
    ∃ rank : K → Nat, ∀ a b, ParentIn l a b → rank b < rank a := by
  induction hg with
  | root c =>
    refine ⟨fun _ => 0, ?_⟩
    rintro a b ⟨o, h, hb⟩
    rw [Dict.get?_cons] at h
    split at h
    · cases h; cases hb
    · cases h
  | @snoc l r c hc h ho b hg hn hget ih =>
    obtain ⟨rank, ih⟩ := ih
    refine ⟨fun k => if k = hash c then rank h + 1 else rank k, ?_⟩
    rintro x y ⟨o, hx, hy⟩
    rw [get?_snoc hn] at hx
    split at hx
    · rename_i he
      subst he
      cases hx
      simp only [List.mem_cons, List.not_mem_nil, or_false] at hy
      subst hy
      have : y ≠ hash c := by rintro rfl; exact hn (Dict.mem_keys.2 ⟨_, hget⟩)
      simp [this]
    · rename_i he
      have hp : y ∈ l.keys := by
        rcases (hg.entries.2 x o hx).shape with h1 | ⟨_, p, po, df, h1, _, h3, _⟩
        · rw [h1.2.1] at hy; cases hy
        · rw [h1] at hy
          simp only [List.mem_cons, List.not_mem_nil, or_false] at hy
          exact Dict.mem_keys.2 ⟨po, hy ▸ h3⟩
      have hy' : y ≠ hash c := by rintro rfl; exact hn hp
      dsimp only
      rw [if_neg hy', if_neg (Ne.symm he)]
      exact ih x y ⟨o, hx, hy⟩

theorem Grown.toRoot {hash : C → K} {l : Dict K (Commit K C)} {r : K} (hg : Grown hash l r) :
    ∀ k ∈ l.keys, Star (ParentIn l) k r := by
  induction hg with
  | root c => intro k hk; simp [Dict.keys] at hk; rw [hk]; exact .refl
  | @snoc l r c hc h ho b hg hn hget ih =>
    have hmono : ∀ x y, ParentIn l x y →
        ParentIn (l ++ [(hash c, (⟨[h], [(c, hc)], hash c, if b then hash c else ho.semanticHash, none⟩ : Commit K C))]) x y := by
      rintro x y ⟨o, h1, h2⟩
      exact ⟨o, by rw [get?_append_old (Dict.mem_keys.2 ⟨_, h1⟩), h1], h2⟩
    intro k hk
    simp only [Dict.keys, List.map_append, List.mem_append, List.map_cons, List.map_nil, List.mem_cons, List.not_mem_nil, or_false] at hk
    rcases hk with hk | rfl
    · exact (ih k hk).mono hmono
    · refine .head ⟨_, by rw [get?_snoc hn, if_pos rfl], by simp⟩ ((ih h (Dict.mem_keys.2 ⟨_, hget⟩)).mono hmono)

/-! ### reading contents -/

theorem getContent_congr {d e : Dag K C} {hash : C → K} {r : K} (hg : Grown hash d.commits r)
    (he : ∀ k ∈ d.commits.keys, e.commits.get? k = d.commits.get? k) : ∀ (f : Nat) (k : K), k ∈ d.commits.keys →
    e.getContent f k = d.getContent f k
  | 0, _, _ => rfl
  | f + 1, k, hk => by
    obtain ⟨o, ho⟩ := Dict.mem_keys.1 hk
    unfold getContent
    rw [he k hk, ho]
    dsimp only
    cases hcon : o.content with
    | some c => rfl
    | none =>
      rcases (hg.entries.2 k o ho).shape with h1 | ⟨_, p, po, df, h1, h2, h3, _⟩
      · simp [hcon] at h1
      · rw [h1]
        dsimp only [List.head?_cons]
        rw [getContent_congr hg he f p (Dict.mem_keys.2 ⟨_, h3⟩)]

theorem Grown.content {hash : C → K} {l : Dict K (Commit K C)} {r : K} (hg : Grown hash l r) (d : Dag K C) (hd : d.commits = l) :
    ∀ (f : Nat), l.length ≤ f → ∀ k o, l.get? k = some o → ∃ c, contentOf o = some c ∧ hash c = k ∧ d.getContent f k = .ok c := by
  induction hg generalizing d with
  | root c =>
    intro f hf k o ho
    obtain ⟨f, rfl⟩ : ∃ g, f = g + 1 := ⟨f - 1, by simp at hf; omega⟩
    rw [Dict.get?_cons] at ho
    split at ho
    · rename_i hk
      cases ho
      refine ⟨c, rfl, hk, ?_⟩
      unfold getContent
      rw [hd, Dict.get?_cons, if_pos hk]
    · cases ho
  | @snoc l r c hc h ho b hg hn hget ih =>
    intro f hf k o hk
    have hlen : l.length + 1 ≤ f := by simpa using hf
    have hold : ∀ k ∈ l.keys, d.commits.get? k = l.get? k := fun k hk => by rw [hd, get?_append_old hk]
    rw [get?_snoc hn] at hk
    split at hk
    · rename_i he
      subst he
      cases hk
      obtain ⟨f, rfl⟩ : ∃ g, f = g + 1 := ⟨f - 1, by omega⟩
      refine ⟨c, rfl, rfl, ?_⟩
      obtain ⟨c', _, _, h3⟩ := ih ⟨none, l, none⟩ rfl f (by omega) h ho hget
      unfold getContent
      rw [hd, get?_snoc hn, if_pos rfl]
      dsimp only [List.head?_cons]
      rw [getContent_congr (d := ⟨none, l, none⟩) (e := d) hg hold f h (Dict.mem_keys.2 ⟨_, hget⟩), h3]
      rfl
    · obtain ⟨c', h1, h2, h3⟩ := ih ⟨none, l, none⟩ rfl f (by omega) k o hk
      exact ⟨c', h1, h2, by rw [getContent_congr (d := ⟨none, l, none⟩) (e := d) hg hold f k (Dict.mem_keys.2 ⟨_, hk⟩), h3]⟩

/-! ### steps keep the shape -/

variable {hash : C → K}

theorem init_ok {d d' : Dag K C} {c : C} {k : K} (hd : OK hash d) (h : d.init hash c = .ok (d', k)) :
    d = new ∧ k = hash c ∧ d' = ⟨some k, [(k, ⟨[], [], k, k, some c⟩)], some k⟩ := by
  unfold init at h
  rcases hd with rfl | ⟨x, r, h1, _⟩
  · simp only [new, ne_eq, not_true_eq_false, if_false, Dict.set] at h
    cases h
    exact ⟨rfl, rfl, rfl⟩
  · rw [h1] at h
    simp at h

theorem commit_ok {d d' : Dag K C} {c : C} {b : Option Bool} {a : Answer} {k : K} (h : d.commit hash c b a = .ok (d', k)) :
    k = hash c ∧ k ∉ d.commits.keys ∧ ∃ hd ho s hc, d.head = some hd ∧ d.commits.get? hd = some ho ∧ declared b a = some s ∧
      d' = ⟨some k, d.commits ++ [(k, ⟨[hd], [(c, hc)], k, if s then k else ho.semanticHash, none⟩)], d.initialCommit⟩ := by
  unfold commit at h
  cases hh : d.head with
  | none => rw [hh] at h; cases h
  | some hd =>
    rw [hh] at h
    dsimp only at h
    split at h
    · cases h
    · rename_i hn
      rw [Dict.has_iff] at hn
      cases ho : d.commits.get? hd with
      | none => rw [ho] at h; cases h
      | some o =>
        rw [ho] at h
        dsimp only at h
        cases hs : declared b a with
        | none => rw [hs] at h; cases h
        | some s =>
          rw [hs] at h
          dsimp only at h
          cases hc : d.getContent (d.commits.length + 1) hd with
          | error e => rw [hc] at h; cases h
          | ok pc =>
            rw [hc] at h
            dsimp only at h
            rw [set_new hn] at h
            cases h
            exact ⟨rfl, hn, hd, o, s, pc, rfl, ho, rfl, rfl⟩

theorem commit_keeps {d d' : Dag K C} {c : C} {b : Option Bool} {a : Answer} {k : K} (hd : OK hash d)
    (h : d.commit hash c b a = .ok (d', k)) : OK hash d' := by
  obtain ⟨rfl, hn, x, ho, s, hc, h1, h2, h3, rfl⟩ := commit_ok h
  rcases hd with rfl | ⟨y, r, h4, h5, h6, h7⟩
  · cases h1
  · exact .inr ⟨_, r, rfl, by simp [Dict.keys], h6, h7.snoc c hc x ho s hn h2⟩

theorem checkout_ok {d d' : Dag K C} {k : K} (h : d.checkout k = .ok d') : k ∈ d.commits.keys ∧ d' = { d with head := some k } := by
  unfold checkout at h
  split at h
  · rename_i hk
    cases h
    exact ⟨Dict.has_iff.1 hk, rfl⟩
  · cases h

theorem checkout_keeps {d d' : Dag K C} {k : K} (hd : OK hash d) (h : d.checkout k = .ok d') : OK hash d' := by
  obtain ⟨hk, rfl⟩ := checkout_ok h
  rcases hd with rfl | ⟨y, r, h4, h5, h6, h7⟩
  · cases hk
  · exact .inr ⟨k, r, rfl, hk, h6, h7⟩

/-- What a successful `sync` does. -/
theorem sync_ok {d d' : Dag K C} {c : C} {b : Option Bool} {a : Answer} {k : K} (h : d.sync hash c b a = .ok (d', k)) (hd : OK hash d) :
    k = hash c ∧ ((k ∈ d.commits.keys ∧ d' = { d with head := some k }) ∨ (k ∉ d.commits.keys ∧ d.commit hash c b a = .ok (d', k))) := by
  unfold sync at h
  cases hh : d.head with
  | none => rw [hh] at h; cases h
  | some x =>
    rw [hh] at h
    dsimp only at h
    split at h
    · rename_i he
      cases h
      refine ⟨he, .inl ⟨?_, ?_⟩⟩
      · rcases hd with rfl | ⟨y, r, h4, h5, h6, h7⟩
        · cases hh
        · rw [hh] at h4; cases h4; exact h5
      · rw [← hh]
    · split at h
      · cases hc : d.checkout (hash c) with
        | error e => rw [hc] at h; cases h
        | ok d1 =>
          rw [hc] at h
          cases h
          exact ⟨rfl, .inl (checkout_ok hc)⟩
      · rename_i hn
        rw [Dict.has_iff] at hn
        have hk := (commit_ok h).1
        subst hk
        exact ⟨rfl, .inr ⟨hn, h⟩⟩

theorem step_keeps {d : Dag K C} (hd : OK hash d) (op : Step K C) : OK hash (step hash d op) := by
  cases op with
  | init c =>
    unfold step; dsimp only
    cases h : d.init hash c with
    | error e => exact hd
    | ok r =>
      obtain ⟨d', k⟩ := r
      obtain ⟨_, rfl, rfl⟩ := init_ok hd h
      exact .inr ⟨_, _, rfl, by simp [Dict.keys], rfl, .root c⟩
  | checkout k =>
    unfold step; dsimp only
    cases h : d.checkout k with
    | error e => exact hd
    | ok r => exact checkout_keeps hd h
  | commit c b a =>
    unfold step; dsimp only
    cases h : d.commit hash c b a with
    | error e => exact hd
    | ok r => obtain ⟨d', k⟩ := r; exact commit_keeps hd h
  | sync c b a =>
    unfold step; dsimp only
    cases h : d.sync hash c b a with
    | error e => exact hd
    | ok r =>
      obtain ⟨d', k⟩ := r
      rcases (sync_ok h hd).2 with ⟨hk, rfl⟩ | ⟨_, h'⟩
      · rcases hd with rfl | ⟨y, r, h4, h5, h6, h7⟩
        · cases hk
        · exact .inr ⟨k, r, rfl, hk, h6, h7⟩
      · exact commit_keeps hd h'

theorem run_keeps (ops : List (Step K C)) {d : Dag K C} (hd : OK hash d) : OK hash (run hash d ops) := by
  induction ops generalizing d with
  | nil => exact hd
  | cons op ops ih => exact ih (step_keeps hd op)

/-- A step never changes an existing commit. -/
theorem step_old {d : Dag K C} (hd : OK hash d) (op : Step K C) {k : K} {o : Commit K C} (h : d.commits.get? k = some o) :
    (step hash d op).commits.get? k = some o := by
  have hk : k ∈ d.commits.keys := Dict.mem_keys.2 ⟨o, h⟩
  have hcommit : ∀ {c : C} {b a} {d' : Dag K C} {k' : K}, d.commit hash c b a = .ok (d', k') → d'.commits.get? k = some o := by
    intro c b a d' k' hc
    obtain ⟨_, _, _, _, _, _, _, _, _, rfl⟩ := commit_ok hc
    show Dict.get? (d.commits ++ _) k = _
    rw [get?_append_old hk, h]
  cases op with
  | init c =>
    unfold step; dsimp only
    cases hi : d.init hash c with
    | error e => exact h
    | ok r =>
      obtain ⟨d', k'⟩ := r
      obtain ⟨rfl, _, _⟩ := init_ok hd hi
      cases h
  | checkout k' =>
    unfold step; dsimp only
    cases hc : d.checkout k' with
    | error e => exact h
    | ok r => obtain ⟨_, rfl⟩ := checkout_ok hc; exact h
  | commit c b a =>
    unfold step; dsimp only
    cases hc : d.commit hash c b a with
    | error e => exact h
    | ok r => obtain ⟨d', k'⟩ := r; exact hcommit hc
  | sync c b a =>
    unfold step; dsimp only
    cases hc : d.sync hash c b a with
    | error e => exact h
    | ok r =>
      obtain ⟨d', k'⟩ := r
      rcases (sync_ok hc hd).2 with ⟨_, rfl⟩ | ⟨_, h'⟩
      · exact h
      · exact hcommit h'

theorem run_old (ops : List (Step K C)) {d : Dag K C} (hd : OK hash d) {k : K} {o : Commit K C} (h : d.commits.get? k = some o) :
    (run hash d ops).commits.get? k = some o := by
  induction ops generalizing d with
  | nil => exact h
  | cons op ops ih => exact ih (step_keeps hd op) (step_old hd op h)

/-- The content a use brings in. -/
def brings : Step K C → Option C
  | .init c => some c
  | .checkout _ => none
  | .commit c _ _ => some c
  | .sync c _ _ => some c

/-- A commit that appears in a step is the content of that step. -/
theorem step_new {d : Dag K C} (hd : OK hash d) (op : Step K C) {k : K} {o : Commit K C} (h0 : k ∉ d.commits.keys)
    (h : (step hash d op).commits.get? k = some o) : ∃ c, brings op = some c ∧ contentOf o = some c ∧ hash c = k := by
  have hcommit : ∀ {c : C} {b a} {d' : Dag K C} {k' : K}, d.commit hash c b a = .ok (d', k') → d'.commits.get? k = some o →
      contentOf o = some c ∧ hash c = k := by
    intro c b a d' k' hc ho
    obtain ⟨rfl, _, _, _, _, _, _, _, _, rfl⟩ := commit_ok hc
    change Dict.get? (d.commits ++ _) k = _ at ho
    rw [get?_append_new h0, Dict.get?_cons] at ho
    split at ho
    · rename_i he
      cases ho
      exact ⟨rfl, he⟩
    · cases ho
  have hno : d.commits.get? k ≠ some o := fun hc => h0 (Dict.mem_keys.2 ⟨o, hc⟩)
  cases op with
  | init c =>
    refine ⟨c, rfl, ?_⟩
    unfold step at h; dsimp only at h
    cases hi : d.init hash c with
    | error e => rw [hi] at h; exact absurd h hno
    | ok r =>
      obtain ⟨d', k'⟩ := r
      rw [hi] at h
      obtain ⟨rfl, rfl, rfl⟩ := init_ok hd hi
      change Dict.get? [_] k = _ at h
      rw [Dict.get?_cons] at h
      split at h
      · rename_i he
        cases h
        exact ⟨rfl, he⟩
      · cases h
  | checkout k' =>
    unfold step at h; dsimp only at h
    cases hc : d.checkout k' with
    | error e => rw [hc] at h; exact absurd h hno
    | ok r =>
      rw [hc] at h
      obtain ⟨_, rfl⟩ := checkout_ok hc
      exact absurd h hno
  | commit c b a =>
    refine ⟨c, rfl, ?_⟩
    unfold step at h; dsimp only at h
    cases hc : d.commit hash c b a with
    | error e => rw [hc] at h; exact absurd h hno
    | ok r => obtain ⟨d', k'⟩ := r; rw [hc] at h; exact hcommit hc h
  | sync c b a =>
    refine ⟨c, rfl, ?_⟩
    unfold step at h; dsimp only at h
    cases hc : d.sync hash c b a with
    | error e => rw [hc] at h; exact absurd h hno
    | ok r =>
      obtain ⟨d', k'⟩ := r
      rw [hc] at h
      rcases (sync_ok hc hd).2 with ⟨_, rfl⟩ | ⟨_, h'⟩
      · exact absurd h hno
      · exact hcommit h' h

theorem OK.grown {d : Dag K C} (hd : OK hash d) {k : K} (hk : k ∈ d.commits.keys) :
    ∃ h r, d.head = some h ∧ h ∈ d.commits.keys ∧ d.initialCommit = some r ∧ Grown hash d.commits r := by
  rcases hd with rfl | h
  · cases hk
  · exact h

end Dag
end Verif
