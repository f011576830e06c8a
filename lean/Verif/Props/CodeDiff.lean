import Verif.Proofs.CodeMatch
/-!
C88: what is shown of a change of code is the whole change.

Lines are what `splitlines` gives. The full statement is `C88_whole_change_partial` without its two hypotheses; it is refuted below: a line of the diff that looks like a header
is left out.
-/
namespace Verif.Props

open Verif CodeDiff

/-- No removed or added line looks like a header of the diff. -/
def NoHeader (old new : List Char) : Prop :=
  (∀ l ∈ splitLines old, ¬ ['-', '-'] <+: l) ∧ ∀ l ∈ splitLines new, ¬ ['+', '+'] <+: l

theorem shows_marked {old new out : List (List Char)} (h : Shows mark old new out) : ∀ l ∈ out, ∃ r, (l = ' ' :: r ∧ r ∈ old ∧ r ∈ new) ∨ (l = '-' :: r ∧ r ∈ old) ∨ (l = '+' :: r ∧ r ∈ new) := by
  induction h with
  | nil => intro l hl; cases hl
  | hidden x _ ih =>
    intro l hl
    obtain ⟨r, h⟩ := ih l hl
    exact ⟨r, h.imp (fun h => ⟨h.1, .tail _ h.2.1, .tail _ h.2.2⟩) fun h => h.imp (fun h => ⟨h.1, .tail _ h.2⟩) fun h => ⟨h.1, .tail _ h.2⟩⟩
  | context x _ ih =>
    intro l hl
    rcases List.mem_cons.1 hl with rfl | hl
    · exact ⟨x, .inl ⟨rfl, .head _, .head _⟩⟩
    · obtain ⟨r, h⟩ := ih l hl
      exact ⟨r, h.imp (fun h => ⟨h.1, .tail _ h.2.1, .tail _ h.2.2⟩) fun h => h.imp (fun h => ⟨h.1, .tail _ h.2⟩) fun h => ⟨h.1, .tail _ h.2⟩⟩
  | removed x _ ih =>
    intro l hl
    rcases List.mem_cons.1 hl with rfl | hl
    · exact ⟨x, .inr (.inl ⟨rfl, .head _⟩)⟩
    · obtain ⟨r, h⟩ := ih l hl
      exact ⟨r, h.imp (fun h => ⟨h.1, .tail _ h.2.1, h.2.2⟩) fun h => h.imp (fun h => ⟨h.1, .tail _ h.2⟩) fun h => ⟨h.1, h.2⟩⟩
  | added x _ ih =>
    intro l hl
    rcases List.mem_cons.1 hl with rfl | hl
    · exact ⟨x, .inr (.inr ⟨rfl, .head _⟩)⟩
    · obtain ⟨r, h⟩ := ih l hl
      exact ⟨r, h.imp (fun h => ⟨h.1, h.2.1, .tail _ h.2.2⟩) fun h => h.imp (fun h => ⟨h.1, h.2⟩) fun h => ⟨h.1, .tail _ h.2⟩⟩

/-- C88: whatever the texts are, what is shown is a diff of the two, except for lines that look like a header. -/
theorem C88_nothing_made_up (n : Nat) (old new : List Char) : ∃ full, Shows mark (splitLines old) (splitLines new) full ∧
    diffLines n old new = full.filter fun l => !(['-', '-', '-'].isPrefixOf l || ['+', '+', '+'].isPrefixOf l) := by
  refine ⟨_, walk_shows (grouped_walk (n := n) (opcodes_walk _ _ _ (Nat.zero_le _) (Nat.zero_le _) (matchingBlocks_ok _ _))), ?_⟩
  unfold diffLines
  rw [diffLines_eq]
  refine List.filter_congr fun l hl => ?_
  obtain ⟨r, h⟩ := shows_marked (walk_shows (grouped_walk (n := n) (opcodes_walk _ _ _ (Nat.zero_le _) (Nat.zero_le _) (matchingBlocks_ok _ _)))) l hl
  have : starts "@@".toList l = false := by rcases h with ⟨rfl, _⟩ | ⟨rfl, _⟩ | ⟨rfl, _⟩ <;> rfl
  unfold isHeader
  rw [this, Bool.false_or, Bool.or_comm]
  rfl

/-- C88: the diff shows every removed and every added line. -/
theorem C88_whole_change_partial (n : Nat) {old new : List Char} (h : NoHeader old new) : Shows mark (splitLines old) (splitLines new) (diffLines n old new) := by
  obtain ⟨full, h1, h2⟩ := C88_nothing_made_up n old new
  rw [h2, List.filter_eq_self.2]
  · exact h1
  · intro l hl
    obtain ⟨r, h3⟩ := shows_marked h1 l hl
    rcases h3 with ⟨rfl, _⟩ | ⟨rfl, hr⟩ | ⟨rfl, hr⟩
    · rfl
    · have := h.1 r hr
      rw [← List.isPrefixOf_iff_prefix, Bool.not_eq_true] at this
      show (!(['-', '-'].isPrefixOf r || false)) = true
      rw [this]
      rfl
    · have := h.2 r hr
      rw [← List.isPrefixOf_iff_prefix, Bool.not_eq_true] at this
      show (!(false || ['+', '+'].isPrefixOf r)) = true
      rw [this]
      rfl

/-- C88: in other words, the number of times a line is there changes by what is shown; so a new line is shown with a plus, a line that is gone with a minus, and if nothing is
shown then no line has changed. -/
theorem C88_every_changed_line_partial (n : Nat) {old new : List Char} (h : NoHeader old new) :
    (∀ l, (splitLines old).count l + (diffLines n old new).count ('+' :: l) = (splitLines new).count l + (diffLines n old new).count ('-' :: l)) ∧
    (∀ l ∈ splitLines new, l ∉ splitLines old → '+' :: l ∈ diffLines n old new) ∧ (∀ l ∈ splitLines old, l ∉ splitLines new → '-' :: l ∈ diffLines n old new) ∧
    (diffLines n old new = [] → splitLines old = splitLines new) := by
  have hs := C88_whole_change_partial n h
  generalize diffLines n old new = out at hs ⊢
  have hc : ∀ l, (splitLines old).count l + out.count ('+' :: l) = (splitLines new).count l + out.count ('-' :: l) := by
    intro l
    generalize splitLines old = o at hs
    generalize splitLines new = w at hs
    induction hs with
    | nil => rfl
    | hidden x _ ih => simp only [List.count_cons]; omega
    | context x _ ih =>
      have e1 : (mark ' ' x == '+' :: l) = false := by rfl
      have e2 : (mark ' ' x == '-' :: l) = false := by rfl
      simp only [List.count_cons, e1, e2]
      simp
      omega
    | removed x _ ih =>
      have e1 : (mark '-' x == '+' :: l) = false := by rfl
      have e2 : (mark '-' x == '-' :: l) = (x == l) := by simp [mark]
      simp only [List.count_cons, e1, e2]
      simp
      omega
    | added x _ ih =>
      have e1 : (mark '+' x == '-' :: l) = false := by rfl
      have e2 : (mark '+' x == '+' :: l) = (x == l) := by simp [mark]
      simp only [List.count_cons, e1, e2]
      simp
      omega
  refine ⟨hc, fun l h1 h2 => ?_, fun l h1 h2 => ?_, fun h0 => ?_⟩
  · have := hc l
    have := List.count_pos_iff.2 h1
    have := List.count_eq_zero_of_not_mem h2
    exact List.count_pos_iff.1 (by omega)
  · have := hc l
    have := List.count_pos_iff.2 h1
    have := List.count_eq_zero_of_not_mem h2
    exact List.count_pos_iff.1 (by omega)
  · subst h0
    generalize hout : ([] : List (List Char)) = out at hs
    clear hc
    generalize splitLines old = o at hs
    generalize splitLines new = w at hs
    induction hs with
    | nil => rfl
    | hidden x _ ih => rw [ih hout]
    | context => cases hout
    | removed => cases hout
    | added => cases hout

/-! ### the text -/

def NoBreak (l : List Char) : Prop := ∀ c ∈ l, isBreak c = false

theorem split_line : ∀ (l cur : List Char) (rest : List Char), NoBreak l → splitFrom cur (l ++ '\n' :: rest) = (cur.reverse ++ l) :: splitFrom [] rest
  | [], cur, rest, _ => by
    rw [List.nil_append, List.append_nil]
    rw [splitFrom]
    · rfl
    · intro cs h; exact absurd h (by decide)
  | c :: l, cur, rest, h => by
    have hc : isBreak c = false := h c List.mem_cons_self
    rw [List.cons_append, splitFrom]
    · rw [hc, split_line l (c :: cur) rest fun x hx => h x (List.mem_cons_of_mem _ hx)]
      simp
    · rintro cs rfl
      exact absurd hc (by decide)

theorem split_last : ∀ (l cur : List Char), NoBreak l → l ≠ [] ∨ cur ≠ [] → splitFrom cur l = [cur.reverse ++ l]
  | [], cur, _, h => by
    rw [splitFrom, if_neg (h.resolve_left fun h => h rfl), List.append_nil]
  | c :: l, cur, h, _ => by
    have hc : isBreak c = false := h c List.mem_cons_self
    rw [splitFrom]
    · rw [hc, split_last l (c :: cur) (fun x hx => h x (List.mem_cons_of_mem _ hx)) (.inr (List.cons_ne_nil _ _))]
      simp
    · rintro cs rfl
      exact absurd hc (by decide)

theorem lines_unbroken : ∀ (text cur : List Char), NoBreak cur → ∀ l ∈ splitFrom cur text, NoBreak l := by
  intro text cur
  induction cur, text using splitFrom.induct with
  | case1 => intro _ l hl; rw [splitFrom, if_pos rfl] at hl; cases hl
  | case2 cur h =>
    intro hc l hl
    rw [splitFrom, if_neg h, List.mem_singleton] at hl
    subst hl
    exact fun c hm => hc c (List.mem_reverse.1 hm)
  | case3 cur cs ih =>
    intro hc l hl
    rw [splitFrom] at hl
    rcases List.mem_cons.1 hl with rfl | hl
    · exact fun c hm => hc c (List.mem_reverse.1 hm)
    · exact ih (fun _ h => by cases h) l hl
  | case4 cur c cs hne hb ih =>
    intro hc l hl
    rw [splitFrom.eq_3 _ _ _ hne, if_pos hb] at hl
    rcases List.mem_cons.1 hl with rfl | hl
    · exact fun c hm => hc c (List.mem_reverse.1 hm)
    · exact ih (fun _ h => by cases h) l hl
  | case5 cur c cs hne hb ih =>
    intro hc l hl
    rw [splitFrom.eq_3 _ _ _ hne, if_neg hb] at hl
    refine ih (fun x hx => ?_) l hl
    rcases List.mem_cons.1 hx with rfl | hx
    · simpa using hb
    · exact hc x hx

theorem lines_chars : ∀ (text cur : List Char), ∀ l ∈ splitFrom cur text, ∀ c ∈ l, c ∈ cur ∨ c ∈ text := by
  intro text cur
  induction cur, text using splitFrom.induct with
  | case1 => intro l hl; rw [splitFrom, if_pos rfl] at hl; cases hl
  | case2 cur h =>
    intro l hl c hc
    rw [splitFrom, if_neg h, List.mem_singleton] at hl
    subst hl
    exact .inl (List.mem_reverse.1 hc)
  | case3 cur cs ih =>
    intro l hl c hc
    rw [splitFrom] at hl
    rcases List.mem_cons.1 hl with rfl | hl
    · exact .inl (List.mem_reverse.1 hc)
    · exact .inr (.tail _ (.tail _ ((ih l hl c hc).resolve_left List.not_mem_nil)))
  | case4 cur c cs hne hb ih =>
    intro l hl x hx
    rw [splitFrom.eq_3 _ _ _ hne, if_pos hb] at hl
    rcases List.mem_cons.1 hl with rfl | hl
    · exact .inl (List.mem_reverse.1 hx)
    · exact .inr (.tail _ ((ih l hl x hx).resolve_left List.not_mem_nil))
  | case5 cur c cs hne hb ih =>
    intro l hl x hx
    rw [splitFrom.eq_3 _ _ _ hne, if_neg hb] at hl
    rcases ih l hl x hx with h | h
    · rcases List.mem_cons.1 h with rfl | h
      · exact .inr (.head _)
      · exact .inl h
    · exact .inr (.tail _ h)

theorem join_split : ∀ {L : List (List Char)}, (∀ l ∈ L, NoBreak l ∧ l ≠ []) → splitLines (joinWith ['\n'] L) = L
  | [], _ => rfl
  | [l], h => by
    obtain ⟨h1, h2⟩ := h l List.mem_cons_self
    exact split_last l [] h1 (.inl h2)
  | l :: m :: L, h => by
    have ih := join_split (L := m :: L) fun x hx => h x (List.mem_cons_of_mem _ hx)
    show splitFrom [] (l ++ ['\n'] ++ joinWith ['\n'] (m :: L)) = _
    rw [List.append_assoc, List.singleton_append, split_line l [] _ (h l List.mem_cons_self).1]
    exact congrArg (l :: ·) ih

theorem shown_unbroken {n : Nat} {old new : List Char} : ∀ l ∈ diffLines n old new, NoBreak l ∧ l ≠ [] := by
  intro l hl
  obtain ⟨full, h1, h2⟩ := C88_nothing_made_up n old new
  rw [h2] at hl
  have hn : ∀ {t r : List Char}, r ∈ splitLines t → NoBreak r := fun h => lines_unbroken _ _ (fun _ h => by cases h) _ h
  have hcons : ∀ {c : Char} {r : List Char}, isBreak c = false → NoBreak r → NoBreak (c :: r) ∧ c :: r ≠ [] := fun hc hr =>
    ⟨fun x hx => by
      rcases List.mem_cons.1 hx with rfl | hx
      · exact hc
      · exact hr x hx, List.cons_ne_nil _ _⟩
  obtain ⟨r, h⟩ := shows_marked h1 l (List.mem_filter.1 hl).1
  rcases h with ⟨rfl, hr, _⟩ | ⟨rfl, hr⟩ | ⟨rfl, hr⟩
  · exact hcons (by decide) (hn hr)
  · exact hcons (by decide) (hn hr)
  · exact hcons (by decide) (hn hr)

/-- C88: the text in the compact source history has exactly the lines of the diff. -/
theorem C88_text (old new : List Char) : splitLines (getDiff old new) = diffLines 2 old new := join_split shown_unbroken

/-- C88: before asking, the change from the last known code to the new one is shown, as plain text for `rich`. -/
theorem C88_prompt_partial {content head : List Char} (h : NoHeader head content) :
    ∃ text, promptText true content head = .ok text ∧ Shows mark (splitLines head) (splitLines content) (splitLines text) := by
  have hid : (diffLines 2 head content).map (colorLine .multiline false) = diffLines 2 head content := by
    conv => rhs; rw [← List.map_id (diffLines 2 head content)]
    refine List.map_congr_left fun l _ => ?_
    unfold colorLine
    split <;> rfl
  refine ⟨_, rfl, ?_⟩
  dsimp only
  rw [hid, join_split shown_unbroken]
  exact C88_whole_change_partial 2 h

theorem visible_plain : ∀ {l : List Char} (m : List Char), '\x1b' ∉ l → visible (l ++ m) = l ++ visible m
  | [], _, _ => rfl
  | c :: l, m, h => by
    rw [List.cons_append, visible, if_neg fun (hc : c = '\x1b') => h (hc ▸ List.mem_cons_self), visible_plain m fun hm => h (List.mem_cons_of_mem _ hm)]
    rfl

theorem visible_colored {l : List Char} (h : '\x1b' ∉ l) : visible (colorize 31 l) = l ∧ visible (colorize 32 l) = l := by
  have e : visible "\x1b[0m".toList = [] := by decide
  constructor
  · show visible (l ++ "\x1b[0m".toList) = l
    rw [visible_plain _ h, e, List.append_nil]
  · show visible (l ++ "\x1b[0m".toList) = l
    rw [visible_plain _ h, e, List.append_nil]

/-- C88: the same without `rich`, on a terminal, for code without escape characters. -/
theorem C88_colored_prompt_partial {content head : List Char} (h : NoHeader head content) (he : '\x1b' ∉ head) (he' : '\x1b' ∉ content) :
    ∃ text, promptText false content head = .ok text ∧ Shows mark (splitLines head) (splitLines content) ((splitLines text).map visible) := by
  have hesc : ∀ l ∈ diffLines 2 head content, '\x1b' ∉ l := fun l hl hm => by
    have hof : ∀ {t r : List Char}, '\x1b' ∉ t → r ∈ splitLines t → '\x1b' ∉ r := fun ht hr hm => by
      rcases lines_chars _ _ _ hr _ hm with h | h
      · cases h
      · exact ht h
    obtain ⟨full, h1, h2⟩ := C88_nothing_made_up 2 head content
    rw [h2] at hl
    obtain ⟨r, h⟩ := shows_marked h1 l (List.mem_filter.1 hl).1
    rcases h with ⟨rfl, hr, _⟩ | ⟨rfl, hr⟩ | ⟨rfl, hr⟩ <;> rcases List.mem_cons.1 hm with hm | hm
    · exact absurd hm (by decide)
    · exact hof he hr hm
    · exact absurd hm (by decide)
    · exact hof he hr hm
    · exact absurd hm (by decide)
    · exact hof he' hr hm
  have hcol : ∀ l ∈ (diffLines 2 head content).map (colorLine .multiline true), NoBreak l ∧ l ≠ [] := by
    intro l hl
    obtain ⟨x, hx, rfl⟩ := List.mem_map.1 hl
    have hn := shown_unbroken x hx
    have hc : ∀ n, n = 31 ∨ n = 32 → NoBreak (colorize n x) ∧ colorize n x ≠ [] := fun n h31 => by
      refine ⟨fun c hc => ?_, by unfold colorize; exact List.cons_ne_nil _ _⟩
      have hmem : c ∈ '\x1b' :: '[' :: (toString n).toList ++ ['m'] ++ "\x1b[0m".toList ∨ c ∈ x := by
        unfold colorize at hc
        simp only [List.mem_append, List.mem_cons, List.cons_append, List.not_mem_nil, or_false] at hc ⊢
        grind
      rcases hmem with hm | hm
      · rcases h31 with rfl | rfl
        · clear hc; revert c; decide +kernel
        · clear hc; revert c; decide +kernel
      · exact hn.1 c hm
    unfold colorLine
    split
    · exact hc 31 (.inl rfl)
    · exact hc 32 (.inr rfl)
    · exact hn
  refine ⟨_, rfl, ?_⟩
  dsimp only
  rw [join_split hcol, List.map_map]
  have hvis : (diffLines 2 head content).map (visible ∘ colorLine .multiline true) = diffLines 2 head content := by
    conv => rhs; rw [← List.map_id (diffLines 2 head content)]
    refine List.map_congr_left fun l hl => ?_
    show visible (colorLine .multiline true l) = l
    unfold colorLine
    split
    · exact (visible_colored (hesc _ hl)).1
    · exact (visible_colored (hesc _ hl)).2
    · have := visible_plain [] (hesc _ hl)
      rwa [List.append_nil, visible, List.append_nil] at this
  rw [hvis]
  exact C88_whole_change_partial 2 h

/-! ### concrete changes -/

def queryOld : List Char := "def f(db):\n    q = '''\nselect a from t\n'''\n    return db.run(q)\n".toList

/-- the condition of the query is changed -/
def queryNew : List Char := "def f(db):\n    q = '''\nselect a from t\n  where a > 0\n'''\n    return db.run(q)\n".toList

/-- the second part of the query is commented out -/
def queryUnion : List Char := "def f(db):\n    q = '''\nselect a from t\n-- union all select a from u\n'''\n    return db.run(q)\n".toList

example : NoHeader queryOld queryNew := by unfold NoHeader; decide +kernel

example : (promptText true queryNew queryOld).toOption = some "     q = '''\n select a from t\n+  where a > 0\n '''\n     return db.run(q)".toList := by decide +kernel

example : (promptText false queryNew queryOld).toOption = some "     q = '''\n select a from t\n\x1b[32m+  where a > 0\x1b[0m\n '''\n     return db.run(q)".toList := by decide +kernel

/-- C88 is refuted: if a line that starts with two dashes is removed, the user is asked about a change and shown lines that did not change. -/
theorem C88_refuted_removed : "-- union all select a from u".toList ∈ splitLines queryUnion ∧ "-- union all select a from u".toList ∉ splitLines queryOld ∧
    (promptText true queryOld queryUnion).toOption = some "     q = '''\n select a from t\n '''\n     return db.run(q)".toList := by
  decide +kernel

/-- C88 is refuted: the same for an added line that starts with two plus signs. -/
theorem C88_refuted_added : getDiff "s = '''\nx\n'''".toList "s = '''\nx\n++i;\n'''".toList = " s = '''\n x\n '''".toList := by
  decide +kernel

/-- C88 is refuted for texts instead of lines: nothing is shown of a change of line ends. -/
theorem C88_refuted_line_end : "return 1".toList ≠ "return 1\n".toList ∧ getDiff "return 1".toList "return 1\n".toList = [] := by
  decide +kernel

end Verif.Props
