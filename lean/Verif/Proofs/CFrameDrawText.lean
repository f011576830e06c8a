import Verif.Proofs.CFrameDraw
/-!
The dot program of a drawing read back.
-/
namespace Verif.CFrame

open Props

/-! ### lines -/

theorem dotLines_ne (t : List Char) : dotLines t ≠ [] := by
  cases t with
  | nil => simp [dotLines]
  | cons c r =>
    simp only [dotLines]
    split
    · simp
    · split <;> simp

theorem dotLines_append (a b : List Char) : dotLines (a ++ '\n' :: b) = dotLines a ++ dotLines b := by
  induction a with
  | nil => simp [dotLines]
  | cons c a ih =>
    simp only [List.cons_append, dotLines, ih]
    split
    · rfl
    · cases h : dotLines a with
      | nil => exact absurd h (dotLines_ne a)
      | cons l ls => rfl

theorem dotLines_one {a : List Char} (h : '\n' ∉ a) : dotLines a = [a] := by
  induction a with
  | nil => rfl
  | cons c a ih =>
    have h1 : c ≠ '\n' := fun e => h (by simp [e])
    have h2 : '\n' ∉ a := fun e => h (by simp [e])
    simp [dotLines, h1, ih h2]

theorem dotRead_append (a b : List Char) : dotRead (a ++ '\n' :: b) = dotRead a ++ dotRead b := by
  unfold dotRead
  rw [dotLines_append, List.filterMap_append]

theorem dotRead_space (t : List Char) : dotRead (' ' :: t) = dotRead t := by
  unfold dotRead
  rw [dotLines, if_neg (by decide)]
  cases h : dotLines t with
  | nil => exact absurd h (dotLines_ne t)
  | cons l ls => simp [List.filterMap_cons]

theorem dotRead_spaces (k : Nat) (t : List Char) : dotRead (List.replicate k ' ' ++ t) = dotRead t := by
  induction k with
  | zero => rfl
  | succ k ih => rw [List.replicate_succ, List.cons_append, dotRead_space, ih]

/-- a line that does not begin with a space -/
def OneLine (l : String) : Prop := '\n' ∉ l.toList ∧ l.toList.dropWhile (· = ' ') = l.toList

theorem dotRead_one {l : String} (h : OneLine l) : dotRead l.toList = (dotStmt l.toList).toList := by
  unfold dotRead
  rw [dotLines_one h.1, List.filterMap_cons, h.2]
  cases dotStmt l.toList <;> rfl

theorem dotRead_join {ls : List String} (h : ∀ l ∈ ls, OneLine l) : dotRead (dotJoin ls).toList = ls.filterMap fun l => dotStmt l.toList := by
  induction ls with
  | nil => rfl
  | cons a ls ih =>
    have ih := ih fun l hl => h l (by simp [hl])
    have e : dotRead a.toList = (dotStmt a.toList).toList := dotRead_one (h a (by simp))
    cases ls with
    | nil =>
      unfold dotJoin
      rw [String.intercalate_singleton, e]
      cases hd : dotStmt a.toList <;> simp [hd]
    | cons b ls =>
      have h1 : (dotJoin (a :: b :: ls)).toList = a.toList ++ '\n' :: (List.replicate 12 ' ' ++ (dotJoin (b :: ls)).toList) := by
        unfold dotJoin
        rw [String.intercalate_cons_cons]
        simp
      rw [h1, dotRead_append, dotRead_spaces, ih, e]
      generalize b :: ls = t
      rw [List.filterMap_cons]
      cases hd : dotStmt a.toList <;> rfl

/-! ### statements -/

theorem dotQuoted_plain {l : List Char} (h : ∀ c ∈ l, c ≠ '"' ∧ c ≠ '\\') (r : List Char) : dotQuoted (l ++ '"' :: r) = some (l, r) := by
  induction l with
  | nil => simp [dotQuoted]
  | cons c l ih =>
    have h1 := h c (by simp)
    have ih := ih fun x hx => h x (by simp [hx])
    rw [List.cons_append, dotQuoted, ih]
    · rfl
    · intro e; exact h1.1 e
    · intro c' r' e; exact absurd e h1.2

/-- the part of a label after a line break -/
theorem dotQuoted_label {l m : List Char} (hl : ∀ c ∈ l, c ≠ '"' ∧ c ≠ '\\') (hm : ∀ c ∈ m, c ≠ '"' ∧ c ≠ '\\') (r : List Char) :
    dotQuoted (l ++ '\\' :: 'n' :: (m ++ '"' :: r)) = some (l ++ '\\' :: 'n' :: m, r) := by
  induction l with
  | nil => simp [dotQuoted, dotQuoted_plain hm]
  | cons c l ih =>
    have h1 := hl c (by simp)
    have ih := ih fun x hx => hl x (by simp [hx])
    rw [List.cons_append, dotQuoted, ih]
    · rfl
    · intro e; exact h1.1 e
    · intro c' r' e; exact absurd e h1.2

/-- text for a label like html -/
def PlainText (l : List Char) : Prop := l ≠ [] ∧ ∀ c ∈ l, c ≠ '<' ∧ c ≠ '>' ∧ c ≠ '&' ∧ c ≠ '\n'

theorem dotTexts_text {l : List Char} (h : ∀ c ∈ l, c ≠ '<' ∧ c ≠ '>' ∧ c ≠ '&' ∧ c ≠ '\n') (cur r : List Char) :
    dotTexts false cur (l ++ r) = dotTexts false (l.reverse ++ cur) r := by
  induction l generalizing cur with
  | nil => rfl
  | cons c l ih =>
    obtain ⟨h1, h2, h3, _⟩ := h c (by simp)
    rw [List.cons_append, dotTexts, if_neg h1, if_neg h2, if_neg h3, ih fun x hx => h x (by simp [hx])]
    simp

theorem dotTexts_tag {t : List Char} (h : '>' ∉ t) (r : List Char) : dotTexts true [] (t ++ '>' :: r) = dotTexts false [] r := by
  induction t with
  | nil => simp [dotTexts]
  | cons c t ih =>
    have h1 : c ≠ '>' := fun e => h (by simp [e])
    rw [List.cons_append, dotTexts, if_neg h1, ih fun e => h (by simp [e])]

/-- a tag where there is no text before it -/
theorem dotTexts_open {t : List Char} (h : '>' ∉ t) (r : List Char) : dotTexts false [] ('<' :: (t ++ '>' :: r)) = dotTexts false [] r := by
  rw [dotTexts, if_pos rfl, if_pos rfl, dotTexts_tag h]

/-- a text and the tag after it -/
theorem dotTexts_close {l t : List Char} (hl : PlainText l) (h : '>' ∉ t) (r : List Char) :
    dotTexts false [] (l ++ '<' :: (t ++ '>' :: r)) = (dotTexts false [] r).map (l :: ·) := by
  have hne : l.reverse ++ [] ≠ [] := by simpa using hl.1
  rw [dotTexts_text hl.2, dotTexts, if_pos rfl, if_neg hne, dotTexts_tag h]
  simp

def lineChars (color l : List Char) : List Char :=
  "<FONT color=\"".toList ++ (color ++ ("\" point-size=\"10\">".toList ++ (l ++ "</FONT><BR/>".toList)))

set_option simprocs false in
theorem dotTexts_line {color l : List Char} (hc : '>' ∉ color) (hl : PlainText l) (r : List Char) :
    dotTexts false [] (lineChars color l ++ r) = (dotTexts false [] r).map (l :: ·) := by
  have k1 : "<FONT color=\"".toList = '<' :: "FONT color=\"".toList := by decide +kernel
  have k2 : "\" point-size=\"10\">".toList = "\" point-size=\"10\"".toList ++ ['>'] := by decide +kernel
  have k3 : "</FONT><BR/>".toList = '<' :: ("/FONT".toList ++ '>' :: '<' :: ("BR/".toList ++ ['>'])) := by decide +kernel
  have h1 : lineChars color l ++ r = '<' :: (("FONT color=\"".toList ++ (color ++ "\" point-size=\"10\"".toList)) ++ '>' :: (l ++ '<' :: ("/FONT".toList ++ '>' ::
      ('<' :: ("BR/".toList ++ '>' :: r))))) := by
    unfold lineChars
    simp only [k1, k2, k3, List.append_assoc, List.cons_append, List.nil_append]
  have h2 : '>' ∉ "FONT color=\"".toList ++ (color ++ "\" point-size=\"10\"".toList) := by
    have k4 : '>' ∉ "FONT color=\"".toList := by decide
    have k5 : '>' ∉ "\" point-size=\"10\"".toList := by decide
    simp only [List.mem_append, k4, k5, hc, or_self, not_false_iff]
  rw [h1, dotTexts_open h2, dotTexts_close hl (by decide), dotTexts_open (by decide)]

def colorsOf (b : DrawNode) : List String := if b.func then [base03, red] else [blue]

theorem dotTexts_lines {ps : List (String × String)} (h : ∀ p ∈ ps, PlainText p.1.toList ∧ '>' ∉ p.2.toList) (r : List Char) :
    dotTexts false [] ((ps.flatMap fun p => lineChars p.2.toList p.1.toList) ++ r) = (dotTexts false [] r).map ((ps.map (·.1.toList)) ++ ·) := by
  induction ps with
  | nil => simp
  | cons p ps ih =>
    have h1 := h p (by simp)
    rw [List.flatMap_cons, List.append_assoc, dotTexts_line h1.2 h1.1, ih fun q hq => h q (by simp [hq])]
    cases dotTexts false [] r <;> rfl

theorem join_toList (ls : List String) : (String.join ls).toList = ls.flatMap (·.toList) := by
  simp [List.flatMap_def]

theorem five_chars (a b c d e : String) : (a ++ b ++ c ++ d ++ e).toList = a.toList ++ (b.toList ++ (c.toList ++ (d.toList ++ e.toList))) := by
  simp only [String.toList_append, List.append_assoc]

theorem lines_chars (ps : List (String × String)) :
    (String.join (ps.map fun p => "<FONT color=\"" ++ p.2 ++ "\" point-size=\"10\">" ++ p.1 ++ "</FONT><BR/>")).toList =
      ps.flatMap fun p => lineChars p.2.toList p.1.toList := by
  rw [join_toList, List.flatMap_map]
  exact congrArg (fun F => ps.flatMap F) (funext fun _ => five_chars _ _ _ _ _)

def nodeRest (b : DrawNode) : List Char := ", color=\"".toList ++ (if b.func then red else blue).toList ++ "\", shape=\"rect\"];".toList

set_option simprocs false in
theorem node_chars (b : DrawNode) : b.text.toList = '"' :: (b.name.toList ++ '"' :: (" [label=<".toList ++ ('<' :: ("B".toList ++ '>' :: ('<' ::
    ("FONT POINT-SIZE=\"12\"".toList ++ '>' :: (b.name.toList ++ '<' :: ("/FONT".toList ++ '>' :: ('<' :: ("/B".toList ++ '>' :: ('<' :: ("BR/".toList ++ '>' ::
    (((b.lines.zip (colorsOf b)).flatMap fun p => lineChars p.2.toList p.1.toList) ++ '>' :: nodeRest b))))))))))))) := by
  have k1 : "\"".toList = ['"'] := rfl
  have k2 : "\" [label=<<B><FONT POINT-SIZE=\"12\">".toList = '"' :: (" [label=<".toList ++ '<' :: ("B".toList ++ '>' :: '<' :: ("FONT POINT-SIZE=\"12\"".toList ++ ['>']))) := rfl
  have k3 : "</FONT></B><BR/>".toList = '<' :: ("/FONT".toList ++ '>' :: '<' :: ("/B".toList ++ '>' :: '<' :: ("BR/".toList ++ ['>']))) := rfl
  have k4 : ">, color=\"".toList = '>' :: ", color=\"".toList := rfl
  unfold DrawNode.text nodeRest
  simp only [String.toList_append, lines_chars, k1, k2, k3, k4, List.append_assoc, List.cons_append, List.nil_append, colorsOf]

structure CleanNode (b : DrawNode) : Prop where
  name : PlainName b.name
  lines : ∀ l ∈ b.lines, PlainText l.toList
  length : b.lines.length = (colorsOf b).length

theorem PlainName.quote {s : String} (h : PlainName s) : ∀ c ∈ s.toList, c ≠ '"' ∧ c ≠ '\\' := by
  intro c hc
  have := h.2 c hc
  simp at this
  exact ⟨this.1, this.2.1⟩

theorem PlainName.text {s : String} (h : PlainName s) : PlainText s.toList := by
  refine ⟨fun e => h.1 (String.toList_inj.1 (by rw [e]; rfl)), fun c hc => ?_⟩
  have := h.2 c hc
  simp at this
  exact ⟨this.2.2.2.1, this.2.2.2.2.1, this.2.2.2.2.2, this.2.2.1⟩

theorem node_stmt {b : DrawNode} (h : CleanNode b) : dotStmt b.text.toList = some (.node b.name.toList (b.name.toList :: b.lines.map (·.toList))) := by
  have hz : ∀ p ∈ b.lines.zip (colorsOf b), PlainText p.1.toList ∧ '>' ∉ p.2.toList := by
    intro p hp
    refine ⟨h.lines _ (List.of_mem_zip hp).1, ?_⟩
    have := (List.of_mem_zip hp).2
    unfold colorsOf at this
    split at this
    · rcases List.mem_cons.1 this with e | e
      · rw [e]; decide
      · rw [List.mem_singleton.1 e]; decide
    · rw [List.mem_singleton.1 this]; decide
  rw [node_chars, dotStmt, dotQuoted_plain h.name.quote]
  generalize nodeRest b = rest
  have hp : ∀ r, (" [label=<".toList.isPrefixOf (" [label=<".toList ++ r)) = true := fun r => List.isPrefixOf_iff_prefix.2 (List.prefix_append ..)
  have hd : ∀ r, (" [label=<".toList ++ r).drop 9 = r := fun r => List.drop_left' rfl
  simp only [Option.bind_eq_bind, Option.bind_some, hp, hd, if_true]
  rw [dotTexts_open (by decide), dotTexts_open (by decide), dotTexts_close h.name.text (by decide), dotTexts_open (by decide), dotTexts_open (by decide),
    dotTexts_lines hz]
  have h1 : dotTexts false [] ('>' :: rest) = some [] := by simp [dotTexts]
  have h2 : (b.lines.zip (colorsOf b)).map (·.1.toList) = b.lines.map (·.toList) := by
    have : (b.lines.zip (colorsOf b)).map Prod.fst = b.lines := List.map_fst_zip (Nat.le_of_eq h.length)
    conv => rhs; rw [← this, List.map_map]
    rfl
  rw [h1, h2]
  simp

structure CleanEdge (e : DrawEdge) : Prop where
  src : PlainName e.src
  dst : PlainName e.dst
  label : ∃ l m : List Char, (∀ c ∈ l, c ≠ '"' ∧ c ≠ '\\' ∧ c ≠ '\n') ∧ (∀ c ∈ m, c ≠ '"' ∧ c ≠ '\\' ∧ c ≠ '\n') ∧
    (e.label.toList = l ∨ e.label.toList = l ++ '\\' :: 'n' :: m)

set_option simprocs false in
theorem edge_chars (e : DrawEdge) : e.text.toList = '"' :: (e.src.toList ++ '"' :: (" -> \"".toList ++ (e.dst.toList ++ '"' :: (" [label=\"".toList ++ (e.label.toList ++ '"' ::
    (", color=\"".toList ++ base03.toList ++ "\"];".toList)))))) := by
  have k1 : "\"".toList = ['"'] := rfl
  have k2 : "\" -> \"".toList = '"' :: " -> \"".toList := rfl
  have k3 : "\" [label=\"".toList = '"' :: " [label=\"".toList := rfl
  have k4 : "\", color=\"".toList = '"' :: ", color=\"".toList := rfl
  unfold DrawEdge.text
  simp only [String.toList_append, k1, k2, k3, k4, List.append_assoc, List.cons_append, List.nil_append]

set_option simprocs false in
theorem dotStmt_edge {a b l r0 r1 r2 r3 : List Char} (h1 : dotQuoted r0 = some (a, r1)) (n1 : " [label=<".toList.isPrefixOf r1 = false)
    (p1 : " -> \"".toList.isPrefixOf r1 = true) (h2 : dotQuoted (r1.drop 5) = some (b, r2)) (p2 : " [label=\"".toList.isPrefixOf r2 = true)
    (h3 : dotQuoted (r2.drop 9) = some (l, r3)) : dotStmt ('"' :: r0) = some (.edge a b l) := by
  rw [dotStmt, h1]
  simp only [Option.bind_eq_bind, Option.bind_some, n1, p1, h2, p2, h3, if_true, Bool.false_eq_true, if_false]

set_option simprocs false in
theorem edge_stmt {e : DrawEdge} (h : CleanEdge e) : dotStmt e.text.toList = some (.edge e.src.toList e.dst.toList e.label.toList) := by
  rw [edge_chars]
  generalize ", color=\"".toList ++ base03.toList ++ "\"];".toList = rest
  have k1 : " [label=<".toList = ' ' :: '[' :: "label=<".toList := by decide +kernel
  have k2 : " -> \"".toList = ' ' :: '-' :: "> \"".toList := by decide +kernel
  have hp0 : ∀ r, (" [label=<".toList.isPrefixOf (" -> \"".toList ++ r)) = false := by
    intro r
    rw [k1, k2]
    generalize "label=<".toList = x
    generalize "> \"".toList = y
    rfl
  have hp1 : ∀ r, (" -> \"".toList.isPrefixOf (" -> \"".toList ++ r)) = true := fun r => List.isPrefixOf_iff_prefix.2 (List.prefix_append ..)
  have hd1 : ∀ r, (" -> \"".toList ++ r).drop 5 = r := fun r => List.drop_left' (by decide +kernel)
  have hp2 : ∀ r, (" [label=\"".toList.isPrefixOf (" [label=\"".toList ++ r)) = true := fun r => List.isPrefixOf_iff_prefix.2 (List.prefix_append ..)
  have hd2 : ∀ r, (" [label=\"".toList ++ r).drop 9 = r := fun r => List.drop_left' (by decide +kernel)
  have hl : dotQuoted (e.label.toList ++ '"' :: rest) = some (e.label.toList, rest) := by
    obtain ⟨l, m, hl, hm, h | h⟩ := h.label
    · rw [h, dotQuoted_plain fun c hc => ⟨(hl c hc).1, (hl c hc).2.1⟩]
    · rw [h, List.append_assoc]
      exact dotQuoted_label (fun c hc => ⟨(hl c hc).1, (hl c hc).2.1⟩) (fun c hc => ⟨(hm c hc).1, (hm c hc).2.1⟩) _
  exact dotStmt_edge (dotQuoted_plain h.src.quote _) (hp0 _) (hp1 _) (by rw [hd1]; exact dotQuoted_plain h.dst.quote _) (hp2 _) (by rw [hd2]; exact hl)

/-! ### the program -/

set_option simprocs false in
theorem node_line {b : DrawNode} (h : CleanNode b) : OneLine b.text := by
  refine ⟨?_, by rw [node_chars, List.dropWhile_cons_of_neg (by decide)]⟩
  rw [node_chars]
  have hn : '\n' ∉ b.name.toList := fun hc => (h.name.text.2 _ hc).2.2.2 rfl
  have hl : '\n' ∉ (b.lines.zip (colorsOf b)).flatMap fun p => lineChars p.2.toList p.1.toList := by
    intro hc
    obtain ⟨p, hp, hc⟩ := List.mem_flatMap.1 hc
    have h1 : '\n' ∉ p.1.toList := fun hc => ((h.lines _ (List.of_mem_zip hp).1).2 _ hc).2.2.2 rfl
    have h2 : '\n' ∉ p.2.toList := by
      have := (List.of_mem_zip hp).2
      unfold colorsOf at this
      split at this
      · rcases List.mem_cons.1 this with e | e
        · rw [e]; decide
        · rw [List.mem_singleton.1 e]; decide
      · rw [List.mem_singleton.1 this]; decide
    unfold lineChars at hc
    have k1 : '\n' ∉ "<FONT color=\"".toList := by decide
    have k2 : '\n' ∉ "\" point-size=\"10\">".toList := by decide
    have k3 : '\n' ∉ "</FONT><BR/>".toList := by decide
    simp only [List.mem_append, h1, h2, k1, k2, k3, or_self] at hc
  have hr : '\n' ∉ nodeRest b := by
    unfold nodeRest
    cases b.func <;> decide
  have k1 : '\n' ∉ " [label=<".toList := by decide
  have k2 : '\n' ∉ "B".toList := by decide
  have k3 : '\n' ∉ "FONT POINT-SIZE=\"12\"".toList := by decide
  have k4 : '\n' ∉ "/FONT".toList := by decide
  have k5 : '\n' ∉ "/B".toList := by decide
  have k6 : '\n' ∉ "BR/".toList := by decide
  have k7 : '\n' ≠ '"' := by decide
  have k8 : '\n' ≠ '<' := by decide
  have k9 : '\n' ≠ '>' := by decide
  simp only [List.mem_cons, List.mem_append, hn, hl, hr, k1, k2, k3, k4, k5, k6, k7, k8, k9, or_self, not_false_iff]

set_option simprocs false in
theorem edge_line {e : DrawEdge} (h : CleanEdge e) : OneLine e.text := by
  refine ⟨?_, by rw [edge_chars, List.dropWhile_cons_of_neg (by decide)]⟩
  rw [edge_chars]
  have h1 : '\n' ∉ e.src.toList := fun hc => (h.src.text.2 _ hc).2.2.2 rfl
  have h2 : '\n' ∉ e.dst.toList := fun hc => (h.dst.text.2 _ hc).2.2.2 rfl
  have h3 : '\n' ∉ e.label.toList := by
    obtain ⟨l, m, hl, hm, h | h⟩ := h.label
    · rw [h]; exact fun hc => (hl _ hc).2.2 rfl
    · rw [h]
      intro hc
      rcases List.mem_append.1 hc with hc | hc
      · exact (hl _ hc).2.2 rfl
      · rcases List.mem_cons.1 hc with e | hc
        · exact absurd e (by decide)
        · rcases List.mem_cons.1 hc with e | hc
          · exact absurd e (by decide)
          · exact (hm _ hc).2.2 rfl
  have k1 : '\n' ∉ " -> \"".toList := by decide
  have k2 : '\n' ∉ " [label=\"".toList := by decide
  have k3 : '\n' ∉ ", color=\"".toList := by decide
  have k4 : '\n' ∉ base03.toList := by decide
  have k5 : '\n' ∉ "\"];".toList := by decide
  have k7 : '\n' ≠ '"' := by decide
  simp only [List.mem_cons, List.mem_append, h1, h2, h3, k1, k2, k3, k4, k5, k7, or_self, not_false_iff]

/-- the text begins with something that is neither a quote nor a space -/
def Starts (s : String) : Prop := ∃ c, s.toList.head? = some c ∧ c ≠ '"' ∧ c ≠ ' '

theorem Starts.append {a : String} (h : Starts a) (b : String) : Starts (a ++ b) := by
  obtain ⟨c, h1, h2⟩ := h
  obtain ⟨r, h1⟩ := List.head?_eq_some_iff.1 h1
  exact ⟨c, by rw [String.toList_append, h1]; rfl, h2⟩

theorem Starts.stmt {s : String} (h : Starts s) : dotStmt s.toList = none := by
  obtain ⟨c, h1, h2, _⟩ := h
  obtain ⟨r, h1⟩ := List.head?_eq_some_iff.1 h1
  rw [h1]
  unfold dotStmt
  split
  · rename_i e
    cases e
    exact absurd rfl h2
  · rfl

theorem Starts.drop {s : String} (h : Starts s) : s.toList.dropWhile (· = ' ') = s.toList := by
  obtain ⟨c, h1, _, h2⟩ := h
  obtain ⟨r, h1⟩ := List.head?_eq_some_iff.1 h1
  rw [h1, List.dropWhile_cons_of_neg (by simpa using h2)]

theorem preamble_starts (rankdir : String) : ∀ l ∈ dotPreamble rankdir, Starts l := by
  have h1 : Starts "graph [ overlap=\"scale\",rankdir=\"" := ⟨'g', by decide +kernel, by decide, by decide⟩
  have h2 : Starts "node [ style=\"rounded\",shape=\"rect\",fontname=\"Liberation Sans,Helvetica,Arial,sans-serif\",fontsize=\"10\",fontcolor=\"" :=
    ⟨'n', by decide +kernel, by decide, by decide⟩
  have h3 : Starts "edge [ fontname=\"Liberation Sans,Helvetica,Arial,sans-serif\",fontsize=\"10\",fontcolor=\"" := ⟨'e', by decide +kernel, by decide, by decide⟩
  intro l hl
  unfold dotPreamble at hl
  rcases List.mem_cons.1 hl with rfl | hl
  · exact (((h1.append _).append _).append _).append _
  · rcases List.mem_cons.1 hl with rfl | hl
    · exact (h2.append _).append _
    · rw [List.mem_singleton.1 hl]
      exact (h3.append _).append _

theorem nl_append {a b : String} (ha : '\n' ∉ a.toList) (hb : '\n' ∉ b.toList) : '\n' ∉ (a ++ b).toList := by
  rw [String.toList_append, List.mem_append]
  exact fun h => h.elim ha hb

theorem preamble_line {rankdir : String} (hr : '\n' ∉ rankdir.toList) : ∀ l ∈ dotPreamble rankdir, OneLine l := by
  intro l hl
  refine ⟨?_, (preamble_starts rankdir l hl).drop⟩
  have hb : '\n' ∉ base03.toList := by decide
  unfold dotPreamble at hl
  rcases List.mem_cons.1 hl with rfl | hl
  · exact nl_append (nl_append (nl_append (nl_append (by decide +kernel) hr) (by decide +kernel)) hb) (by decide)
  · rcases List.mem_cons.1 hl with rfl | hl
    · exact nl_append (nl_append (by decide +kernel) hb) (by decide)
    · rw [List.mem_singleton.1 hl]
      exact nl_append (nl_append (by decide +kernel) hb) (by decide)

theorem filterMap_map_some {α β γ : Type} {g : α → β} {F : β → Option γ} {G : α → γ} {l : List α} (h : ∀ a ∈ l, F (g a) = some (G a)) :
    (l.map g).filterMap F = l.map G := by
  induction l with
  | nil => rfl
  | cons a l ih =>
    rw [List.map_cons, List.filterMap_cons, h a (by simp), ih fun b hb => h b (by simp [hb])]
    rfl

set_option simprocs false in
theorem text_read {rankdir : String} (hr : '\n' ∉ rankdir.toList) {d : Drawing} (hn : ∀ b ∈ d.nodes, CleanNode b) (he : ∀ e ∈ d.edges, CleanEdge e) :
    dotRead (d.text rankdir).toList = d.nodes.map (fun b => .node b.name.toList (b.name.toList :: b.lines.map (·.toList))) ++
      d.edges.map fun e => .edge e.src.toList e.dst.toList e.label.toList := by
  have h1 : (d.text rankdir).toList = [] ++ '\n' :: (("    digraph G {".toList) ++ '\n' :: (List.replicate 8 ' ' ++ ((dotJoin (dotPreamble rankdir)).toList ++ '\n' ::
      (List.replicate 8 ' ' ++ ((dotJoin (d.nodes.map (·.text))).toList ++ '\n' :: (List.replicate 8 ' ' ++ ((dotJoin (d.edges.map (·.text))).toList ++ '\n' ::
      ("        \n        }\n    ".toList)))))))) := by
    have k1 : "\n    digraph G {\n        ".toList = '\n' :: ("    digraph G {".toList ++ '\n' :: List.replicate 8 ' ') := by decide +kernel
    have k2 : "\n        ".toList = '\n' :: List.replicate 8 ' ' := by decide +kernel
    have k3 : "\n        \n        }\n    ".toList = '\n' :: "        \n        }\n    ".toList := by decide +kernel
    unfold Drawing.text
    simp only [String.toList_append, k1, k2, k3, List.append_assoc, List.cons_append, List.nil_append]
  rw [h1, dotRead_append, dotRead_append, dotRead_spaces, dotRead_append, dotRead_spaces, dotRead_append, dotRead_spaces, dotRead_append,
    dotRead_join (ls := d.nodes.map (·.text)), dotRead_join (ls := d.edges.map (·.text)), dotRead_join (ls := dotPreamble rankdir)]
  · have a1 : dotRead [] = [] := by decide +kernel
    have a2 : dotRead "    digraph G {".toList = [] := by decide +kernel
    have a3 : dotRead "        \n        }\n    ".toList = [] := by decide +kernel
    have a4 : (dotPreamble rankdir).filterMap (fun l => dotStmt l.toList) = [] := by
      exact List.filterMap_eq_nil_iff.2 fun l hl => (preamble_starts rankdir l hl).stmt
    rw [a1, a2, a3, a4]
    rw [List.nil_append, List.nil_append, List.nil_append, List.append_nil]
    rw [filterMap_map_some (g := DrawNode.text) (F := fun l => dotStmt l.toList) fun b hb => node_stmt (hn b hb),
      filterMap_map_some (g := DrawEdge.text) (F := fun l => dotStmt l.toList) fun e h => edge_stmt (he e h)]
  · exact preamble_line hr
  · intro l hl
    obtain ⟨e, h, rfl⟩ := List.mem_map.1 hl
    exact edge_line (he e h)
  · intro l hl
    obtain ⟨e, h, rfl⟩ := List.mem_map.1 hl
    exact node_line (hn e h)

/-! ### the texts of a drawing -/

/-- characters that mean themselves -/
def SafeChars (s : String) : Prop := ∀ c ∈ s.toList, c ∉ ['"', '\\', '\n', '<', '>', '&']

instance (s : String) : Decidable (SafeChars s) := inferInstanceAs (Decidable (∀ c ∈ s.toList, c ∉ ['"', '\\', '\n', '<', '>', '&']))

theorem safe_append {a b : String} (ha : SafeChars a) (hb : SafeChars b) : SafeChars (a ++ b) := by
  intro c hc
  rw [String.toList_append, List.mem_append] at hc
  exact hc.elim (ha c) (hb c)

theorem safe_nat (k : Nat) : SafeChars (toString k) := by
  intro c hc hb
  have hc : c ∈ Nat.toDigits 10 k := by simpa using hc
  have hd := Nat.isDigit_of_mem_toDigits (by decide) (by decide) hc
  simp only [List.mem_cons, List.not_mem_nil, or_false] at hb
  rcases hb with rfl | rfl | rfl | rfl | rfl | rfl <;> revert hd <;> decide

theorem safe_values (verbose : Bool) (k a z : Nat) : SafeChars (valuesLine verbose k a z) := by
  unfold valuesLine
  split
  · exact safe_append (safe_nat _) (show SafeChars " values" by decide)
  · exact safe_append (safe_nat _) (show SafeChars " values" by decide)
  · exact safe_append (safe_append (safe_append (safe_nat _) (show SafeChars " values (" by decide)) (safe_nat _)) (show SafeChars " sources)" by decide)
  · exact safe_append (safe_append (safe_append (safe_nat _) (show SafeChars " values (" by decide)) (safe_nat _)) (show SafeChars " sinks)" by decide)
  · exact safe_append (safe_append (safe_append (safe_append (safe_append (safe_nat _) (show SafeChars " values (" by decide)) (safe_nat _))
      (show SafeChars " sources/" by decide)) (safe_nat _)) (show SafeChars " sinks)" by decide)

theorem safe_op (verbose : Bool) {op : String} (h : SafeChars op) (j : Nat) : SafeChars (opLine verbose op j) := by
  unfold opLine
  split
  · exact safe_append (safe_append (safe_append (safe_append (show SafeChars "@op:" by decide) h) (show SafeChars " (" by decide)) (safe_nat _))
      (show SafeChars " versions)" by decide)
  · exact safe_append (show SafeChars "@op:" by decide) h

theorem SafeChars.plain {s : String} (h : SafeChars s) (hne : s ≠ "") : PlainText s.toList := PlainName.text ⟨hne, h⟩

theorem ne_empty_of_mem {s : String} {c : Char} (h : c ∈ s.toList) : s ≠ "" := by
  rintro rfl
  exact nomatch h

theorem toString_text (s : String) : toString s = s := rfl

theorem clean_nodes {ver : String → String} {verbose : Bool} {op : String → String} {f : CFrame} {d : Drawing} (H : DrawnAs ver verbose op f d) (hop : GoesBy f op)
    (hP : PlainNames f) : ∀ b ∈ d.nodes, CleanNode b := by
  intro b hb
  have hn := (H.nodes b.name).1 (List.mem_map.2 ⟨b, hb, rfl⟩)
  rcases hn with hv | hf
  · obtain ⟨h1, k, a, z, _, _, _, h2⟩ := H.vars b hb hv
    refine ⟨hP.nodes _ (.inl hv), fun l hl => ?_, by rw [h2, colorsOf, h1]; rfl⟩
    rw [h2] at hl
    rw [List.mem_singleton.1 hl]
    refine (safe_values verbose k a z).plain (ne_empty_of_mem (c := 'v') ?_)
    unfold valuesLine
    split <;> simp [toString_text]
  · obtain ⟨h1, k, j, _, _, h2⟩ := H.funcs b hb hf
    refine ⟨hP.nodes _ (.inr hf), fun l hl => ?_, by rw [h2, colorsOf, h1]; rfl⟩
    obtain ⟨h, c, _, hc, e⟩ := hop _ hf
    rw [h2] at hl
    rcases List.mem_cons.1 hl with rfl | hl
    · refine (safe_op verbose (e ▸ (hP.ops h c hc).2) j).plain (ne_empty_of_mem (c := '@') ?_)
      unfold opLine
      split <;> simp [toString_text]
    · rw [List.mem_singleton.1 hl]
      exact SafeChars.plain (safe_append (safe_nat k) (show SafeChars " calls" by decide)) (ne_empty_of_mem (c := 'c') (by simp [toString_text]))

theorem clean_edges {ver : String → String} {verbose : Bool} {op : String → String} {f : CFrame} {d : Drawing} (G : GraphWf f) (H : DrawnAs ver verbose op f d)
    (hP : PlainNames f) : ∀ x ∈ d.edges, CleanEdge x := by
  intro x hx
  obtain ⟨es, _, h2, h3⟩ := H.edges
  obtain ⟨e, he, h4, h5, k, _, h6⟩ := forall₂_mem_right h3 hx
  have he := (h2 e).1 he
  have hends : (f.IsVar e.1 ∨ f.IsFunc e.1) ∧ (f.IsVar e.2.1 ∨ f.IsFunc e.2.1) :=
    (G.bip _ _ _ he).elim (fun h => ⟨.inl h.1, .inr h.2⟩) fun h => ⟨.inr h.1, .inl h.2⟩
  refine ⟨h4 ▸ hP.nodes _ hends.1, h5 ▸ hP.nodes _ hends.2, ?_⟩
  have safe : ∀ {s : String}, SafeChars s → ∀ c ∈ s.toList, c ≠ '"' ∧ c ≠ '\\' ∧ c ≠ '\n' := by
    intro s hs c hc
    have := hs c hc
    simp only [List.mem_cons, not_or] at this
    exact ⟨this.1, this.2.1, this.2.2.1⟩
  have hb : ∀ o : String, SafeChars (if o = "__make_list__" ∧ e.2.2 = "elts" then "*elts" else e.2.2) := by
    intro o
    split
    · decide
    · exact (hP.labels _ _ _ he).2
  refine ⟨_, _, safe (hb (if e.2.1 ∈ f.fs.keys then op e.2.1 else "")),
    safe (safe_append (show SafeChars "(" by decide) (safe_append (safe_nat k) (show SafeChars " values)" by decide))), ?_⟩
  rw [h6]
  unfold arrowLabel
  cases verbose
  · left
    rw [String.toList_append]
    exact List.append_nil _
  · right
    rw [String.toList_append]
    refine congrArg _ ?_
    have k1 : "\\n(".toList = '\\' :: 'n' :: "(".toList := by decide +kernel
    rw [if_pos rfl, String.toList_append, String.toList_append, k1, String.toList_append, String.toList_append]
    rfl

end Verif.CFrame
