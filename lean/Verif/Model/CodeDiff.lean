import Verif.Basic.Err
/-!
How a change of code is shown to the user, before asking whether it is a semantic one (mandala/deps/shallow_versions.py lines 232-257) and in the compact source history
(lines 327-344): `_get_diff` and `_get_colorized_diff` (mandala/viz.py lines 47-118).

Texts and lines are lists of characters. `unified_diff` and what it calls are those of python's `difflib`. It finds the matching blocks with a queue and sorts them, here they
are found in order.
-/
namespace Verif.CodeDiff

/-- `startswith` -/
abbrev starts (p l : List Char) : Bool := p.isPrefixOf l

/-- The characters at which `str.splitlines` ends a line. -/
def isBreak (c : Char) : Bool :=
  c ∈ ['\n', '\r', '\x0b', '\x0c', '\x1c', '\x1d', '\x1e', '\u0085', '\u2028', '\u2029']

/-- `str.splitlines`; `cur` is the line so far, reversed -/
def splitFrom (cur : List Char) : List Char → List (List Char)
  | [] => if cur = [] then [] else [cur.reverse]
  | '\r' :: '\n' :: cs => cur.reverse :: splitFrom [] cs
  | c :: cs => if isBreak c then cur.reverse :: splitFrom [] cs else splitFrom (c :: cur) cs

def splitLines (text : List Char) : List (List Char) := splitFrom [] text

/-- `a[i:j]` -/
def slice {α : Type} (a : List α) (i j : Nat) : List α := (a.drop i).take (j - i)

inductive Tag
  | equal
  | replace
  | delete
  | insert
  deriving DecidableEq, Repr

structure OpCode where
  tag : Tag
  i1 : Nat
  i2 : Nat
  j1 : Nat
  j2 : Nat
  deriving DecidableEq, Repr

variable {α : Type} [DecidableEq α]

/-- `SequenceMatcher.b2j[x]`: where `x` is in `b`; nowhere, if `b` is long and `x` too frequent (`autojunk`) -/
def places (b : List α) (x : α) : List Nat :=
  let js := (List.range b.length).filter fun j => b[j]? = some x
  if 200 ≤ b.length ∧ b.length / 100 + 1 < js.length then [] else js

/-- The loops of `SequenceMatcher.find_longest_match`: the best block and `j2len`, after row `i`. -/
def matchRow (b : List α) (blo bhi i : Nat) (x : α) (best : Nat × Nat × Nat) (j2len : Nat → Nat) : (Nat × Nat × Nat) × (Nat → Nat) :=
  (((places b x).filter fun j => blo ≤ j).takeWhile fun j => j < bhi).foldl (fun acc j =>
    let k := (if j = 0 then 0 else j2len (j - 1)) + 1
    (if acc.1.2.2 < k then (i + 1 - k, j + 1 - k, k) else acc.1, fun j' => if j' = j then k else acc.2 j')) (best, fun _ => 0)

def matchRows (a b : List α) (blo bhi : Nat) : List Nat → (Nat × Nat × Nat) → (Nat → Nat) → Nat × Nat × Nat
  | [], best, _ => best
  | i :: is, best, j2len =>
    match a[i]? with
    | none => best
    | some x =>
      let r := matchRow b blo bhi i x best j2len
      matchRows a b blo bhi is r.1 r.2

/-- The block is made longer to the front, -/
def extendLeft (a b : List α) (alo blo : Nat) : Nat → Nat → Nat → Nat × Nat × Nat
  | 0, j, k => (0, j, k)
  | i + 1, j, k => if alo < i + 1 ∧ blo < j ∧ a[i]? = b[j - 1]? then extendLeft a b alo blo i (j - 1) (k + 1) else (i + 1, j, k)

/-- and to the back; `m` elements are left. -/
def extendRight (a b : List α) (bhi i j : Nat) : Nat → Nat → Nat
  | 0, k => k
  | m + 1, k => if j + k < bhi ∧ a[i + k]? = b[j + k]? then extendRight a b bhi i j m (k + 1) else k

/-- `SequenceMatcher.find_longest_match` without junk -/
def findLongestMatch (a b : List α) (alo ahi blo bhi : Nat) : Nat × Nat × Nat :=
  let best := matchRows a b blo bhi (List.range' alo (ahi - alo)) (alo, blo, 0) fun _ => 0
  let (i, j, k) := extendLeft a b alo blo best.1 best.2.1 best.2.2
  (i, j, extendRight a b bhi i j (ahi - (i + k)) k)

/-- The blocks between these positions; every block has an element, so that the recursion ends before the fuel. -/
def blocksIn (a b : List α) : Nat → Nat → Nat → Nat → Nat → List (Nat × Nat × Nat)
  | 0, _, _, _, _ => []
  | f + 1, alo, ahi, blo, bhi =>
    let (i, j, k) := findLongestMatch a b alo ahi blo bhi
    if k = 0 then []
    else
      (if alo < i ∧ blo < j then blocksIn a b f alo i blo j else []) ++ (i, j, k) ::
        (if i + k < ahi ∧ j + k < bhi then blocksIn a b f (i + k) ahi (j + k) bhi else [])

/-- Adjacent blocks become one. -/
def collapse : List (Nat × Nat × Nat) → Nat → Nat → Nat → List (Nat × Nat × Nat)
  | [], i1, j1, k1 => if k1 = 0 then [] else [(i1, j1, k1)]
  | (i2, j2, k2) :: bs, i1, j1, k1 =>
    if i1 + k1 = i2 ∧ j1 + k1 = j2 then collapse bs i1 j1 (k1 + k2)
    else (if k1 = 0 then [] else [(i1, j1, k1)]) ++ collapse bs i2 j2 k2

/-- `SequenceMatcher.get_matching_blocks` -/
def matchingBlocks (a b : List α) : List (Nat × Nat × Nat) :=
  collapse (blocksIn a b (a.length + 1) 0 a.length 0 b.length) 0 0 0 ++ [(a.length, b.length, 0)]

/-- `SequenceMatcher.get_opcodes` from the matching blocks; `i` and `j` are the loop variables -/
def opcodes : List (Nat × Nat × Nat) → Nat → Nat → List OpCode
  | [], _, _ => []
  | (ai, bj, size) :: bs, i, j =>
    (if i < ai ∧ j < bj then [⟨.replace, i, ai, j, bj⟩]
     else if i < ai then [⟨.delete, i, ai, j, bj⟩]
     else if j < bj then [⟨.insert, i, ai, j, bj⟩]
     else []) ++
    (if size = 0 then [] else [⟨.equal, ai, ai + size, bj, bj + size⟩]) ++
    opcodes bs (ai + size) (bj + size)

/-- The first group starts at most `n` lines before the first change. -/
def fixFirst (n : Nat) : List OpCode → List OpCode
  | [] => []
  | c :: cs => (if c.tag = .equal then { c with i1 := max c.i1 (c.i2 - n), j1 := max c.j1 (c.j2 - n) } else c) :: cs

/-- The last group ends at most `n` lines after the last change. -/
def fixLast (n : Nat) : List OpCode → List OpCode
  | [] => []
  | [c] => [if c.tag = .equal then { c with i2 := min c.i2 (c.i1 + n), j2 := min c.j2 (c.j1 + n) } else c]
  | c :: cs => c :: fixLast n cs

/-- The loop of `SequenceMatcher.get_grouped_opcodes`; `g` is the current group -/
def groups (n : Nat) : List OpCode → List OpCode → List (List OpCode)
  | [], g =>
    match g with
    | [] => []
    | [c] => if c.tag = .equal then [] else [[c]]
    | g => [g]
  | c :: cs, g =>
    if c.tag = .equal ∧ n + n < c.i2 - c.i1 then
      (g ++ [{ c with i2 := min c.i2 (c.i1 + n), j2 := min c.j2 (c.j1 + n) }]) ::
        groups n cs [{ c with i1 := max c.i1 (c.i2 - n), j1 := max c.j1 (c.j2 - n) }]
    else groups n cs (g ++ [c])

/-- `SequenceMatcher.get_grouped_opcodes` -/
def groupedOpcodes (n : Nat) (codes : List OpCode) : List (List OpCode) :=
  groups n (fixLast n (fixFirst n (if codes = [] then [⟨.equal, 0, 1, 0, 1⟩] else codes))) []

/-- `difflib._format_range_unified` -/
def formatRange (start stop : Nat) : List Char :=
  let length := stop - start
  if length = 1 then (toString (start + 1)).toList
  else
    let beginning := if length = 0 then start else start + 1
    (toString beginning).toList ++ ',' :: (toString length).toList

/-- The lines of one opcode in a unified diff. -/
def codeLines (a b : List (List Char)) (c : OpCode) : List (List Char) :=
  match c.tag with
  | .equal => (slice a c.i1 c.i2).map (' ' :: ·)
  | .replace => (slice a c.i1 c.i2).map ('-' :: ·) ++ (slice b c.j1 c.j2).map ('+' :: ·)
  | .delete => (slice a c.i1 c.i2).map ('-' :: ·)
  | .insert => (slice b c.j1 c.j2).map ('+' :: ·)

/-- The lines of a group; no group is empty. -/
def groupLines (a b : List (List Char)) (g : List OpCode) : List (List Char) :=
  (match g.head?, g.getLast? with
   | some first, some last => ["@@ -".toList ++ formatRange first.i1 last.i2 ++ " +".toList ++ formatRange first.j1 last.j2 ++ " @@".toList]
   | _, _ => []) ++ g.flatMap (codeLines a b)

/-- `difflib.unified_diff(a, b, n=n, lineterm="")` -/
def unifiedDiff (n : Nat) (a b : List (List Char)) : List (List Char) :=
  match groupedOpcodes n (opcodes (matchingBlocks a b) 0 0) with
  | [] => []
  | gs => "--- ".toList :: "+++ ".toList :: gs.flatMap (groupLines a b)

/-- viz.py line 77 and line 99 -/
def isHeader (l : List Char) : Bool := starts "@@".toList l || starts "+++".toList l || starts "---".toList l

/-- `"\n".join` -/
def joinWith (sep : List Char) : List (List Char) → List Char
  | [] => []
  | [l] => l
  | l :: ls => l ++ sep ++ joinWith sep ls

/-- `_get_diff`, viz.py lines 63-80, before the lines are joined -/
def diffLines (n : Nat) (current new : List Char) : List (List Char) :=
  (unifiedDiff n (splitLines current) (splitLines new)).filter fun l => !isHeader l

/-- `_get_diff`, viz.py lines 63-80 -/
def getDiff (current new : List Char) : List Char :=
  joinWith ['\n'] (diffLines 2 current new)

/-- `_colorize`, viz.py lines 47-60, with the number of the color -/
def colorize (color : Nat) (text : List Char) : List Char :=
  '\x1b' :: '[' :: (toString color).toList ++ 'm' :: text ++ "\x1b[0m".toList

inductive Style
  | multiline
  | inline
  | other
  deriving DecidableEq, Repr

/-- the body of the loop in `_get_colorized_diff`, viz.py lines 101-112, for a line that is not skipped -/
def colorLine (style : Style) (color : Bool) (l : List Char) : List Char :=
  match l with
  | '-' :: r =>
    let t := if style = .inline then r else l
    if color then colorize 31 t else t
  | '+' :: r =>
    let t := if style = .inline then r else l
    if color then colorize 32 t else t
  | l => l

/-- `_get_colorized_diff`, viz.py lines 83-118 -/
def getColorizedDiff (current new : List Char) (style : Style := .multiline) (n : Nat := 2)
    (color : Bool := true) : Except Err (List Char) :=
  let lines := (diffLines n current new).map (colorLine style color)
  match style with
  | .multiline => .ok (joinWith ['\n'] lines)
  | .inline => .ok (joinWith " ---> ".toList lines)
  | .other => .error .valueError

/-- What `DAG.commit` prints before it asks, mandala/deps/shallow_versions.py lines 232-257; with `rich` the text is put into a panel. -/
def promptText (rich : Bool) (content head : List Char) : Except Err (List Char) :=
  let presentableDiff := (content, head)
  if rich then getColorizedDiff presentableDiff.2 presentableDiff.1 (color := false)
  else getColorizedDiff presentableDiff.2 presentableDiff.1 (color := true)

end Verif.CodeDiff
