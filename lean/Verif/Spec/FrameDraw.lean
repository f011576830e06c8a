import Verif.Model.CFrameDraw
import Verif.Spec.FrameShow
import Verif.Spec.FrameExpand
/-!
What the drawing of a frame is to show.
-/
namespace Verif.CFrame

/-- There are exactly `k` things with `P`. -/
def Numbers (P : String → Prop) (k : Nat) : Prop := ∃ s : List String, s.Nodup ∧ (∀ x, x ∈ s ↔ P x) ∧ s.length = k

/-- The value `x` goes along the edge: it is in the variable, and a call of the function uses it as an argument, or has made it as a result, of that name. -/
def Flows (f : CFrame) (s d l x : String) : Prop :=
  (f.IsFunc d ∧ f.HasRef s x ∧ ∃ h c, f.HasCall d h ∧ f.calls.get? h = some c ∧ ∃ p ∈ c.inputs, nameProj c.op p.1 = l ∧ p.2.hid = x) ∨
  (f.IsFunc s ∧ f.HasRef d x ∧ ∃ h c, f.HasCall s h ∧ f.calls.get? h = some c ∧ ∃ p ∈ c.outputs, nameProj c.op p.1 = l ∧ p.2.hid = x)

/-- The line of a variable with `k` values, `a` of them without a creator and `z` without a consumer in the frame. -/
def valuesLine (verbose : Bool) (k a z : Nat) : String :=
  match verbose, a, z with
  | false, _, _ => s!"{k} values"
  | true, 0, 0 => s!"{k} values"
  | true, a + 1, 0 => s!"{k} values ({a + 1} sources)"
  | true, 0, z + 1 => s!"{k} values ({z + 1} sinks)"
  | true, a + 1, z + 1 => s!"{k} values ({a + 1} sources/{z + 1} sinks)"

/-- The line with the op, of which there are calls of `j` versions. -/
def opLine (verbose : Bool) (op : String) (j : Nat) : String :=
  if verbose = true ∧ 2 ≤ j then s!"@op:{op} ({j} versions)" else s!"@op:{op}"

/-- The label of an arrow: the name of the argument or result, marked when all the elements of a list are meant; with the number of values. -/
def arrowLabel (verbose : Bool) (op l : String) (k : Nat) : String :=
  (if op = "__make_list__" ∧ l = "elts" then "*elts" else l) ++ (if verbose = true then "\\n(" ++ s!"{k} values)" else "")

/-- `op` is the op of some call of the function, as the function goes by it. -/
def GoesBy (f : CFrame) (op : String → String) : Prop := ∀ n, f.IsFunc n → ∃ h c, f.HasCall n h ∧ f.calls.get? h = some c ∧ c.op = op n

/-- The frame is drawn. -/
structure DrawnAs (ver : String → String) (verbose : Bool) (op : String → String) (f : CFrame) (d : Drawing) : Prop where
  once : (d.nodes.map (·.name)).Nodup
  nodes : ∀ n, n ∈ d.nodes.map (·.name) ↔ f.IsVar n ∨ f.IsFunc n
  vars : ∀ b ∈ d.nodes, f.IsVar b.name → b.func = false ∧ ∃ k a z, Numbers (f.HasRef b.name) k ∧ Numbers (Unattached f .back b.name) a ∧
    Numbers (Unattached f .forward b.name) z ∧ b.lines = [valuesLine verbose k a z]
  funcs : ∀ b ∈ d.nodes, f.IsFunc b.name → b.func = true ∧ ∃ k j, Numbers (f.HasCall b.name) k ∧ Numbers (fun v => ∃ h, f.HasCall b.name h ∧ ver h = v) j ∧
    b.lines = [opLine verbose (op b.name) j, s!"{k} calls"]
  edges : ∃ es : List (String × String × String), es.Nodup ∧ (∀ e, e ∈ es ↔ f.HasEdge e.1 e.2.1 e.2.2) ∧
    List.Forall₂ (fun e (x : DrawEdge) => x.src = e.1 ∧ x.dst = e.2.1 ∧ ∃ k, Numbers (Flows f e.1 e.2.1 e.2.2) k ∧
      x.label = arrowLabel verbose (if e.2.1 ∈ f.fs.keys then op e.2.1 else "") e.2.2 k) es d.edges

/-! ### reading a dot program -/

/-- What a statement of a dot program says: a node with the texts in its label, or an edge with its label. -/
inductive DotStmt
  | node (name : List Char) (texts : List (List Char))
  | edge (src dst label : List Char)
  deriving DecidableEq, Repr

/-- The rest of a quoted text up to the closing quote, and what comes after it; a backslash keeps the next character. -/
def dotQuoted : List Char → Option (List Char × List Char)
  | [] => none
  | '"' :: r => some ([], r)
  | '\\' :: c :: r => (dotQuoted r).map fun p => ('\\' :: c :: p.1, p.2)
  | c :: r => (dotQuoted r).map fun p => (c :: p.1, p.2)

/-- The texts between the tags of a label like html, up to the bracket that closes the label. Entities (`&`) are not read. `tag`: inside of a tag. -/
def dotTexts : Bool → List Char → List Char → Option (List (List Char))
  | _, _, [] => none
  | true, cur, c :: r => if c = '>' then dotTexts false cur r else dotTexts true cur r
  | false, cur, c :: r =>
    if c = '<' then (if cur = [] then dotTexts true [] r else (dotTexts true [] r).map (cur.reverse :: ·))
    else if c = '>' then some (if cur = [] then [] else [cur.reverse])
    else if c = '&' then none
    else dotTexts false (c :: cur) r

/-- A statement on a line of its own. -/
def dotStmt : List Char → Option DotStmt
  | '"' :: r => do
    let (name, r) ← dotQuoted r
    if " [label=<".toList.isPrefixOf r then do
      let ts ← dotTexts false [] (r.drop 9)
      some (.node name ts)
    else if " -> \"".toList.isPrefixOf r then do
      let (dst, r) ← dotQuoted (r.drop 5)
      if " [label=\"".toList.isPrefixOf r then do
        let (label, _) ← dotQuoted (r.drop 9)
        some (.edge name dst label)
      else none
    else none
  | _ => none

/-- The lines of a text. -/
def dotLines : List Char → List (List Char)
  | [] => [[]]
  | c :: r =>
    if c = '\n' then [] :: dotLines r
    else match dotLines r with
      | l :: ls => (c :: l) :: ls
      | [] => [[c]]

/-- The statements of a dot program about nodes and edges, each on a line of its own, indented. -/
def dotRead (t : List Char) : List DotStmt := (dotLines t).filterMap fun l => dotStmt (l.dropWhile (· = ' '))

/-- A name that means itself in a dot program. -/
def PlainName (s : String) : Prop := s ≠ "" ∧ ∀ c ∈ s.toList, c ∉ ['"', '\\', '\n', '<', '>', '&']

/-- The names of the variables, functions, arguments, results and ops are plain. -/
structure PlainNames (f : CFrame) : Prop where
  nodes : ∀ n, f.IsVar n ∨ f.IsFunc n → PlainName n
  labels : ∀ s d l, f.HasEdge s d l → PlainName l
  ops : ∀ h c, f.calls.get? h = some c → PlainName c.op

end Verif.CFrame
