import Verif.Model.CFrameTable
/-!
The printed graph of a computation frame: /repo/mandala/cf.py lines 161-170 (`ops`), 2185-2231 (`print_graph`, `get_graph_desc`), on which `__repr__` (2317-2325),
`info` (2392-2432), `df(verbose=True)` (1345-1350) and `eval` rest.

Simplifications.
* Of an op only the name is in a call; what its `output_names` are is given by `names`.
* `int(s)` accepts only decimal digits here.
-/
namespace Verif

/-- One line: the variables for each output, the function, the variables for each input. -/
structure ShownCall where
  func : String
  outs : List (String × List String)
  ins : List (String × List String)
  deriving DecidableEq, Repr

/-- The isolated variables, and the lines of the functions. -/
structure Shown where
  isolated : List String
  calls : List ShownCall
  deriving DecidableEq, Repr

/-- cf.py line 2210: `int(name.split('_')[1])` -/
def secondPart (name : String) : Except Err Nat :=
  match name.toList.dropWhile (· ≠ '_') with
  | [] => .error .indexError
  | _ :: rest =>
    let ds := rest.takeWhile (· ≠ '_')
    if ds ≠ [] ∧ ds.all Char.isDigit then .ok (Nat.ofDigitChars 10 ds 0) else .error .valueError

/-- cf.py lines 2207-2212: the position of an output; in a dictionary made from a list with repetitions the last position counts -/
def outIndex (names : Option (List String)) (l : String) : Except Err Nat :=
  match names with
  | some ns => match ns.zipIdx.reverse.find? (fun p => p.1 = l) with
    | some p => .ok p.2
    | none => .error .keyError
  | none => secondPart l

/-- insertion by key -/
def insByNum {α : Type} (x : α × Nat) : List (α × Nat) → List (α × Nat)
  | [] => [x]
  | y :: l => if x.2 ≤ y.2 then x :: y :: l else y :: insByNum x l

/-- `sorted(..., key=...)`, with the keys -/
def sortKey {α : Type} (l : List (α × Nat)) : List (α × Nat) := l.foldr insByNum []

namespace CFrame

/-- cf.py lines 161-170 `ops`: the op of the first call -/
def opsOf (po : PyOrd) (f : CFrame) : Except Err (Dict String String) :=
  (PySet.ofList f.fs.keys).mapM fun n =>
    match po.set (getOr f.fs n) with
    | [] => .error .notImplemented
    | h :: _ => do
      let c ← getE f.calls h
      .ok (n, c.op)

/-- cf.py lines 2201-2229: the line of a function -/
def showFunc (po : PyOrd) (names : String → Option (List String)) (f : CFrame) (n : String) : Except Err ShownCall := do
  let ops ← f.opsOf po
  let op ← getE ops n
  let i ← getE f.inp n
  let o ← getE f.out n
  let ls ← (PySet.ofList (Dict.keys o)).mapM fun l => do
    let k ← outIndex (names op) l
    .ok (l, k)
  .ok {
    func := n
    outs := (sortKey ls).map fun p => (p.1, po.set (getOr o p.1))
    ins := ((PySet.ofList (Dict.keys i)).filter fun l => getOr i l ≠ []).map fun l => (l, po.set (getOr i l)) }

/-- cf.py lines 2193-2199 -/
def isolatedVars (f : CFrame) : List String := (PySet.ofList f.vs.keys).filter fun v => f.inEdges v = [] ∧ f.outEdges v = []

/-- cf.py lines 2188-2231 `get_graph_desc` -/
def graphDesc (po : PyOrd) (names : String → Option (List String)) (f : CFrame) : Except Err Shown := do
  let fs ← f.sortIn po f.fs.keys
  let calls ← fs.mapM (f.showFunc po names)
  .ok ⟨sortNames f.isolatedVars, calls⟩

end CFrame

/-- cf.py lines 2218-2221: the variables of an output -/
def ShownCall.lhs (p : String × List String) : String :=
  (if p.2.length > 1 then "(" else "") ++ " | ".intercalate p.2 ++ (if p.2.length > 1 then ")" else "") ++ "@" ++ p.1

/-- cf.py lines 2222-2229 -/
def ShownCall.line (c : ShownCall) : String :=
  ", ".intercalate (c.outs.map ShownCall.lhs) ++ " = " ++ c.func ++ "(" ++ ", ".intercalate (c.ins.map fun p => p.1 ++ "=" ++ " | ".intercalate p.2) ++ ")"

/-- cf.py lines 2198-2199, 2230: the text -/
def Shown.text (s : Shown) : String :=
  "\n".intercalate ((if s.isolated = [] then [] else [", ".intercalate s.isolated]) ++ s.calls.map ShownCall.line)

end Verif
