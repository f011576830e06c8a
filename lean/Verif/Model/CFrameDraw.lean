import Verif.Model.CFrameShow
import Verif.Model.CFrameReach
/-!
Drawing a frame, /repo/mandala/cf.py lines 2233-2314 and /repo/mandala/viz.py: the boxes and arrows with their texts, and the dot program for them.
What `dot` makes of it, and the notebook or browser, are outside.
-/
namespace Verif.CFrame

/-- `Node`, viz.py lines 208-238: `label` and `internal_name` are the same here; blue is a variable, red a function -/
structure DrawNode where
  name : String
  func : Bool
  lines : List String
  deriving DecidableEq, Repr

/-- `Edge`, viz.py lines 252-270; the two nodes by their `internal_name` -/
structure DrawEdge where
  src : String
  dst : String
  label : String
  deriving DecidableEq, Repr

structure Drawing where
  nodes : List DrawNode
  edges : List DrawEdge
  deriving DecidableEq, Repr

/-- what is counted beforehand when `verbose`, cf.py lines 2244-2253 -/
structure DrawStats where
  sinks : SetDict
  sources : SetDict
  versions : Dict String Nat
  edges : Dict (String × String × String) Nat

/-- `len` of a set -/
def lenSet (s : List String) : Nat := (PySet.ofList s).length

/-- cf.py line 2248: `len(set(self.calls[hid].semantic_version for hid in self.fs[fname]))`; `ver` is the semantic version of a call -/
def numVersions (ver : String → String) (f : CFrame) (n : String) : Except Err (String × Nat) := do
  let vs ← (getOr f.fs n).mapM fun h => do
    let _ ← getE f.calls h
    .ok (ver h)
  .ok (n, lenSet vs)

/-- cf.py lines 2249-2253: along an edge into a function the values that its calls use, along an edge out of it those that they made -/
def edgeCount (f : CFrame) (e : String × String × String) : Except Err ((String × String × String) × Nat) := do
  let hs ← (if e.2.1 ∈ f.fs.keys then f.adjEltsEdge e (getOr f.fs e.2.1) .back else do
    let hids ← getE f.fs e.1
    f.adjEltsEdge e hids .forward)
  .ok (e, lenSet hs)

/-- cf.py lines 2244-2253 -/
def drawStats (ver : String → String) (f : CFrame) : Except Err DrawStats := do
  let sinks ← f.endElts .back
  let sources ← f.endElts .forward
  let versions ← (PySet.ofList f.fs.keys).mapM (numVersions ver f)
  let edges ← f.edges.mapM f.edgeCount
  .ok { sinks, sources, versions, edges }

/-- cf.py lines 2255-2276: the box of a variable -/
def drawVar (f : CFrame) (st : Option DrawStats) (v : String) : Except Err (String × DrawNode) := do
  let s ← getE f.vs v
  let line := s!"{lenSet s} values"
  match st with
  | none => .ok (v, { name := v, func := false, lines := [line] })
  | some st => do
    let src ← getE st.sources v
    let snk ← getE st.sinks v
    let parts := (if lenSet src > 0 then [s!"{lenSet src} sources"] else []) ++ (if lenSet snk > 0 then [s!"{lenSet snk} sinks"] else [])
    let line := if lenSet src > 0 ∨ lenSet snk > 0 then line ++ s!" ({"/".intercalate parts})" else line
    .ok (v, { name := v, func := false, lines := [line] })

/-- cf.py lines 2278-2291: the box of a function. `next(iter(...))` of an empty set raises `StopIteration`, which stands as `indexError` here. -/
def drawFunc (po : PyOrd) (f : CFrame) (st : Option DrawStats) (n : String) : Except Err (String × DrawNode) :=
  match po.set (getOr f.fs n) with
  | [] => .error .indexError
  | h :: _ => do
    let c ← getE f.calls h
    let op ← match st with
      | none => .ok c.op
      | some st => do
        let k ← getE st.versions n
        .ok (if k > 1 then s!"{c.op} ({k} versions)" else c.op)
    .ok (n, { name := n, func := true, lines := [s!"@op:{op}", s!"{lenSet (getOr f.fs n)} calls"] })

/-- cf.py lines 2293-2307: an arrow -/
def drawEdge (po : PyOrd) (f : CFrame) (st : Option DrawStats) (nodes : Dict String DrawNode) (e : String × String × String) : Except Err DrawEdge := do
  let ops ← f.opsOf po
  let label := if Dict.get? ops e.2.1 = some makeListName ∧ e.2.2 = "elts" then "*elts" else e.2.2
  let label ← match st with
    | none => .ok label
    | some st => match Dict.get? st.edges e with
      | some k => .ok (label ++ "\\n(" ++ s!"{k} values)")
      | none => .error .keyError
  let a ← getE nodes e.1
  let b ← getE nodes e.2.1
  .ok { src := a.name, dst := b.name, label := label }

/-- cf.py lines 2244-2307: what is drawn. `nodes = {**vnodes, **fnodes}` -/
def draw (po : PyOrd) (ver : String → String) (verbose : Bool) (f : CFrame) : Except Err Drawing := do
  let st ← (if verbose then (f.drawStats ver).map some else .ok none)
  let vnodes ← (po.set (PySet.ofList f.vs.keys)).mapM (f.drawVar st)
  let fnodes ← (po.set (PySet.ofList f.fs.keys)).mapM (f.drawFunc po st)
  let nodes := fnodes.foldl (fun (d : Dict String DrawNode) p => d.set p.1 p.2) vnodes
  let edges ← f.edges.mapM (f.drawEdge po st nodes)
  .ok { nodes := nodes.map (·.2), edges := edges }

/-! ### the dot program -/

/-- `SOLARIZED_LIGHT` with `Color.__str__`, viz.py lines 18-44 -/
def red : String := "#dc322fff"
def blue : String := "#268bd2ff"
def base03 : String := "#002b36ff"

/-- `Node.to_dot_string`, viz.py lines 238-249, for the formats of cf.py lines 2258 and 2290; `zip` of the lines with the formats -/
def DrawNode.text (n : DrawNode) : String :=
  let fmts := if n.func then [base03, red] else [blue]
  let lines := (n.lines.zip fmts).map fun p => "<FONT color=\"" ++ p.2 ++ "\" point-size=\"10\">" ++ p.1 ++ "</FONT><BR/>"
  "\"" ++ n.name ++ "\" [label=<<B><FONT POINT-SIZE=\"12\">" ++ n.name ++ "</FONT></B><BR/>" ++ String.join lines ++
    ">, color=\"" ++ (if n.func then red else blue) ++ "\", shape=\"rect\"];"

/-- `Edge.to_dot_string`, viz.py lines 272-285, without ports and arrow styles -/
def DrawEdge.text (e : DrawEdge) : String :=
  "\"" ++ e.src ++ "\" -> \"" ++ e.dst ++ "\" [label=\"" ++ e.label ++ "\", color=\"" ++ base03 ++ "\"];"

/-- The joiner of `to_dot_string`, viz.py line 359 -/
def dotJoin (ls : List String) : String := ("\n" ++ String.ofList (List.replicate 12 ' ')).intercalate ls

/-- viz.py lines 301-334 and 360-366: the three lines of configuration -/
def dotPreamble (rankdir : String) : List String :=
  ["graph [ overlap=\"scale\",rankdir=\"" ++ rankdir ++ "\",fontname=\"Liberation Sans,Helvetica,Arial,sans-serif\",fontsize=\"10\",fontcolor=\"" ++ base03 ++ "\" ];",
   "node [ style=\"rounded\",shape=\"rect\",fontname=\"Liberation Sans,Helvetica,Arial,sans-serif\",fontsize=\"10\",fontcolor=\"" ++ base03 ++ "\",penwidth=\"1.5\" ];",
   "edge [ fontname=\"Liberation Sans,Helvetica,Arial,sans-serif\",fontsize=\"10\",fontcolor=\"" ++ base03 ++ "\" ];"]

/-- `to_dot_string`, viz.py lines 352-394, without groups -/
def Drawing.text (rankdir : String) (d : Drawing) : String :=
  "\n    digraph G {\n        " ++ dotJoin (dotPreamble rankdir) ++ "\n        " ++ dotJoin (d.nodes.map (·.text)) ++ "\n        " ++ dotJoin (d.edges.map (·.text)) ++
    "\n        \n        }\n    "

/-- cf.py lines 2313-2314 and viz.py line 414: the command for a path; the extension of the path is looked at, but not used -/
def dotCommand (path tmp : String) : String := s!"dot -T svg -o {path} {tmp}"

end Verif.CFrame
