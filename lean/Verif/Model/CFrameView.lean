import Verif.Model.CFrameReach
/-!
Looking at a frame: values of the nodes, table of a function, statistics of a variable.

Simplifications.
* A set of refs (calls) is a list. Refs are compared by identity, and a frame keeps one object per history id.
* `pd.DataFrame(rows)` is its list of rows; a column that a row does not have is null there.
* Of the printed text, only names, labels and numbers are modelled.
-/
namespace Verif.CFrame

/-- cf.py lines 1413-1414 `get_var_values` (and lines 1410-1411 `get`) -/
def getVarValues (f : CFrame) (v : String) : Except Err (List FRef) := do
  let hs ← getE f.vs v
  hs.mapM (getE f.refs)

/-- cf.py lines 1420-1428: the cell for a ref -/
def cellOf (f : CFrame) (r : FRef) : Option FRef := if f.refs.has r.hid then some r else none

/-- cf.py lines 1419-1428: the row of a call -/
def funcRow (f : CFrame) (c : FCall) : Dict String (Option FRef) :=
  c.outputs.foldl (fun d p => d.set p.1 (f.cellOf p.2)) (c.inputs.foldl (fun d p => d.set p.1 (f.cellOf p.2)) [])

/-- cf.py lines 1416-1430 `get_func_table` -/
def funcTable (f : CFrame) (n : String) : Except Err (List (Dict String (Option FRef))) := do
  let hs ← getE f.fs n
  hs.mapM fun h => do
    let c ← getE f.calls h
    .ok (f.funcRow c)

/-- What `values` has for a node. -/
inductive NodeVals
  | refs (rs : List FRef)
  | calls (cs : List FCall)
  deriving DecidableEq

/-- cf.py lines 1686-1693 `values` -/
def values (f : CFrame) : Except Err (Dict String NodeVals) := do
  let vars ← f.vs.keys.mapM fun v => do
    let rs ← f.getVarValues v
    .ok (v, NodeVals.refs rs)
  let funcs ← f.fs.keys.mapM fun n => do
    let hs ← getE f.fs n
    let cs ← hs.mapM (getE f.calls)
    .ok (n, NodeVals.calls cs)
  .ok ((vars ++ funcs).foldl (fun d p => d.set p.1 p.2) [])

/-- cf.py lines 2363-2387 `var_info`: the number of values; for each incoming edge the function, the label and the number of
calls; the same for each outgoing edge -/
def varInfo (f : CFrame) (v : String) : Except Err (Nat × List (String × String × Nat) × List (String × String × Nat)) := do
  let hs ← getE f.vs v
  let creators ← (f.inEdges v).mapM fun e => do
    let cs ← f.adjEltsEdge e hs .back
    .ok (e.1, e.2.2, setLen cs)
  let consumers ← (f.outEdges v).mapM fun e => do
    let cs ← f.adjEltsEdge e hs .forward
    .ok (e.2.1, e.2.2, setLen cs)
  .ok (setLen hs, creators, consumers)

/-- cf.py lines 2327-2336 `get_var_stats` -/
def varStats (f : CFrame) : List (String × Nat) := f.vs.map fun p => (p.1, setLen p.2)

/-- cf.py lines 2338-2347 `get_func_stats` -/
def funcStats (f : CFrame) : List (String × Nat) := f.fs.map fun p => (p.1, setLen p.2)

end Verif.CFrame
