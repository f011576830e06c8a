import Verif.Model.CFrame
/-!
Reachability in computation frames, /repo/mandala/cf.py: nodes reachable from nodes, elements (values and calls) connected
along an edge, elements reachable from elements, and the selections that are made with them.

Recursion and `while` loops get a bound on their depth that is proved to suffice (C43, C44); python's own recursion limit is
not modelled.
-/
namespace Verif

inductive Side
  | back
  | forward
  deriving DecidableEq, Repr

inductive How
  | strong
  | weak
  deriving DecidableEq, Repr

namespace CFrame

/-- cf.py lines 696-700: the inner function of `get_reachable_nodes`; `vis` is the set `visited` -/
def dfs (nb : String → Except Err (List String)) : Nat → List String → String → Except Err (List String)
  | 0, _, _ => .error .recursionError
  | k + 1, vis, n => do
    let ns ← nb n
    ns.foldlM (fun vis m => if m ∈ vis then .ok vis else dfs nb k vis m) (PySet.add vis n)

/-- `self.in_neighbors(node) if direction == "back" else self.out_neighbors(node)`, cf.py line 698 -/
def neighborsIn (f : CFrame) (dir : Side) (n : String) : Except Err (List String) :=
  match dir with
  | .back => f.inNeighbors n
  | .forward => f.outNeighbors n

/-- cf.py lines 690-704 `get_reachable_nodes` -/
def reachableNodes (f : CFrame) (ns : List String) (dir : Side) : Except Err (List String) :=
  ns.foldlM (dfs (f.neighborsIn dir) (f.nodes.length + 1)) []

/-- The history ids of the inputs (outputs) of the call `h` that belong to the label, cf.py lines 499-511, 533-537, 557-561 -/
def ioAt (f : CFrame) (l : String) (io : FCall → Dict String FRef) (h : String) : Except Err (List String) := do
  let c ← getE f.calls h
  .ok ((reverseProj c l).filterMap fun n => (Dict.get? (io c) n).map (·.hid))

/-- cf.py lines 513-561 `get_adj_elts_edge` -/
def adjEltsEdge (f : CFrame) (e : String × String × String) (hids : List String) (dir : Side) : Except Err (List String) :=
  match dir with
  | .back =>
    match f.vs.get? e.2.1 with
    | some s =>
      if PySet.subset hids s then do
        let cs ← getE f.fs e.1
        .ok (PySet.inter (PySet.ofList (hids.filterMap f.creator.get?)) cs)
      else .error .assertionError
    | none => do
      let s ← getE f.fs e.2.1
      if PySet.subset hids s then do
        let rs ← getE f.vs e.1
        let ins ← hids.mapM (f.ioAt e.2.2 FCall.inputs)
        .ok (PySet.inter rs ins.flatten)
      else .error .assertionError
  | .forward =>
    match f.vs.get? e.1 with
    | some s =>
      if PySet.subset hids s then do
        let cs ← getE f.fs e.2.1
        let ins ← cs.mapM fun h => do
          let hs ← f.ioAt e.2.2 FCall.inputs h
          .ok (if hs.any (· ∈ hids) then [h] else [])
        .ok ins.flatten
      else .error .assertionError
    | none => do
      let s ← getE f.fs e.1
      if PySet.subset hids s then do
        let outs ← hids.mapM (f.ioAt e.2.2 FCall.outputs)
        let rs ← getE f.vs e.2.1
        .ok (PySet.inter (PySet.ofList outs.flatten) rs)
      else .error .assertionError

/-- the edges into a node when going forward, out of it when going back, cf.py line 1826 -/
def edgesAt (f : CFrame) (dir : Side) (n : String) : List (String × String × String) :=
  match dir with
  | .forward => f.inEdges n
  | .back => f.outEdges n

/-- the end of an edge from which it is traversed, cf.py line 1774 -/
def startOf (dir : Side) (e : String × String × String) : String :=
  match dir with
  | .forward => e.1
  | .back => e.2.1

/-- cf.py lines 1767-1779, the inner `get_adj_elts` -/
def adjFrom (f : CFrame) (r : SetDict) (dir : Side) (es : List (String × String × String)) : Except Err (List String) :=
  es.foldlM (fun acc e => do
    let hs ← f.adjEltsEdge e (getOr r (startOf dir e)) dir
    .ok (PySet.union acc hs)) []

/-- the arguments that matter when going in the direction, cf.py line 1797 -/
def ioRefs (dir : Side) (c : FCall) : Dict String FRef :=
  match dir with
  | .forward => c.inputs
  | .back => c.outputs

/-- cf.py lines 1781-1816 `is_strongly_reachable_call` -/
def stronglyReachable (f : CFrame) (r : SetDict) (n h : String) (es : List (String × String × String)) (dir : Side) : Except Err Bool := do
  let c ← getE f.calls h
  let io := ioRefs dir c
  let labels := invertDict (io.map fun p => (p.1, nameProj c.op p.1))
  let labels := restrict labels (es.map (·.2.2))
  let total := ((PySet.ofList labels.keys).map fun l => (getOr labels l).length).sum
  if total = 0 ∧ h ∉ getOr r n then .ok false
  else
    let found := es.foldl (fun found e =>
      match labels.get? e.2.2 with
      | none => found
      | some names => PySet.union found (names.filter fun nm => (io.get? nm).any fun x => x.hid ∈ getOr r (startOf dir e))) []
    .ok (found.length = total)

/-- cf.py lines 1825-1837: what is added at one node -/
def toAdd (f : CFrame) (dir : Side) (how : How) (r : SetDict) (n : String) : Except Err (List String) :=
  let es := f.edgesAt dir n
  if f.vs.has n then f.adjFrom r dir es
  else
    match how with
    | .weak => f.adjFrom r dir es
    | .strong => do
      let cs ← getE f.fs n
      (PySet.diff cs (getOr r n)).foldlM (fun acc h => do
        let b ← f.stronglyReachable r n h es dir
        .ok (if b then PySet.add acc h else acc)) []

/-- cf.py lines 1825-1837, the body of the `while` loop: all nodes once -/
def reachPass (f : CFrame) (dir : Side) (how : How) (r : SetDict) : Except Err SetDict :=
  f.nodes.foldlM (fun r n => do
    let new ← f.toAdd dir how r n
    .ok (r.set n (PySet.union new (getOr r n)))) r

/-- `sum([len(v) for v in result.values()])` -/
def viewSize (r : SetDict) : Nat := ((PySet.ofList r.keys).map fun k => setLen (getOr r k)).sum

/-- cf.py lines 1824-1842, the `while` loop -/
def reachLoop (f : CFrame) (dir : Side) (how : How) : Nat → SetDict → Except Err SetDict
  | 0, _ => .error .recursionError
  | k + 1, r => do
    let r' ← f.reachPass dir how r
    if viewSize r' = viewSize r then .ok r' else f.reachLoop dir how k r'

/-- `{k: self.sets[k]}`, as a view of all elements -/
def allElts (f : CFrame) : SetDict := f.nodes.map fun n => (n, (f.setOf n).getD [])

/-- cf.py lines 1740-1846 `get_reachable_elts` with `pad=True` -/
def reachableElts (f : CFrame) (init : SetDict) (dir : Side) (how : How) : Except Err SetDict := do
  let r ← f.reachLoop dir how (viewSize f.allElts + 1) init
  .ok ((PySet.diff f.nodes r.keys).foldl (fun r n => r.set n []) r)

/-- `{node: res.sets[node] for node in nodes}` -/
def viewOf (f : CFrame) (ns : List String) : Except Err SetDict :=
  ns.mapM fun n => match f.setOf n with
    | some s => .ok (n, s)
    | none => .error .keyError

/-- cf.py lines 706-743 `downstream` and `upstream` -/
def stream (f : CFrame) (ns : List String) (dir : Side) (how : How) : Except Err CFrame := do
  let ms ← f.reachableNodes (PySet.ofList ns) dir
  let g ← f.selectNodes ms
  let init ← g.viewOf (PySet.ofList ns)
  let r ← g.reachableElts init dir how
  g.selectSubsets r

/-- cf.py lines 453-475 `get_source_elts` and 481-495 `get_sink_elts` -/
def endElts (f : CFrame) (dir : Side) : Except Err SetDict :=
  f.nodes.mapM fun n => do
    let linked ← (f.edgesAt dir n).foldlM (fun acc e => do
      let hs ← f.adjEltsEdge e ((f.setOf (startOf dir e)).getD []) dir
      .ok (PySet.union acc hs)) []
    .ok (n, PySet.diff ((f.setOf n).getD []) linked)

/-- cf.py lines 2039-2054 `drop_unreachable` -/
def dropUnreachable (f : CFrame) (dir : Side) (how : How) : Except Err CFrame := do
  let init ← f.endElts dir
  let r ← f.reachableElts init dir how
  f.selectSubsets r

/-- cf.py lines 847-867 `_binary_setwise_difference`; the final `cleanup` does nothing (C49) -/
def setwiseDiff (a b : CFrame) : Except Err CFrame := do
  let keep : SetDict := a.nodes.map fun n => (n, match b.setOf n with
    | none => (a.setOf n).getD []
    | some t => PySet.diff ((a.setOf n).getD []) t)
  let g ← a.selectSubsets keep
  g.dropUnreachable .forward .strong

end CFrame
end Verif
