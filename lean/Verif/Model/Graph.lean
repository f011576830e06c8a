import Verif.Basic.PySet
/-!
Graph algorithms, /repo/mandala/utils.py lines 313-466.

A graph is a dictionary from nodes to the list of their neighbours (in iteration order). Recursive python functions get a
recursion budget; the result is `none` if it does not suffice. The theorems show that the budgets used here always suffice
(python's own recursion limit is not modelled).
-/
namespace Verif

/-- A graph: node to neighbours. -/
abbrev Graph (K : Type) := Dict K (List K)

section

variable {K : Type} [DecidableEq K]

/-- `graph.get(node, [])` -/
def Graph.nbrs (g : Graph K) (n : K) : List K := (g.get? n).getD []

/-- `sorted(l)`, for an arbitrary comparison -/
def sorted (le : K → K → Bool) (l : List K) : List K := l.mergeSort le

/-! ### topological sort, utils.py lines 399-417 -/

/-- The local state `visited`, `result`. -/
structure TopSt (K : Type) where
  visited : List K
  result : List K

/-- utils.py lines 405-407: the loop over the neighbours, given the recursive call. -/
def topLoop (rec : K → TopSt K → Option (TopSt K)) : List K → TopSt K → Option (TopSt K)
  | [], s => some s
  | m :: ms, s => if m ∈ s.visited then topLoop rec ms s else (rec m s).bind (topLoop rec ms)

/-- utils.py lines 403-408: `dfs` -/
def topDfs (g : Graph K) : Nat → K → TopSt K → Option (TopSt K)
  | 0, _, _ => none
  | f + 1, n, s =>
    (topLoop (topDfs g f) (g.nbrs n) { s with visited := PySet.add s.visited n }).map fun s' =>
      { s' with result := s'.result ++ [n] }

/-- All nodes mentioned in a graph: an upper bound for the recursion depth. -/
def Graph.mentioned (g : Graph K) : List K := g.keys ++ g.vals.flatten

/-- utils.py lines 399-417 `topological_sort` -/
def topologicalSort (le : K → K → Bool) (g : Graph K) : Option (List K) :=
  (topLoop (topDfs g (g.mentioned.length + 1)) (sorted le g.keys) ⟨[], []⟩).map fun s => s.result.reverse

/-! ### strongly connected components, utils.py lines 313-370 -/

/-- The local state of `find_strongly_connected_components`; `stack` has its top first. -/
structure SccSt (K : Type) where
  index : Nat
  indexes : Dict K Nat
  lowlinks : Dict K Nat
  onStack : Dict K Bool
  stack : List K
  sccs : List (List K)

/-- `lowlinks[node] = min(lowlinks[node], x)` (the entry exists, see utils.py line 327) -/
def SccSt.lower (s : SccSt K) (n : K) (x : Nat) : SccSt K :=
  { s with lowlinks := s.lowlinks.set n (min ((s.lowlinks.get? n).getD 0) x) }

/-- utils.py lines 332-337: the loop over the neighbours. A neighbour with an index always has an entry in `on_stack`
(it is set at the same time), so the missing entry of `on_stack[neighbor]` is not modelled. -/
def sccLoop (rec : K → SccSt K → Option (SccSt K)) (n : K) : List K → SccSt K → Option (SccSt K)
  | [], s => some s
  | m :: ms, s =>
    if s.indexes.has m then
      if (s.onStack.get? m).getD false then sccLoop rec n ms (s.lower n ((s.indexes.get? m).getD 0))
      else sccLoop rec n ms s
    else (rec m s).bind fun s' => sccLoop rec n ms (s'.lower n ((s'.lowlinks.get? m).getD 0))

/-- utils.py lines 341-347: pop the stack down to the node. -/
def sccPop (n : K) : List K → Dict K Bool → List K → List K × Dict K Bool × List K
  | [], os, scc => ([], os, scc)
  | w :: st, os, scc => if w = n then (st, os.set w false, scc ++ [w]) else sccPop n st (os.set w false) (scc ++ [w])

/-- utils.py lines 324-348: `dfs`; `graph[node]` raises KeyError for unknown nodes: the graph is assumed closed (every
neighbour is a key), as the docstring requires. -/
def sccDfs (g : Graph K) : Nat → K → SccSt K → Option (SccSt K)
  | 0, _, _ => none
  | f + 1, n, s =>
    (sccLoop (sccDfs g f) n (g.nbrs n)
      { s with indexes := s.indexes.set n s.index, lowlinks := s.lowlinks.set n s.index, index := s.index + 1,
               stack := n :: s.stack, onStack := s.onStack.set n true }).map fun s =>
      if s.lowlinks.get? n = s.indexes.get? n then
        let r := sccPop n s.stack s.onStack []
        { s with stack := r.1, onStack := r.2.1, sccs := s.sccs ++ [r.2.2] }
      else s

/-- utils.py lines 364-366: the loop over all nodes. -/
def sccAll (g : Graph K) (f : Nat) : List K → SccSt K → Option (SccSt K)
  | [], s => some s
  | n :: ns, s => if s.indexes.has n then sccAll g f ns s else (sccDfs g f n s).bind (sccAll g f ns)

/-- utils.py lines 313-370 `find_strongly_connected_components` -/
def findSccs (le : K → K → Bool) (leL : List K → List K → Bool) (g : Graph K) : Option (List (List K)) :=
  (sccAll g (g.keys.length + 1) g.keys ⟨0, [], [], [], [], []⟩).map fun s => (s.sccs.map (sorted le)).mergeSort leL

/-- utils.py lines 381-385: `node_to_scc` -/
def nodeToScc (sccs : List (List K)) : Dict K Nat :=
  sccs.zipIdx.foldl (fun d p => p.1.foldl (fun d n => d.set n p.2) d) []

/-- utils.py lines 372-397 `create_super_graph`. Missing keys of `node_to_scc` would be a KeyError (not reachable when the
components cover the graph); they read as 0 here. -/
def superGraph (g : Graph K) (sccs : List (List K)) : Graph Nat :=
  let id := fun n => ((nodeToScc sccs).get? n).getD 0
  g.foldl (fun sg p =>
    let sg := if sg.has (id p.1) then sg else sg.set (id p.1) []
    p.2.foldl (fun sg m => if id p.1 ≠ id m then sg.set (id p.1) (PySet.add (sg.nbrs (id p.1)) (id m)) else sg) sg) []

/-- utils.py lines 419-433 `almost_topological_sort` -/
def almostTopologicalSort (le : K → K → Bool) (leL : List K → List K → Bool) (g : Graph K) : Option (List K) :=
  (findSccs le leL g).bind fun sccs =>
    (topologicalSort (fun a b => a ≤ b) (superGraph g sccs)).map fun order =>
      order.flatMap fun i => sccs.getD i []

/-! ### edges on paths, utils.py lines 435-466 -/

/-- The local state `visited`, `valid_edges`. -/
structure PathSt (K : Type) where
  visited : List K
  valid : List (K × K)
  deriving DecidableEq

/-- utils.py lines 451-457 -/
def pathLoop (rec : K → List (K × K) → PathSt K → Option (PathSt K)) (n : K) (path : List (K × K)) : List K → PathSt K → Option (PathSt K)
  | [], s => some s
  | m :: ms, s =>
    if m ∉ s.visited then (rec m (path ++ [(n, m)]) s).bind (pathLoop rec n path ms)
    else if (n, m) ∉ s.valid ∧ (n, m) ∉ path then (rec m (path ++ [(n, m)]) s).bind (pathLoop rec n path ms)
    else pathLoop rec n path ms s

/-- utils.py lines 443-461 -/
def pathDfs (g : Graph K) (stop : K) : Nat → K → List (K × K) → PathSt K → Option (PathSt K)
  | 0, _, _, _ => none
  | f + 1, n, path, s =>
    if n = stop then some { s with valid := path.foldl PySet.add s.valid }
    else (pathLoop (pathDfs g stop f) n path (g.nbrs n) { s with visited := PySet.add s.visited n }).map fun s =>
      { s with visited := PySet.remove s.visited n }

/-- utils.py lines 435-466 `get_edges_in_paths`, with recursion budget `f` -/
def edgesInPaths (g : Graph K) (f : Nat) (start stop : K) : Option (List (K × K)) :=
  (pathDfs g stop f start [] ⟨[], []⟩).map (·.valid)

end

end Verif
