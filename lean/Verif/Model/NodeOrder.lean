import Verif.Model.Graph
import Verif.Model.SetDict
/-!
Ordering the nodes of a computation frame, /repo/mandala/cf.py lines 1233-1271.

`nodes` is the set of variable and function names in iteration order, `out` the outgoing adjacency dictionary. Every
destination is assumed to be a node (`in_degrees[dst] += 1` raises KeyError otherwise; guaranteed by the frame invariant).
-/
namespace Verif

/-- The destinations of the edges leaving a node, in iteration order (one entry per label). -/
def outDsts (ld : SetDict) : List String := ld.vals.flatten

/-- The local state of Kahn's algorithm; `sources` has the end of the python list first. -/
structure KahnSt where
  deg : Dict String Int
  sources : List String
  result : List String

/-- cf.py lines 1243-1247: the in-degrees -/
def inDegrees (nodes : List String) (out : Adj) : Dict String Int :=
  out.foldl (fun d p => (outDsts p.2).foldl (fun d n => d.set n ((d.get? n).getD 0 + 1)) d) (nodes.map fun n => (n, 0))

/-- cf.py lines 1254-1257: one outgoing edge of the node taken from `sources` -/
def kahnEdge (s : KahnSt) (d : String) : KahnSt :=
  let k := (s.deg.get? d).getD 0 - 1
  { s with deg := s.deg.set d k, sources := if k = 0 then d :: s.sources else s.sources }

/-- cf.py lines 1250-1257: the while loop, with a budget of iterations -/
def kahnLoop (out : Adj) : Nat → KahnSt → Option (List String)
  | 0, s => if s.sources = [] then some s.result else none
  | f + 1, s =>
    match s.sources with
    | [] => some s.result
    | n :: rest => kahnLoop out f ((outDsts (getOr out n)).foldl kahnEdge { s with sources := rest, result := s.result ++ [n] })

/-- cf.py lines 1243-1257 -/
def kahn (nodes : List String) (out : Adj) : Option (List String) :=
  let deg := inDegrees nodes out
  kahnLoop out nodes.length ⟨deg, (deg.keys.filter fun n => (deg.get? n).getD 0 = 0).reverse, []⟩

/-- cf.py lines 1262-1264: the graph given to the fallback; `edges()` is cf.py lines 331-337 -/
def plainGraph (nodes : List String) (out : Adj) : Graph String :=
  out.foldl (fun g p => (outDsts p.2).foldl (fun g d => g.set p.1 (PySet.add (Graph.nbrs g p.1) d)) g) (nodes.map fun n => (n, []))

/-- cf.py lines 1233-1266 `topsort_modulo_sccs` -/
def topsortModuloSccs (le : String → String → Bool) (leL : List String → List String → Bool) (nodes : List String) (out : Adj) :
    Option (List String) :=
  (kahn nodes out).bind fun result =>
    if result.length ≠ nodes.length then almostTopologicalSort le leL (plainGraph nodes out) else some result

/-- cf.py lines 1268-1272 `sort_nodes` -/
def sortNodes (le : String → String → Bool) (leL : List String → List String → Bool) (nodes : List String) (out : Adj)
    (which : List String) : Option (List String) :=
  (topsortModuloSccs le leL nodes out).map fun l => l.filter (· ∈ which)

end Verif
