import Verif.Model.CFrameReach
/-!
Filtering computation frames by values, /repo/mandala/cf.py: `isin`, `<` with a number, and the elements next to given elements.

`eord` is the order in which python visits a set of edges. What is asked about a value (is it among the given ones, is it smaller) is a function
of the ref, which raises what `unwrap`, `in` or `<` raise.
-/
namespace Verif

abbrev Edge := String × String × String

namespace CFrame

variable (eord : List Edge → List Edge)

/-- the key under which what an edge gives is stored: `src` going back, `dst` going forward, cf.py lines 576 and 584 -/
def farEnd (dir : Side) (e : Edge) : String :=
  match dir with
  | .back => e.1
  | .forward => e.2.1

/-- `res.update({end: ... for edge in edges})`, cf.py lines 574-579 and 582-587: a node at the end of several edges gets what the last one gives -/
def adjUpdate (f : CFrame) (dir : Side) (hids : List String) (res : SetDict) (es : List Edge) : Except Err SetDict :=
  es.foldlM (fun res e => do
    let ys ← f.adjEltsEdge e hids dir
    .ok (res.set (farEnd dir e) ys)) res

/-- cf.py lines 563-588 `get_adj_elts` with direction "both" -/
def adjEltsBoth (f : CFrame) (n : String) (hids : List String) : Except Err SetDict := do
  let res ← f.adjUpdate .back hids [] (eord (f.inEdges n))
  f.adjUpdate .forward hids res (eord (f.outEdges n))

/-- cf.py lines 1913-1918 `_add_adj_calls`: the loop runs over the variables of the argument -/
def addAdjCalls (f : CFrame) (view : SetDict) : Except Err SetDict :=
  view.keys.foldlM (fun res v => do
    let new ← f.adjEltsBoth eord v (getOr res v)
    .ok (setdictUnion res new)) view

/-- `{hid for hid in hids if test(self.refs[hid])}` -/
def matching (f : CFrame) (test : FRef → Except Err Bool) (hids : List String) : Except Err (List String) :=
  hids.foldlM (fun acc h => do
    let r ← getE f.refs h
    let b ← test r
    .ok (if b then PySet.add acc h else acc)) []

/-- cf.py lines 1920-1933 `__lt__` and 1935-1956 `isin` with `node_class="var"`: `test` is `unwrap(ref) < other`, `unwrap(ref) in values`,
`ref.hid in values` or `ref.cid in values` -/
def filterBy (f : CFrame) (test : FRef → Except Err Bool) : Except Err CFrame := do
  let view ← (PySet.ofList f.vs.keys).mapM fun v => do
    let hs ← f.matching test (getOr f.vs v)
    .ok (v, hs)
  let full ← f.addAdjCalls eord view
  f.selectSubsets full

/-- the parameter `by` of `isin`: "hid", "cid", "val", or a string that is none of these -/
inductive IsinBy
  | known
  | other

/-- cf.py lines 1935-1956 `isin`; `var` says whether `node_class` is "var". (With `by="hid"` python does not look into `self.refs`.) -/
def isin (f : CFrame) (test : FRef → Except Err Bool) (by_ : IsinBy) (var : Bool) : Except Err CFrame :=
  if var then
    match by_ with
    | .known => f.filterBy eord test
    | .other => do
      let full ← f.addAdjCalls eord []
      f.selectSubsets full
  else .error .notImplemented

end CFrame
end Verif
