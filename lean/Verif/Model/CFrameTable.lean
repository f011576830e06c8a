import Verif.Model.CFrameHistory
import Verif.Model.CFrameReach
import Verif.Model.CFrameBuild
import Verif.Model.NodeOrder
/-!
cf.py: the subframe between some nodes (`midstream`), and tables (pandas dataframes) of the values and calls of a frame: the
history of a variable, joint histories, `df`.

* A cell holds the history ids of the objects in it, sorted; the code unpacks sets of one element (lines 1566-1572), so a list
  of one id is the object itself, a longer one a `RefCollection` or `CallCollection`. A row has no entry for an empty (null) cell.
* Of pandas: `pd.DataFrame(rows)` has a column for each key of a row, with nulls where a row does not have it;
  `pd.merge(l, r, how, on)` combines each row of `l` with each row of `r` that has equal cells in the columns `on`, where null
  equals null (as the pandas documentation points out), and with `how='outer'` adds the remaining rows of both sides; it raises
  when `on` is empty (which exception depends on the version of pandas). The order of the rows is not specified here.
* The orders in which python visits sets are parameters (`PyOrd`).
-/
namespace Verif

/-- What python leaves open: the order in which the keys of a dictionary made from a set are visited, the order in which a set of
names is visited, and the comparisons behind `sorted` on nodes and components (utils.py lines 319-432). -/
structure PyOrd where
  dict : SetDict → List String
  set : List String → List String
  le : String → String → Bool
  leL : List String → List String → Bool

/-- A row: the non-empty cells -/
abbrev TRow := Dict String (List String)

structure Table where
  cols : List String
  rows : List TRow
  deriving DecidableEq, Repr

/-- cf.py lines 1629-1635 `extract_hids`: `tuple(sorted({...}))` -/
def cellOf (hids : List String) : List String := CFrame.sortNames (PySet.ofList hids)

/-- `on`-columns of two rows are equal; a missing entry is null -/
def rowsAgree (on : List String) (a b : TRow) : Bool := on.all fun k => decide (a.get? k = b.get? k)

/-- one row from two that agree on `on` -/
def joinRow (on : List String) (a b : TRow) : TRow := a ++ b.filter fun p => p.1 ∉ on

inductive Join
  | inner
  | outer
  deriving DecidableEq, Repr

/-- cf.py lines 1672-1677: the columns both tables have, and `pd.merge` on them -/
def Table.merge (how : Join) (l r : Table) : Except Err Table :=
  let on := l.cols.filter (· ∈ r.cols)
  if on = [] then .error .indexError
  else
    let both := l.rows.flatMap fun a => (r.rows.filter fun b => rowsAgree on a b).map fun b => joinRow on a b
    let rest := match how with
      | .inner => []
      | .outer => (l.rows.filter fun a => !(r.rows.any fun b => rowsAgree on a b)) ++
        r.rows.filter fun b => !(l.rows.any fun a => rowsAgree on a b)
    .ok { cols := l.cols ++ r.cols.filter (· ∉ on), rows := both ++ rest }

/-- `df[cols]`, all of which are columns -/
def Table.select (t : Table) (cols : List String) : Table where
  cols := cols
  rows := t.rows.map fun r => r.filter fun p => p.1 ∈ cols

namespace CFrame

/-- `self.out`, one entry per node and label -/
def outLists (po : PyOrd) (f : CFrame) : Adj :=
  (po.set f.nodes).map fun n => (n, (PySet.ofList (Dict.keys (getOr f.out n))).map fun l => (l, po.set (getOr (getOr f.out n) l)))

/-- cf.py lines 1267-1271 `sort_nodes` -/
def sortIn (po : PyOrd) (f : CFrame) (which : List String) : Except Err (List String) :=
  ended (sortNodes po.le po.leL (po.set f.nodes) (f.outLists po) which)

/-- cf.py lines 1273-1280 `_sort_df` -/
def sortTable (po : PyOrd) (f : CFrame) (t : Table) : Except Err Table :=
  if PySet.subset t.cols f.nodes then do
    let cols ← f.sortIn po t.cols
    .ok { t with cols := cols }
  else .error .assertionError

/-! ### histories -/

/-- cf.py lines 1552-1556 (with the variables and refs) and 1560-1564 (with the functions and calls): the part of the history in
these nodes -/
def historyCells {V : Type} (names : List String) (objs : Dict String V) (t : SetDict) : Except Err TRow :=
  ((PySet.ofList t.keys).filter (· ∈ names)).mapM fun k => do
    let _ ← pick objs (getOr t k)
    .ok (k, cellOf (getOr t k))

/-- cf.py lines 1549-1572, and `extract_hids` (lines 1622-1635): the row of the value `h` -/
def historyRow (po : PyOrd) (f : CFrame) (inc : Bool) (fuel : Nat) (v h : String) : Except Err TRow := do
  let t ← f.totalHistory po.dict inc fuel v [h] none
  let rs ← historyCells f.vs.keys f.refs t
  let cs ← if inc then historyCells f.fs.keys f.calls t else .ok []
  .ok (rs.update cs)

/-- cf.py lines 1539-1577 `get_history_df` -/
def historyTable (po : PyOrd) (f : CFrame) (inc : Bool) (fuel : Nat) (v : String) : Except Err Table := do
  let hs ← getE f.vs v
  let rows ← (PySet.ofList hs).mapM (f.historyRow po inc fuel v)
  f.sortTable po { cols := PySet.ofList (rows.flatMap Dict.keys), rows := rows }

/-- cf.py lines 1637-1661 `eval_hids`, lines 1640-1653: every id in the cell is that of a ref or of a call -/
def evalCell (f : CFrame) (hids : List String) : Except Err (List (FRef ⊕ FCall)) :=
  hids.mapM fun h => match f.refs.get? h with
    | some r => .ok (.inl r)
    | none => do
      let c ← getE f.calls h
      .ok (.inr c)

/-- cf.py lines 1579-1680 `get_joint_history_df`. The cells of the result hold the objects that `evalCell` gives; the model keeps
the ids. -/
def jointHistory (po : PyOrd) (f : CFrame) (inc : Bool) (fuel : Nat) (how : Join) (varnames : List String) : Except Err Table := do
  let vs ← f.sortIn po varnames
  let ts ← vs.mapM (f.historyTable po inc fuel)
  match ts with
  | [] => .error .indexError
  | t :: ts => do
    let t ← ts.foldlM (Table.merge how) t
    let _ ← t.rows.mapM fun r => r.keys.mapM fun k => f.evalCell (getOr r k)
    f.sortTable po t

/-! ### the subframe between nodes -/

/-- cf.py lines 1286-1288: the graph without labels -/
def graphOf (f : CFrame) : Graph String :=
  f.nodes.map fun n => (n, PySet.ofList ((f.edges.filter fun e => e.1 = n).map (·.2.1)))

/-- cf.py lines 756-760: the ends of the edges on paths between two different nodes of `ns` -/
def pathNodes (f : CFrame) (fuel : Nat) (ns : List String) : Except Err (List String) := do
  let es ← (ns.flatMap fun a => (ns.filter (a ≠ ·)).map fun b => (a, b)).mapM fun p =>
    if p.1 ∈ f.nodes then ended (edgesInPaths f.graphOf fuel p.1 p.2) else .error .keyError
  .ok (PySet.ofList (es.flatten.flatMap fun e => [e.1, e.2]))

/-- cf.py lines 745-773 `midstream` -/
def midstream (f : CFrame) (fuel : Nat) (ns : List String) (how : How) : Except Err CFrame := do
  let ms ← f.pathNodes fuel ns
  let g ← f.selectNodes ms
  let ends ← g.endElts .forward
  let r ← g.reachableElts (ends.filter fun p => p.1 ∈ ns) .forward how
  g.selectSubsets r

/-! ### `df` -/

/-- The answer of `df`: the table, and the columns whose refs have been replaced by the values they stand for. -/
structure Answer where
  table : Table
  loaded : List String
  deriving DecidableEq, Repr

/-- cf.py lines 1368-1371 and 1380-1408: which columns `eval_df` replaces; functions have calls in them, which stay as they are -/
def loadedCols (g : CFrame) (t : Table) (objs : Bool) (lazyVars : List String) : List String :=
  if objs ∧ t.rows ≠ [] then t.cols.filter fun k => k ∉ lazyVars ∧ k ∈ g.vs.keys else []

/-- cf.py lines 1350-1354: the variables with values that are not used -/
def sinkVars (g : CFrame) : Except Err (List String) := do
  let ends ← g.endElts .back
  .ok (((ends.filter fun p => p.1 ∈ g.vs.keys ∧ p.2 ≠ []).map (·.1)))

/-- cf.py lines 1319-1372 `df`, on given nodes -/
def dfOf (po : PyOrd) (f : CFrame) (fuel : Nat) (objs : Bool) (lazyVars : List String) (incCalls : Bool) (how : Join) (ns : List String) :
    Except Err Answer := do
  let g ← f.midstream fuel ns .strong
  let vs ← g.sinkVars
  let t ← g.jointHistory po true fuel how vs
  let t := if incCalls then t else t.select (t.cols.filter (· ∉ g.fs.keys))
  let t := t.select (ns.filter (· ∈ t.cols))
  let t' ← f.sortTable po t
  .ok ⟨t', g.loadedCols t objs lazyVars⟩

/-- cf.py lines 1319-1372 `df`; with one node (lines 1340-1342) the refs of the variable -/
def df (po : PyOrd) (f : CFrame) (fuel : Nat) (objs : Bool) (lazyVars : List String) (incCalls : Bool) (how : Join) (ns : List String) :
    Except Err Answer :=
  match ns with
  | [] => f.dfOf po fuel objs lazyVars incCalls how (po.set f.nodes)
  | [n] => do
    let hs ← getE f.vs n
    let _ ← pick f.refs hs
    .ok ⟨{ cols := [n], rows := (PySet.ofList hs).map fun h => [(n, [h])] }, []⟩
  | _ => f.dfOf po fuel objs lazyVars incCalls how ns

end CFrame
end Verif
