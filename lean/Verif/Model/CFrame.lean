import Verif.Model.SetDict
import Verif.Basic.Err
/-!
Computation frames, /repo/mandala/cf.py: the data structure, its consistency check, adding and removing nodes, edges, refs
and calls, renaming, selection, union and intersection.

Simplifications, for the whole file.
* Refs and calls are reduced to what a frame looks at: history id and content id of a ref; history id, op name, inputs and
  outputs of a call.
* An operation that raises gives `.error`; the partly modified frame it leaves behind is not kept (Model/CFrameObj does that
  for the operations where the question is which object gets modified).
* `copy.deepcopy` (cf.py lines 1715-1728) makes the sets of the copy independent of the original, so a copy is the same value.
* A loop over the items of a dictionary is a loop over its keys, looking up each; a loop over a set visits each element once
  (`PySet.ofList`).
-/
namespace Verif

/-- model.py lines 19-59 `Ref`, as seen by a frame -/
structure FRef where
  hid : String
  cid : String
  deriving DecidableEq, Repr

/-- model.py lines 252-286 `Call`, as seen by a frame; `op` is `call.op.name` -/
structure FCall where
  hid : String
  op : String
  inputs : Dict String FRef
  outputs : Dict String FRef
  deriving DecidableEq, Repr

/-- cf.py lines 86-115: the attributes of a `ComputationFrame` other than the storage. -/
structure CFrame where
  inp : Adj := []
  out : Adj := []
  vs : SetDict := []
  fs : SetDict := []
  refinv : SetDict := []
  callinv : SetDict := []
  creator : Dict String String := []
  consumers : SetDict := []
  refs : Dict String FRef := []
  calls : Dict String FCall := []
  deriving DecidableEq, Repr

/-- `d[k]` -/
def getE {V : Type} (d : Dict String V) (k : String) : Except Err V :=
  match d.get? k with
  | some v => .ok v
  | none => .error .keyError

/-- `del d[k]` -/
def delE {V : Type} (d : Dict String V) (k : String) : Except Err (Dict String V) :=
  if d.has k then .ok (d.erase k) else .error .keyError

/-- `s.remove(x)` on a set -/
def removeE (s : List String) (x : String) : Except Err (List String) :=
  if x ∈ s then .ok (PySet.remove s x) else .error .keyError

/-- `len(s)` of a set -/
def setLen (s : List String) : Nat := (PySet.ofList s).length

/-- `s == t` on sets -/
def setEqB (s t : List String) : Bool := PySet.subset s t && PySet.subset t s

/-- `get_nullable_union(*d.values())` -/
def valsUnion (d : SetDict) : List String := nullableUnion (d.keys.map (getOr d))

/-- The name of the structural op that builds lists, model.py line 449. -/
def makeListName : String := "__make_list__"

/-- `x.startswith("elts_")` -/
def isElt (x : String) : Bool := "elts_".toList.isPrefixOf x.toList

/-- cf.py lines 29-33 `get_name_proj` -/
def nameProj (op x : String) : String := if op = makeListName ∧ isElt x = true then "elts" else x

/-- cf.py lines 36-40 `get_reverse_proj` -/
def reverseProj (c : FCall) (x : String) : List String := if c.op = makeListName ∧ x = "elts" then PySet.ofList c.inputs.keys else [x]

namespace CFrame

/-- cf.py lines 153-159, 172-174 `nodes` -/
def nodes (f : CFrame) : List String := PySet.union (PySet.ofList f.vs.keys) f.fs.keys

/-- cf.py lines 1682-1684 `sets`: `{**self.vs, **self.fs}[node]` -/
def setOf (f : CFrame) (n : String) : Option (List String) := (f.fs.get? n).or (f.vs.get? n)

/-- cf.py lines 331-337 `edges`: (source, destination, label) -/
def edges (f : CFrame) : List (String × String × String) :=
  PySet.ofList (f.out.keys.flatMap fun s => (Dict.keys (getOr f.out s)).flatMap fun l => (getOr (getOr f.out s) l).map fun d => (s, d, l))

/-- cf.py lines 139-149, the inputs (respectively outputs) of one call: whatever has an edge is in the variable. A missing
key is a `KeyError`, so the check fails as well. -/
def checkIO (f : CFrame) (op : String) (side : SetDict) (io : Dict String FRef) : Bool :=
  io.all fun p => (getOr side (nameProj op p.1)).all fun v =>
    decide (p.2.hid ∈ getOr f.vs v) && decide (v ∈ getOr f.refinv p.2.hid)

/-- cf.py lines 117-151 `_check`; `true` when no assertion fails and nothing else is raised -/
def check (f : CFrame) : Bool :=
  setEqB (valsUnion f.vs) f.refs.keys &&
  setEqB (valsUnion f.fs) f.calls.keys &&
  PySet.subset (valsUnion f.refinv) f.vs.keys &&
  PySet.subset (valsUnion f.callinv) f.fs.keys &&
  PySet.subset f.creator.keys f.refs.keys &&
  PySet.subset (f.creator.keys.filterMap f.creator.get?) f.calls.keys &&
  PySet.subset f.consumers.keys f.refs.keys &&
  PySet.subset (valsUnion f.consumers) f.calls.keys &&
  f.edges.all (fun e => decide (e.1 ∈ f.nodes) && decide (e.2.1 ∈ f.nodes)) &&
  f.fs.keys.all (fun n => (getOr f.fs n).all fun h =>
    match f.calls.get? h, f.inp.get? n, f.out.get? n with
    | some c, some i, some o => f.checkIO c.op i c.inputs && f.checkIO c.op o c.outputs
    | _, _, _ => false) &&
  f.refs.keys.all (fun k => (f.refs.get? k).any fun r => k = r.hid) &&
  f.calls.keys.all (fun k => (f.calls.get? k).any fun c => k = c.hid)

/-! ### adding -/

/-- cf.py lines 225-235 `_add_var` with a given name -/
def addVar (f : CFrame) (v : String) : CFrame :=
  { f with vs := f.vs.set v [], inp := f.inp.set v [], out := f.out.set v [] }

/-- cf.py lines 279-294 `_add_func` with a given name -/
def addFunc (f : CFrame) (n : String) : CFrame :=
  { f with fs := f.fs.set n [], inp := f.inp.set n [], out := f.out.set n [] }

/-- cf.py lines 309-322 `_add_edge` -/
def addEdge (f : CFrame) (s d l : String) (allowExisting : Bool) : Except Err CFrame :=
  if (s, d, l) ∈ f.edges then
    if allowExisting then .ok f else .error .valueError
  else if f.out.has s && f.inp.has d then .ok { f with out := adjAdd f.out s l d, inp := adjAdd f.inp d l s }
  else .error .keyError

/-- cf.py lines 339-348 `add_ref` -/
def addRef (f : CFrame) (v : String) (r : FRef) (allowExisting : Bool) : Except Err CFrame := do
  let s ← getE f.vs v
  if r.hid ∈ s then
    if allowExisting then .ok f else .error .valueError
  else .ok { f with
    refs := f.refs.set r.hid r
    vs := f.vs.set v (PySet.add s r.hid)
    refinv := f.refinv.set r.hid (PySet.add (getOr f.refinv r.hid) v) }

/-- cf.py lines 376-387: one input of a call that is being added -/
def addInput (n : String) (c : FCall) (f : CFrame) (p : String × FRef) : Except Err CFrame := do
  let i ← getE f.inp n
  match i.get? (nameProj c.op p.1) with
  | none => .ok f
  | some vars =>
    vars.foldlM (fun f v => f.addRef v p.2 true)
      { f with consumers := f.consumers.set p.2.hid (PySet.add (getOr f.consumers p.2.hid) c.hid) }

/-- cf.py lines 388-397: one output of a call that is being added -/
def addOutput (n : String) (c : FCall) (f : CFrame) (p : String × FRef) : Except Err CFrame := do
  let o ← getE f.out n
  match o.get? (nameProj c.op p.1) with
  | none => .ok f
  | some vars => vars.foldlM (fun f v => f.addRef v p.2 true) { f with creator := f.creator.set p.2.hid c.hid }

/-- cf.py lines 365-397 `add_call` -/
def addCall (f : CFrame) (n : String) (c : FCall) (withRefs allowExisting : Bool) : Except Err CFrame := do
  let s ← getE f.fs n
  if c.hid ∈ s then
    if allowExisting then .ok f else .error .valueError
  else
    let f1 := { f with
      calls := f.calls.set c.hid c
      fs := f.fs.set n (PySet.add s c.hid)
      callinv := f.callinv.set c.hid (PySet.add (getOr f.callinv c.hid) n) }
    if withRefs then
      let f2 ← c.inputs.foldlM (addInput n c) f1
      c.outputs.foldlM (addOutput n c) f2
    else .ok f1

/-! ### removing -/

/-- cf.py lines 324-329 `_drop_edge` -/
def dropEdge (f : CFrame) (s d l : String) : Except Err CFrame := do
  let o ← getE f.out s
  let ds ← getE o l
  let ds' ← removeE ds d
  let i ← getE f.inp d
  let ss ← getE i l
  let ss' ← removeE ss s
  .ok { f with out := f.out.set s (Dict.set o l ds'), inp := f.inp.set d (Dict.set i l ss') }

/-- cf.py lines 245-247, 298-300: drop the edges at a node -/
def dropEdgesAt (f : CFrame) (n : String) : Except Err CFrame :=
  (f.edges.filter fun e => e.1 = n ∨ e.2.1 = n).foldlM (fun f e => f.dropEdge e.1 e.2.1 e.2.2) f

/-- cf.py lines 350-363 `drop_ref` -/
def dropRef (f : CFrame) (v h : String) : Except Err CFrame := do
  let s ← getE f.vs v
  let s' ← removeE s h
  let f := { f with vs := f.vs.set v s' }
  let iv ← getE f.refinv h
  if setLen iv = 1 then do
    let refs ← delE f.refs h
    .ok { f with refs := refs, refinv := f.refinv.erase h, creator := f.creator.erase h, consumers := f.consumers.erase h }
  else if v ∈ iv then .ok { f with refinv := f.refinv.set h (PySet.remove iv v) }
  else .ok f

/-- cf.py lines 412-416: one input of a call that is being dropped -/
def dropConsumer (h : String) (cons : SetDict) (r : FRef) : Except Err SetDict :=
  match cons.get? r.hid with
  | none => .ok cons
  | some s => do
    let s' ← removeE s h
    if s' = [] then .ok (cons.erase r.hid) else .ok (cons.set r.hid s')

/-- cf.py lines 399-418 `drop_call`; the call stays in `fs[fname]` -/
def dropCall (f : CFrame) (n h : String) : Except Err CFrame := do
  let iv ← getE f.callinv h
  if setLen iv = 1 then do
    let c ← getE f.calls h
    let creator ← c.outputs.vals.foldlM (fun cr r => delE cr r.hid) f.creator
    let consumers ← c.inputs.vals.foldlM (dropConsumer h) f.consumers
    .ok { f with calls := f.calls.erase h, callinv := f.callinv.erase h, creator := creator, consumers := consumers }
  else do
    let iv' ← removeE iv n
    .ok { f with callinv := f.callinv.set h iv' }

/-- cf.py lines 237-254 `drop_var` -/
def dropVar (f : CFrame) (v : String) : Except Err CFrame := do
  let f ← f.dropEdgesAt v
  let hids ← getE f.vs v
  let f ← (PySet.ofList hids).foldlM (fun f h => f.dropRef v h) f
  let vs ← delE f.vs v
  let inp ← delE f.inp v
  let out ← delE f.out v
  .ok { f with vs := vs, inp := inp, out := out }

/-- cf.py lines 296-307 `drop_func` -/
def dropFunc (f : CFrame) (n : String) : Except Err CFrame := do
  let f ← f.dropEdgesAt n
  let hids ← getE f.fs n
  let f ← (PySet.ofList hids).foldlM (fun f h => f.dropCall n h) f
  let fs ← delE f.fs n
  let inp ← delE f.inp n
  let out ← delE f.out n
  .ok { f with fs := fs, inp := inp, out := out }

/-- cf.py lines 199-209 `drop_node` -/
def dropNode (f : CFrame) (n : String) : Except Err CFrame :=
  if f.vs.has n then f.dropVar n else if f.fs.has n then f.dropFunc n else .error .valueError

/-- cf.py lines 186-197 `drop` -/
def drop (f : CFrame) (ns : List String) : Except Err CFrame := ns.foldlM dropNode f

/-! ### renaming -/

/-- cf.py lines 267-269, 271-273 on one set of neighbours -/
def renameSet (v w : String) (s : List String) : List String := if v ∈ s then PySet.add (PySet.remove s v) w else s

/-- cf.py lines 265-273 on one of the two adjacency dictionaries: only the entries of nodes of the frame are visited -/
def renameAdj (ns : List String) (v w : String) (d : Adj) : Adj :=
  d.map fun p => (p.1, if p.1 ∈ ns then Dict.mapVals (renameSet v w) p.2 else p.2)

/-- cf.py lines 274-276: one ref of the renamed variable -/
def renameRef (v w : String) (refinv : SetDict) (h : String) : Except Err SetDict := do
  let s ← getE refinv h
  let s' ← removeE s v
  .ok (refinv.set h (PySet.add s' w))

/-- cf.py lines 256-277 `rename_var` -/
def renameVar (f : CFrame) (v w : String) : Except Err CFrame := do
  let s ← getE f.vs v
  let i ← getE f.inp v
  let o ← getE f.out v
  let f := { f with vs := (f.vs.set w s).erase v, inp := (f.inp.set w i).erase v, out := (f.out.set w o).erase v }
  if f.nodes.all (fun n => f.inp.has n && f.out.has n) then do
    let f := { f with inp := renameAdj f.nodes v w f.inp, out := renameAdj f.nodes v w f.out }
    let hids ← getE f.vs w
    let refinv ← (PySet.ofList hids).foldlM (renameRef v w) f.refinv
    .ok { f with refinv := refinv }
  else .error .keyError

/-- cf.py lines 211-221 `rename` (renaming functions is not implemented there) -/
def rename (f : CFrame) (vars : Dict String String) : Except Err CFrame := vars.foldlM (fun f p => f.renameVar p.1 p.2) f

/-! ### neighbours -/

/-- cf.py lines 420-424 `in_neighbors` -/
def inNeighbors (f : CFrame) (n : String) : Except Err (List String) := do
  let i ← getE f.inp n
  .ok (valsUnion i)

/-- cf.py lines 426-430 `out_neighbors` -/
def outNeighbors (f : CFrame) (n : String) : Except Err (List String) := do
  let o ← getE f.out n
  .ok (valsUnion o)

/-- cf.py lines 435-440 `in_edges` -/
def inEdges (f : CFrame) (n : String) : List (String × String × String) := PySet.ofList (f.edges.filter fun e => e.2.1 = n)

/-- cf.py lines 442-447 `out_edges` -/
def outEdges (f : CFrame) (n : String) : List (String × String × String) := PySet.ofList (f.edges.filter fun e => e.1 = n)

/-! ### selection -/

/-- `{k: v for k, v in d.items() if k in ks}` -/
def restrict {V : Type} (d : Dict String V) (ks : List String) : Dict String V := d.filter fun p => p.1 ∈ ks

/-- cf.py lines 590-645 `select_nodes` -/
def selectNodes (f : CFrame) (ns : List String) : Except Err CFrame :=
  if ns.all (· ∈ f.nodes) then
    let ns := PySet.ofList ns
    let es := f.edges.filter fun e => e.1 ∈ ns ∧ e.2.1 ∈ ns
    let adj := adjFromEdges es (some ns)
    let vs := restrict f.vs ns
    let fs := restrict f.fs ns
    let rh := valsUnion vs
    let ch := valsUnion fs
    .ok {
      inp := adj.2, out := adj.1, vs := vs, fs := fs
      refinv := (restrict f.refinv rh).mapVals (PySet.inter · ns)
      callinv := (restrict f.callinv ch).mapVals (PySet.inter · ns)
      creator := f.creator.keys.filterMap fun h => ((f.creator.get? h).filter fun c => h ∈ rh ∧ c ∈ ch).map fun c => (h, c)
      consumers := (restrict f.consumers rh).mapVals (PySet.inter · ch)
      refs := restrict f.refs rh
      calls := restrict f.calls ch }
  else .error .valueError

/-- `{k: d[k] for k in ks}` -/
def pick {V : Type} (d : Dict String V) (ks : List String) : Except Err (Dict String V) :=
  ks.mapM fun k => do
    let v ← getE d k
    .ok (k, v)

/-- cf.py lines 647-688 `select_subsets` -/
def selectSubsets (f : CFrame) (elts : SetDict) : Except Err CFrame := do
  if !(setEqB elts.keys f.nodes) then .error .assertionError else
  if !(elts.keys.all fun n => PySet.subset (getOr elts n) ((f.setOf n).getD [])) then .error .assertionError else
  let vs ← pick elts (PySet.ofList f.vs.keys)
  let fs ← pick elts (PySet.ofList f.fs.keys)
  let rh := valsUnion vs
  let ch := valsUnion fs
  let refs ← pick f.refs rh
  let calls ← pick f.calls ch
  let refinv ← pick f.refinv rh
  let callinv ← pick f.callinv ch
  .ok {
    inp := f.inp, out := f.out, vs := vs, fs := fs, refinv := refinv, callinv := callinv
    creator := rh.filterMap fun h => ((f.creator.get? h).filter fun c => c ∈ ch).map fun c => (h, c)
    consumers := rh.filterMap fun h => ((f.consumers.get? h).map fun cs => PySet.inter cs ch).map fun cs => (h, cs)
    refs := refs, calls := calls }

/-! ### union and intersection -/

/-- cf.py lines 780-811, before the check -/
def unionRaw (a b : CFrame) : CFrame where
  inp := adjUnion a.inp b.inp
  out := adjUnion a.out b.out
  vs := setdictUnion a.vs b.vs
  fs := setdictUnion a.fs b.fs
  refinv := setdictUnion a.refinv b.refinv
  callinv := setdictUnion a.callinv b.callinv
  creator := dictUnion a.creator b.creator
  consumers := setdictUnion a.consumers b.consumers
  refs := dictUnion a.refs b.refs
  calls := dictUnion a.calls b.calls

/-- cf.py lines 780-812 `_binary_union`. (`_check` raises `AssertionError` or `KeyError`; only that it raises is kept.) -/
def union (a b : CFrame) : Except Err CFrame :=
  if (unionRaw a b).check then .ok (unionRaw a b) else .error .assertionError

/-- cf.py lines 814-845 `_binary_intersection` -/
def inter (a b : CFrame) : CFrame where
  inp := adjInter a.inp b.inp
  out := adjInter a.out b.out
  vs := setdictInter a.vs b.vs
  fs := setdictInter a.fs b.fs
  refinv := setdictInter a.refinv b.refinv
  callinv := setdictInter a.callinv b.callinv
  creator := dictInter a.creator b.creator
  consumers := setdictInter a.consumers b.consumers
  refs := dictInter a.refs b.refs
  calls := dictInter a.calls b.calls

end CFrame
end Verif
