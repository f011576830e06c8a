import Verif.Model.CFrameReach
import Verif.Model.CFrameBuild
/-!
cf.py lines 907-1061, 1073-1214: expanding a frame back or forward with the calls recorded in the storage.

Simplifications.
* The recorded calls are a list `rec`; the storage returns those with an output (input) among the given values (storage.py
  lines 448-460), in the order of that list (python: in the order of a set).
* Nothing is printed.
* The loops "until a fixed point is reached" get a number of rounds.
-/
namespace Verif

/-- The other direction. -/
def Side.flip : Side → Side
  | .back => .forward
  | .forward => .back

/-- cf.py lines 936-945: the op, and for each label the variables of the frame which the call is connected to -/
abbrev GroupId := String × List (String × List String)

/-- lists are ordered lexicographically -/
def listLt {α : Type} [DecidableEq α] (lt : α → α → Bool) : List α → List α → Bool
  | [], [] => false
  | [], _ :: _ => true
  | _ :: _, [] => false
  | a :: as, b :: bs => lt a b || (decide (a = b) && listLt lt as bs)

/-- so are pairs -/
def labelLt (a b : String × List String) : Bool :=
  decide (a.1 < b.1) || (decide (a.1 = b.1) && listLt (fun x y => decide (x < y)) a.2 b.2)

def groupLt (a b : GroupId) : Bool := decide (a.1 < b.1) || (decide (a.1 = b.1) && listLt labelLt a.2 b.2)

def insGroup (x : GroupId × List FCall) : List (GroupId × List FCall) → List (GroupId × List FCall)
  | [] => [x]
  | y :: l => if groupLt y.1 x.1 then y :: insGroup x l else x :: y :: l

/-- cf.py line 975: `sorted(call_groups.items())`; the keys are distinct, so the calls are never compared -/
def sortGroups (l : List (GroupId × List FCall)) : List (GroupId × List FCall) := l.foldr insGroup []

namespace CFrame

/-- cf.py lines 161-170 `ops`: the name of the op of each function -/
def ops (f : CFrame) : Except Err (Dict String String) :=
  f.fs.mapM fun p =>
    match p.2 with
    | [] => .error .notImplemented
    | h :: _ => do
      let c ← getE f.calls h
      .ok (p.1, c.op)

/-- cf.py lines 930-935 on one input (output) of a call: the variables it is found in -/
def identify (f : CFrame) (avail : List String) (c : FCall) (d : SetDict) (p : String × FRef) : Except Err SetDict :=
  if f.refs.has p.2.hid then do
    let vs ← getE f.refinv p.2.hid
    if PySet.inter vs avail = [] then .ok d else .ok (d.set (nameProj c.op p.1) (PySet.inter vs avail))
  else .ok d

/-- cf.py lines 926-945: the group of a call -/
def groupOf (f : CFrame) (avail : List String) (dir : Side) (c : FCall) : Except Err GroupId := do
  let d ← (ioRefs dir c).foldlM (f.identify avail c) []
  .ok (c.op, (sortNames (PySet.ofList d.keys)).map fun l => (l, sortNames (PySet.ofList (getOr d l))))

/-- cf.py lines 907-949 `_group_calls` -/
def groupCalls (f : CFrame) (calls : List FCall) (avail : List String) (dir : Side) : Except Err (Dict GroupId (List FCall)) :=
  calls.foldlM (fun (d : Dict GroupId (List FCall)) c => do
    let k ← f.groupOf avail dir c
    .ok (d.set k (((d.get? k).getD []) ++ [c]))) []

/-- cf.py lines 989-997: a function of the frame to be reused -/
def findFunc (f : CFrame) (op : String) (hids : List String) : List String → Except Err (Option String)
  | [] => .ok none
  | n :: ns => do
    let s ← getE f.fs n
    if PySet.subset hids s || (PySet.subset s hids && !s.isEmpty) then .ok (some n)
    else do
      let o ← f.ops
      let op' ← getE o n
      if op' = op then .ok (some n) else findFunc f op hids ns

/-- cf.py lines 1047-1050: a variable of the frame to be reused -/
def findVar (f : CFrame) (hids : List String) : Option String :=
  (sortNames f.vs.keys).find? fun v => PySet.subset hids (getOr f.vs v) || (PySet.subset (getOr f.vs v) hids && !(getOr f.vs v).isEmpty)

/-- cf.py lines 1010-1012 and 1055-1057: the edge between the variable `v` and the function `n`, on the side of the outputs
when going back, of the inputs when going forward -/
def joinEdge (f : CFrame) (dir : Side) (v n l : String) (allow : Bool) : Except Err CFrame :=
  match dir with
  | .back => f.addEdge n v l allow
  | .forward => f.addEdge v n l allow

/-- cf.py lines 1037-1057: the variable for one label on the other side -/
def dualVar (dir : Side) (reuse : Bool) (n : String) (calls : List FCall) (existing : List String) (f : CFrame) (l : String) : Except Err CFrame :=
  if l ∈ existing then .ok f
  else
    let hids := calls.flatMap fun c => ((ioRefs dir.flip c).filter fun p => nameProj c.op p.1 = l).map (·.2.hid)
    match (if reuse then f.findVar hids else none) with
    | some v => f.joinEdge dir.flip v n l false
    | none => do
      let v ← ended (f.getNewVname l)
      (f.addVar v).joinEdge dir.flip v n l false

/-- the edges of a function on one side: `self.inp[fname]`, `self.out[fname]` -/
def sideOf (f : CFrame) (dir : Side) : Adj :=
  match dir with
  | .forward => f.inp
  | .back => f.out

/-- cf.py lines 1014-1033: the labels of the calls on one side -/
def sideLabels (dir : Side) (calls : List FCall) : List String :=
  sortNames (PySet.ofList (calls.flatMap fun c => (ioRefs dir c).map fun p => nameProj c.op p.1))

/-- cf.py lines 987-997 -/
def lookFunc (f : CFrame) (reuse : Bool) (op : String) (calls : List FCall) : Except Err (Option String) :=
  if reuse then f.findFunc op (calls.map (·.hid)) (sortNames f.fs.keys) else .ok none

/-- cf.py lines 987-1003: the function for a group, new or reused -/
def groupFunc (f : CFrame) (reuse : Bool) (op : String) (calls : List FCall) : Except Err (CFrame × String) := do
  let found ← f.lookFunc reuse op calls
  match found with
  | some n => .ok (f, n)
  | none => do
    let n ← ended (f.getNewFname op)
    .ok (f.addFunc n, n)

/-- cf.py lines 975-1061: the body of the loop of `_expand_from_call_groups` -/
def expandGroup (dir : Side) (reuse : Bool) (f : CFrame) (g : GroupId × List FCall) : Except Err CFrame := do
  let (f, n) ← f.groupFunc reuse g.1.1 g.2
  let f ← (g.1.2.flatMap fun lv => lv.2.map fun v => (lv.1, v)).foldlM (fun f lv => f.joinEdge dir lv.2 n lv.1 reuse) f
  let side ← getE (f.sideOf dir.flip) n
  let f ← (sideLabels dir.flip g.2).foldlM (dualVar dir reuse n g.2 (Dict.keys side)) f
  g.2.foldlM (fun f c => f.addCall n c true reuse) f

/-- storage.py lines 448-460 `get_creators`, `get_consumers` -/
def recordedAt (rec : List FCall) (dir : Side) (hids : List String) : List FCall :=
  rec.filter fun c => (ioRefs dir c).any fun p => decide (p.2.hid ∈ hids)

/-- cf.py lines 1103-1129 `_expand_unidirectional` with given variables; `set.union()` of nothing is a `TypeError` -/
def expandOnce (rec : List FCall) (dir : Side) (reuse skip : Bool) (varnames : List String) (f : CFrame) : Except Err CFrame := do
  let ends ← f.endElts dir.flip
  let elts := ends.filter fun p => p.1 ∈ varnames
  if elts = [] then .error .typeError
  else do
    let calls := recordedAt rec dir (valsUnion elts)
    let calls := if skip then calls.filter fun c => !f.calls.has c.hid else calls
    let groups ← f.groupCalls calls varnames dir
    (sortGroups groups).foldlM (expandGroup dir reuse) f

/-- cf.py lines 1083-1102 `_expand_unidirectional` without given variables -/
def expandAllVars (rec : List FCall) (dir : Side) (reuse skip recursive : Bool) : Nat → CFrame → Except Err CFrame
  | 0, _ => .error .recursionError
  | k + 1, f => do
    let g ← f.expandOnce rec dir reuse skip f.vs.keys
    if setLen g.nodes = setLen f.nodes ∨ recursive = false then .ok g else expandAllVars rec dir reuse skip recursive k g

/-- cf.py lines 1200-1214 `expand_all`; `size` is the number of values and calls after the previous round -/
def expandAll (rec : List FCall) (reuse skip : Bool) (rounds : Nat) : Nat → Nat → CFrame → Except Err CFrame
  | 0, _, _ => .error .recursionError
  | k + 1, size, f => do
    let f ← f.expandAllVars rec .back reuse skip true rounds
    let f ← f.expandAllVars rec .forward reuse skip true rounds
    let size' := setLen f.refs.keys + setLen f.calls.keys
    if size' = size then .ok f else expandAll rec reuse skip rounds k size' f

end CFrame
end Verif
