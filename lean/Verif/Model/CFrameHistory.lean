import Verif.Model.CFrame
/-!
cf.py: the direct and the total history of a set of values of a variable.
-/
namespace Verif

/-- cf.py lines 1483-1486, 1496-1500: `if k not in res: res[k] = set()`, then `res[k].add(x)` -/
def recordIn (res : SetDict) (k x : String) : SetDict := res.set k (PySet.add (getOr res k) x)

/-- cf.py lines 1438-1442 `_is_subobject` -/
def isSubobject (a b : SetDict) : Bool :=
  ((keysAnd a b).all fun k => PySet.subset (getOr a k) (getOr b k)) && a.keys.all fun k => b.has k

namespace CFrame

/-- cf.py lines 1488-1500: one edge into the function of the creator; the inputs of the call `c` behind its label which are in
the variable at the source. -/
def historyEdge (f : CFrame) (c : FCall) (res : SetDict) (e : String × String × String) : Except Err SetDict :=
  (reverseProj c e.2.2).foldlM (fun res n =>
    match c.inputs.get? n with
    | none => .ok res
    | some r => do
      let s ← getE f.vs e.1
      .ok (if r.hid ∈ s then recordIn res e.1 r.hid else res)) res

/-- cf.py lines 1482-1500: one function with the creator `ch`, and all the edges into it. -/
def historyFunc (f : CFrame) (c : FCall) (ch : String) (inc : Bool) (res : SetDict) (n : String) : Except Err SetDict :=
  (f.inEdges n).foldlM (f.historyEdge c) (if inc then recordIn res n ch else res)

/-- cf.py lines 1472-1501: the values and calls directly before the value `h` of the variable `v`. -/
def historyOf (f : CFrame) (v : String) (inc : Bool) (total : SetDict) (h : String) : Except Err SetDict :=
  match f.creator.get? h with
  | none => .ok total
  | some ch => do
    let c ← getE f.calls ch
    let ns ← getE f.callinv ch
    let nb ← f.inNeighbors v
    let res ← (PySet.inter ns nb).foldlM (f.historyFunc c ch inc) []
    .ok (setdictUnion total res)

/-- cf.py lines 1444-1502 `get_direct_history`; `_unify_subobjects` (lines 1432-1436) is `get_setdict_union`. -/
def directHistory (f : CFrame) (v : String) (hids : List String) (inc : Bool) : Except Err SetDict :=
  if v ∈ f.vs.keys then hids.foldlM (f.historyOf v inc) [(v, hids)] else .error .notImplemented

/-- cf.py lines 1504-1537 `get_total_history`. The order in which python iterates over the keys of the dictionary (built from
a set of keys) is a parameter `ord`. Fuel stands for the recursion depth. -/
def totalHistory (ord : SetDict → List String) (f : CFrame) (inc : Bool) : Nat → String → List String → Option SetDict → Except Err SetDict
  | 0, _, _, _ => .error .recursionError
  | n + 1, v, hids, result => do
    let d ← f.directHistory v hids inc
    match result with
    | some r =>
      if isSubobject d r then .ok r
      else (ord d).foldlM (fun total k =>
        if k ∈ f.vs.keys then do
          let r ← totalHistory ord f inc n k (getOr d k) (some total)
          .ok (setdictUnion total r)
        else .ok total) d
    | none =>
      (ord d).foldlM (fun total k =>
        if k ∈ f.vs.keys then do
          let r ← totalHistory ord f inc n k (getOr d k) (some total)
          .ok (setdictUnion total r)
        else .ok total) d

end CFrame
end Verif
