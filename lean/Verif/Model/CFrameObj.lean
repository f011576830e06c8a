import Verif.Model.CFrame
/-!
Computation frames as mutable objects, /repo/mandala/cf.py: which object an operation changes when it is called with
`inplace=False`; merging variables; `cleanup` and `simplify`.

A heap is a list of frames, an object is an index into it. Simplification: a step on one object that raises leaves that object
as it was before the step; steps before it stay done.
-/
namespace Verif

namespace CFrame

/-! ### merging, on one object -/

/-- cf.py lines 1967-1970 `move_ref`, on `res.vs` -/
def moveRefVs (a b h : String) (f : CFrame) : Except Err CFrame := do
  let s ← getE f.vs a
  if h ∉ s then .error .valueError else
  let vs := f.vs.set a (PySet.remove s h)
  let t ← getE vs b
  .ok { f with vs := vs.set b (PySet.add t h) }

/-- cf.py lines 1971-1973 `move_ref`, on `self.refinv` -/
def moveRefInv (a b h : String) (f : CFrame) : Except Err CFrame := do
  let s ← getE f.refinv h
  let s' ← removeE s a
  .ok { f with refinv := f.refinv.set h (PySet.add s' b) }

/-- cf.py lines 1961-1974 `move_ref` in place -/
def moveRef (a b h : String) (f : CFrame) : Except Err CFrame := do
  let f ← moveRefVs a b h f
  moveRefInv a b h f

/-- `res.sets[node]` -/
def setE (f : CFrame) (n : String) : Except Err (List String) :=
  match f.setOf n with
  | some s => .ok s
  | none => .error .keyError

/-- cf.py lines 1994-1996 -/
def redirectIn (a b : String) (f : CFrame) : Except Err CFrame :=
  (f.inEdges a).foldlM (fun f e => do
    let f ← f.dropEdge e.1 e.2.1 e.2.2
    f.addEdge e.1 b e.2.2 true) f

/-- cf.py lines 1997-1999 -/
def redirectOut (a b : String) (f : CFrame) : Except Err CFrame :=
  (f.outEdges a).foldlM (fun f e => do
    let f ← f.dropEdge e.1 e.2.1 e.2.2
    f.addEdge b e.2.1 e.2.2 true) f

/-- cf.py lines 1994-1999 -/
def redirect (a b : String) (f : CFrame) : Except Err CFrame := do
  let f ← redirectIn a b f
  redirectOut a b f

/-- cf.py lines 1976-2001 `merge_into` in place -/
def mergeInto (a b : String) (f : CFrame) : Except Err CFrame := do
  let sa ← f.setE a
  let sb ← f.setE b
  let f ← (PySet.diff (PySet.ofList sa) sb).foldlM (fun f h => moveRef a b h f) f
  let f ← redirect a b f
  f.dropNode a

/-- cf.py lines 2012-2017: the first pair of which one is strictly contained in the other -/
def mergePair (f : CFrame) : Option (String × String) :=
  (f.vs.keys.flatMap fun v => f.vs.keys.map fun w => (v, w)).find? fun p =>
    p.1 ≠ p.2 ∧ PySet.subset (getOr f.vs p.1) (getOr f.vs p.2) ∧ setLen (getOr f.vs p.1) < setLen (getOr f.vs p.2)

/-- cf.py lines 2003-2030 `merge_vars` in place; `k` bounds the number of rounds -/
def mergeVarsLoop : Nat → CFrame → Except Err CFrame
  | 0, _ => .error .recursionError
  | k + 1, f =>
    match f.mergePair with
    | none => .ok f
    | some (v, w) => do
      let g ← mergeInto v w f
      if setLen g.vs.keys = setLen f.vs.keys then .ok g else mergeVarsLoop k g

def mergeVars (f : CFrame) : Except Err CFrame := mergeVarsLoop (setLen f.vs.keys + 1) f

/-! ### objects -/

abbrev Heap := List CFrame

abbrev OM (α : Type) := ExceptT Err (StateM Heap) α

/-- reading the attributes of an object -/
def frame (i : Nat) : OM CFrame := fun h =>
  match h[i]? with
  | some f => (.ok f, h)
  | none => (.error .unmodelled, h)

/-- a step that changes one object -/
def onFrame (i : Nat) (op : CFrame → Except Err CFrame) : OM Unit := fun h =>
  match h[i]? with
  | none => (.error .unmodelled, h)
  | some f => match op f with
    | .ok g => (.ok (), h.set i g)
    | .error e => (.error e, h)

/-- cf.py lines 1715-1728 `copy`: a new object with equal content -/
def copyObj (i : Nat) : OM Nat := fun h =>
  match h[i]? with
  | some f => (.ok h.length, h ++ [f])
  | none => (.error .unmodelled, h)

/-- `res = self if inplace else self.copy()` -/
def target (i : Nat) (inplace : Bool) : OM Nat := if inplace then pure i else copyObj i

/-- `return res if not inplace else None` -/
def answer (r : Nat) (inplace : Bool) : OM (Option Nat) := pure (if inplace then none else some r)

/-- cf.py lines 237-254 `drop_var` -/
def dropVarO (i : Nat) (v : String) (inplace : Bool) : OM (Option Nat) := do
  let r ← target i inplace
  onFrame r (·.dropVar v)
  answer r inplace

/-- cf.py lines 296-307 `drop_func` -/
def dropFuncO (i : Nat) (n : String) (inplace : Bool) : OM (Option Nat) := do
  let r ← target i inplace
  onFrame r (·.dropFunc n)
  answer r inplace

/-- cf.py lines 199-209 `drop_node` -/
def dropNodeO (i : Nat) (n : String) (inplace : Bool) : OM (Option Nat) := do
  let r ← target i inplace
  let f ← frame r
  if f.vs.has n then
    let _ ← dropVarO r n true
  else if f.fs.has n then
    let _ ← dropFuncO r n true
  else throw .valueError
  answer r inplace

/-- cf.py lines 186-197 `drop` -/
def dropO (i : Nat) (ns : List String) (inplace : Bool) : OM (Option Nat) := do
  let r ← target i inplace
  ns.forM fun n => do
    let _ ← dropNodeO r n true
  answer r inplace

/-- cf.py lines 256-277 `rename_var` -/
def renameVarO (i : Nat) (v w : String) (inplace : Bool) : OM (Option Nat) := do
  let r ← target i inplace
  onFrame r (·.renameVar v w)
  answer r inplace

/-- cf.py lines 211-221 `rename` -/
def renameO (i : Nat) (vars : Dict String String) (inplace : Bool) : OM (Option Nat) := do
  let r ← target i inplace
  vars.forM fun p => do
    let _ ← renameVarO r p.1 p.2 true
  answer r inplace

/-- cf.py lines 1961-1974 `move_ref`: `vs` of `res` and `refinv` of `self` -/
def moveRefO (i : Nat) (a b h : String) (inplace : Bool) : OM (Option Nat) := do
  let r ← target i inplace
  onFrame r (moveRefVs a b h)
  onFrame i (moveRefInv a b h)
  answer r inplace

/-- cf.py lines 1976-2001 `merge_into`: the refs are moved in `self`, the rest happens in `res` -/
def mergeIntoO (i : Nat) (a b : String) (inplace : Bool) : OM (Option Nat) := do
  let r ← target i inplace
  let f ← frame r
  let sa ← liftExcept (f.setE a)
  let sb ← liftExcept (f.setE b)
  (PySet.diff (PySet.ofList sa) sb).forM fun h => do
    let _ ← moveRefO i a b h true
  onFrame r (redirect a b)
  let _ ← dropNodeO r a true
  answer r inplace
where
  liftExcept {α : Type} (e : Except Err α) : OM α := fun h => (e, h)

/-- cf.py lines 2010-2029, the loop of `merge_vars` -/
def mergeVarsLoopO (r : Nat) : Nat → OM Unit
  | 0 => throw .recursionError
  | k + 1 => do
    let f ← frame r
    match f.mergePair with
    | none => pure ()
    | some (v, w) => do
      let _ ← mergeIntoO r v w true
      let g ← frame r
      if setLen g.vs.keys = setLen f.vs.keys then pure () else mergeVarsLoopO r k

/-- cf.py lines 2003-2030 `merge_vars` -/
def mergeVarsO (i : Nat) (inplace : Bool) : OM (Option Nat) := do
  let r ← target i inplace
  let f ← frame r
  mergeVarsLoopO r (setLen f.vs.keys + 1)
  answer r inplace

/-- cf.py lines 2062-2064, 2075-2077: the result of `drop_node(node)` is thrown away -/
def dropEmptyO (r : Nat) : OM Unit := do
  let f ← frame r
  f.nodes.forM fun n => do
    let f ← frame r
    if (f.setOf n).getD [] = [] then
      let _ ← dropNodeO r n false
    else pure ()

/-- cf.py lines 2072-2078 `cleanup` -/
def cleanupO (i : Nat) (inplace : Bool) : OM (Option Nat) := do
  let r ← target i inplace
  dropEmptyO r
  answer r inplace

/-- cf.py lines 2056-2070 `simplify` -/
def simplifyO (i : Nat) : OM Unit := dropEmptyO i

end CFrame
end Verif
