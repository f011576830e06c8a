import Verif.Model.CFrame
import Verif.Basic.Names
/-!
Names for new nodes, and the constructors of computation frames: /repo/mandala/cf.py lines 2084-2133 and 2157-2183.

Simplifications.
* `str.isdigit` also accepts digits of other scripts; here only `0`-`9` are digits.
* A search loop gets a budget of one more step than there are names in use; `none` if it does not suffice (it always does, see
  Props/FrameNames).
* The constructors are given the calls that the storage returned (cf.py lines 2085-2088), in their order.
-/
namespace Verif

/-- `name.split("_")[0]` -/
def firstPart (name : String) : String := String.ofList (name.toList.takeWhile (· ≠ '_'))

/-- cf.py lines 2158, 2166: the number at the end of a name of the form `v_i` -/
def numbered (name : String) : Option Nat := if '_' ∈ name.toList then parseOutputName name else none

namespace CFrame

/-- cf.py lines 2167-2169, 2172-2175, 2180-2183: `while f"{v}_{i}" in used: i += 1` -/
def nextFree (used : List String) (v : String) : Nat → Nat → Option String
  | 0, _ => none
  | k + 1, i => if idxName v i ∈ used then nextFree used v k (i + 1) else some (idxName v i)

/-- cf.py lines 2157-2175 `get_new_vname` -/
def getNewVname (f : CFrame) (hint : String) : Option String :=
  match numbered hint with
  | some i =>
    if firstPart hint = "output" then nextFree f.vs.keys "var" (f.vs.keys.length + 1) 0
    else nextFree f.vs.keys (firstPart hint) (f.vs.keys.length + 1) i
  | none => if hint ∈ f.vs.keys then nextFree f.vs.keys hint (f.vs.keys.length + 1) 0 else some hint

/-- cf.py lines 2177-2183 `get_new_fname` -/
def getNewFname (f : CFrame) (hint : String) : Option String :=
  if hint ∈ f.fs.keys then nextFree f.fs.keys hint (f.fs.keys.length + 1) 0 else some hint

/-- Insertion into a sorted list. -/
def insName (x : String) : List String → List String
  | [] => [x]
  | y :: l => if x ≤ y then x :: y :: l else y :: insName x l

/-- `sorted(names)` -/
def sortNames (l : List String) : List String := l.foldr insName []

/-- A search that ends, `none` when the budget of the model is used up. -/
def ended {α : Type} : Option α → Except Err α
  | some a => .ok a
  | none => .error .unmodelled

/-- cf.py lines 2106-2109: the variable for an input of the op -/
def fromOpInput (op : String) (f : CFrame) (name : String) : Except Err CFrame := do
  let v ← ended (f.getNewVname (nameProj op name))
  (f.addVar v).addEdge v op (nameProj op name) false

/-- cf.py lines 2110-2113: the variable for an output of the op -/
def fromOpOutput (op : String) (f : CFrame) (name : String) : Except Err CFrame := do
  let v ← ended (f.getNewVname (nameProj op name))
  (f.addVar v).addEdge op v (nameProj op name) false

/-- cf.py line 2090: the names of the inputs of the calls -/
def inputNames (calls : List FCall) : List String := sortNames (PySet.ofList (calls.flatMap (·.inputs.keys)))

/-- cf.py line 2091 -/
def outputNames (calls : List FCall) : List String := sortNames (PySet.ofList (calls.flatMap (·.outputs.keys)))

/-- cf.py lines 2084-2116 `from_op`; `calls` are the recorded calls of the op (`SELECT ... WHERE op=...`) -/
def fromOp (op : String) (calls : List FCall) : Except Err CFrame := do
  let n ← ended (CFrame.getNewFname {} op)
  let f ← (inputNames calls).foldlM (fromOpInput op) (CFrame.addFunc {} n)
  let f ← (outputNames calls).foldlM (fromOpOutput op) f
  calls.foldlM (fun f c => f.addCall op c true false) f

/-- cf.py lines 2119-2124 `from_refs` -/
def fromRefs (refs : List FRef) : Except Err CFrame := do
  let v ← ended (CFrame.getNewVname {} "v")
  refs.foldlM (fun f r => f.addRef v r false) (CFrame.addVar {} v)

/-- cf.py lines 2127-2133 `from_vars` -/
def fromVars (vars : Dict String (List FRef)) : Except Err CFrame :=
  vars.foldlM (fun f p => p.2.foldlM (fun f r => f.addRef p.1 r false) (f.addVar p.1)) {}

end CFrame
end Verif
