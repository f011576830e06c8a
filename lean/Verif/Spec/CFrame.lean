import Verif.Model.CFrame
import Verif.Props.SetDict
/-!
What a consistent computation frame is, in terms of the relations its dictionaries stand for.
-/
namespace Verif

open Props

/-- The calls recorded in a storage, as far as a frame can see them: each is identified by its history id, has its inputs
and outputs under distinct names, and no value is the output of two calls. The inputs of a list construction are named
`elts_i` (model.py line 409), its output is not. -/
structure RecOk (R : FCall → Prop) : Prop where
  hid : ∀ c c', R c → R c' → c.hid = c'.hid → c = c'
  inputs : ∀ c, R c → c.inputs.keys.Nodup
  outputs : ∀ c, R c → c.outputs.keys.Nodup
  creator : ∀ c c' p p', R c → R c' → p ∈ c.outputs → p' ∈ c'.outputs → p.2.hid = p'.2.hid → c = c'
  elts : ∀ c, R c → c.op = makeListName → ∀ p ∈ c.inputs, isElt p.1 = true
  list : ∀ c, R c → c.op = makeListName → ∀ p ∈ c.outputs, isElt p.1 = false ∧ p.1 ≠ "elts"

namespace CFrame

/-- The variable `v` contains the value `h`. -/
abbrev HasRef (f : CFrame) (v h : String) : Prop := InSet f.vs v h

/-- The function `n` contains the call `h`. -/
abbrev HasCall (f : CFrame) (n h : String) : Prop := InSet f.fs n h

/-- There is an edge from `s` to `d` with this label. -/
abbrev HasEdge (f : CFrame) (s d l : String) : Prop := InAdj f.out s l d

abbrev IsVar (f : CFrame) (v : String) : Prop := v ∈ f.vs.keys
abbrev IsFunc (f : CFrame) (n : String) : Prop := n ∈ f.fs.keys

/-- The consistency that cf.py lines 117-151 document: whatever the inverse and object dictionaries speak of is in the frame,
and a call has all inputs and outputs for which there is an edge in the variable at the other end. -/
structure Consistent (f : CFrame) : Prop where
  refs : ∀ h, h ∈ f.refs.keys ↔ ∃ v, f.HasRef v h
  calls : ∀ h, h ∈ f.calls.keys ↔ ∃ n, f.HasCall n h
  refinv : ∀ h v, InSet f.refinv h v → f.IsVar v
  callinv : ∀ h n, InSet f.callinv h n → f.IsFunc n
  creator : ∀ h c, f.creator.get? h = some c → h ∈ f.refs.keys ∧ c ∈ f.calls.keys
  consumersKey : ∀ h, h ∈ f.consumers.keys → h ∈ f.refs.keys
  consumers : ∀ h c, InSet f.consumers h c → c ∈ f.calls.keys
  edges : ∀ s d l, f.HasEdge s d l → (f.IsVar s ∨ f.IsFunc s) ∧ (f.IsVar d ∨ f.IsFunc d)
  io : ∀ n h, f.HasCall n h → ∃ c i o, f.calls.get? h = some c ∧ f.inp.get? n = some i ∧ f.out.get? n = some o ∧
    (∀ p ∈ c.inputs, ∀ v, InSet i (nameProj c.op p.1) v → f.HasRef v p.2.hid ∧ InSet f.refinv p.2.hid v) ∧
    (∀ p ∈ c.outputs, ∀ v, InSet o (nameProj c.op p.1) v → f.HasRef v p.2.hid ∧ InSet f.refinv p.2.hid v)
  refHid : ∀ h r, f.refs.get? h = some r → r.hid = h
  callHid : ∀ h c, f.calls.get? h = some c → c.hid = h

/-- The inverse dictionary of the refs is the inverse, and the ref objects are those of the variables. -/
structure RefWf (f : CFrame) : Prop where
  refinv : ∀ h v, InSet f.refinv h v ↔ f.HasRef v h
  refinvKey : ∀ h, h ∈ f.refinv.keys ↔ ∃ v, f.HasRef v h
  refs : ∀ h, h ∈ f.refs.keys ↔ ∃ v, f.HasRef v h
  refHid : ∀ h r, f.refs.get? h = some r → r.hid = h

/-- The same for calls, which are those of the storage. -/
structure CallWf (R : FCall → Prop) (f : CFrame) : Prop where
  callinv : ∀ h n, InSet f.callinv h n ↔ f.HasCall n h
  callinvKey : ∀ h, h ∈ f.callinv.keys ↔ ∃ n, f.HasCall n h
  calls : ∀ h, h ∈ f.calls.keys ↔ ∃ n, f.HasCall n h
  callOk : ∀ h c, f.calls.get? h = some c → c.hid = h ∧ R c

/-- The graph: variables and functions are distinct nodes, edges connect the one with the other and are recorded at both
ends. -/
structure GraphWf (f : CFrame) : Prop where
  disj : ∀ n, f.IsVar n → ¬ f.IsFunc n
  inpKey : ∀ n, n ∈ f.inp.keys ↔ f.IsVar n ∨ f.IsFunc n
  outKey : ∀ n, n ∈ f.out.keys ↔ f.IsVar n ∨ f.IsFunc n
  sym : ∀ s d l, InAdj f.out s l d ↔ InAdj f.inp d l s
  bip : ∀ s d l, InAdj f.out s l d → (f.IsVar s ∧ f.IsFunc d) ∨ (f.IsFunc s ∧ f.IsVar d)

/-- The graph and the inverse dictionaries are as they should be; nothing is said about what a call has to have in the variables
around it. -/
structure Base (R : FCall → Prop) (f : CFrame) : Prop where
  graph : GraphWf f
  ref : RefWf f
  call : CallWf R f

/-- `p` is an input of the call `c` which the function `n` tracks in the variable `v`. -/
def Tracks (side : Adj) (f : CFrame) (n : String) (c : FCall) (p : String × FRef) (v : String) : Prop :=
  f.HasCall n c.hid ∧ f.calls.get? c.hid = some c ∧ InAdj side n (nameProj c.op p.1) v

/-- A well-formed frame over the recorded calls `R`: consistent (`Wf.consistent`), and moreover all the inverse dictionaries
are exact and the creators and consumers of the values are exactly those calls of the frame. -/
structure Wf (R : FCall → Prop) (f : CFrame) : Prop where
  graph : GraphWf f
  ref : RefWf f
  call : CallWf R f
  ins : ∀ n c p v, p ∈ c.inputs → Tracks f.inp f n c p v → f.HasRef v p.2.hid ∧ InSet f.consumers p.2.hid c.hid
  outs : ∀ n c p v, p ∈ c.outputs → Tracks f.out f n c p v → f.HasRef v p.2.hid ∧ f.creator.get? p.2.hid = some c.hid
  creator : ∀ h c, f.creator.get? h = some c → (∃ v, f.HasRef v h) ∧
    ∃ call, f.calls.get? c = some call ∧ ∃ p ∈ call.outputs, p.2.hid = h
  consumersKey : ∀ h, h ∈ f.consumers.keys → ∃ v, f.HasRef v h
  consumers : ∀ h c, InSet f.consumers h c → ∃ call, f.calls.get? c = some call ∧ ∃ p ∈ call.inputs, p.2.hid = h

end CFrame
end Verif
