import Verif.Spec.Program
/-!
Elements of collections and the calls that take them out.
-/
namespace Verif

mutual
/-- `P kind hid index element` holds for all elements of all collections in the ref, which are in memory. -/
def Each (P : Kind → String → Val → Ref → Prop) : Ref → Prop
  | .atom .. => True
  | .coll k _ h m ks es => m = true ∧ Eachs P k h (idxVals k ks es.length) es
/-- for the elements of one collection -/
def Eachs (P : Kind → String → Val → Ref → Prop) (k : Kind) (h : String) : List Val → List Ref → Prop
  | [], [] => True
  | i :: is, e :: es => (P k h i e ∧ Each P e) ∧ Eachs P k h is es
  | _, _ => False
end

/-- The history id of the call `h[i]`. -/
def accessId (H : Val → String) (k : Kind) (h : String) (i : Val) : String :=
  callId H (getitemName k) 0 [(getitemArg k, h), (getitemIdx k, rawHid H i)]

/-- The call taking element `i` out of collection `h` is on record, with these inputs, and its output is the element. -/
def AccessRow (H : Val → String) (rows : List Row) (k : Kind) (h : String) (i : Val) (e : Ref) : Prop :=
  (∃ r ∈ rows, r.op = getitemName k ∧ r.callHid = accessId H k h i ∧ r.dir = .out ∧ r.name = getitemOut k ∧ r.refHid = e.hid ∧ r.refCid = e.cid) ∧
  (∃ r ∈ rows, r.callHid = accessId H k h i ∧ r.dir = .in_ ∧ r.name = getitemArg k ∧ r.refHid = h) ∧
  ∃ r ∈ rows, r.callHid = accessId H k h i ∧ r.dir = .in_ ∧ r.name = getitemIdx k ∧ r.refHid = rawHid H i

end Verif
