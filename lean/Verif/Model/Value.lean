import Verif.Basic.Dict
import Verif.Basic.Err
import Verif.Basic.Canon
import Verif.Basic.Names
/-!
Python values, type annotations, refs and identifiers (`mandala/model.py`, `mandala/tps.py`).
-/
namespace Verif

/-- Python values as far as storing and hashing them is concerned. A dictionary is kept in the order of its
keys, which are strings: neither python's `==` nor the content hash depends on the insertion order.
`obj n` stands for any other hashable and serializable object; `ptr id` is a `ValuePointer` whose
object has been removed (model.py:303-306). -/
inductive Val
  | none
  | int (n : Int)
  | str (s : String)
  | list (xs : List Val)
  | tuple (xs : List Val)
  | dict (keys : List String) (vals : List Val)
  | obj (n : Nat)
  | ptr (id : String)
  deriving Repr, Inhabited

mutual
/-- structural equality test -/
def Val.beq : Val → Val → Bool
  | .none, .none => true
  | .int n, .int m => n = m
  | .str s, .str t => s = t
  | .list xs, .list ys => Val.beqs xs ys
  | .tuple xs, .tuple ys => Val.beqs xs ys
  | .dict ks xs, .dict ls ys => ks = ls && Val.beqs xs ys
  | .obj n, .obj m => n = m
  | .ptr s, .ptr t => s = t
  | _, _ => false
/-- pointwise -/
def Val.beqs : List Val → List Val → Bool
  | [], [] => true
  | x :: xs, y :: ys => Val.beq x y && Val.beqs xs ys
  | _, _ => false
end

mutual
theorem Val.beq_iff : ∀ (a b : Val), Val.beq a b = true ↔ a = b
  | .none, b => by cases b <;> simp [Val.beq]
  | .int n, b => by cases b <;> simp [Val.beq]
  | .str s, b => by cases b <;> simp [Val.beq]
  | .obj n, b => by cases b <;> simp [Val.beq]
  | .ptr n, b => by cases b <;> simp [Val.beq]
  | .list xs, b => by cases b <;> simp [Val.beq, Val.beqs_iff xs]
  | .tuple xs, b => by cases b <;> simp [Val.beq, Val.beqs_iff xs]
  | .dict ks xs, b => by cases b <;> simp [Val.beq, Val.beqs_iff xs]
theorem Val.beqs_iff : ∀ (a b : List Val), Val.beqs a b = true ↔ a = b
  | [], b => by cases b <;> simp [Val.beqs]
  | x :: xs, b => by cases b <;> simp [Val.beqs, Val.beq_iff x, Val.beqs_iff xs]
end

instance : DecidableEq Val := fun a b => decidable_of_iff _ (Val.beq_iff a b)

/-- The two collection types the storage can take apart. -/
inductive Kind
  | list
  | dict
  deriving DecidableEq, Repr

/-- `tps.py`: `AtomType`, `ListType(elt)`, `DictType(val)` (keys are atoms), and the types without
a struct builder (`SetType`, `TupleType`; storage.py:541-542). -/
inductive Ty
  | atom
  | coll (kind : Kind) (elt : Ty)
  | unsupported
  deriving DecidableEq, Repr

/-- `Ref` (model.py:19-60). `atom`: `AtomRef`, in memory iff `obj` is present. `coll`: `ListRef`/`DictRef`
(model.py:317-371); `keys` is used for dictionaries only; a collection that is not in memory has no
elements (`obj=None`, model.py:42-46). -/
inductive Ref
  | atom (cid hid : String) (obj : Option Val)
  | coll (kind : Kind) (cid hid : String) (inMem : Bool) (keys : List String) (elts : List Ref)
  deriving Repr, Inhabited

mutual
/-- structural equality test -/
def Ref.beq : Ref → Ref → Bool
  | .atom c h o, .atom c' h' o' => c = c' && h = h' && decide (o = o')
  | .coll k c h m ks es, .coll k' c' h' m' ks' es' =>
    k = k' && c = c' && h = h' && m = m' && ks = ks' && Ref.beqs es es'
  | _, _ => false
/-- pointwise -/
def Ref.beqs : List Ref → List Ref → Bool
  | [], [] => true
  | x :: xs, y :: ys => Ref.beq x y && Ref.beqs xs ys
  | _, _ => false
end

mutual
theorem Ref.beq_iff : ∀ (a b : Ref), Ref.beq a b = true ↔ a = b
  | .atom c h o, b => by cases b <;> simp [Ref.beq, and_assoc]
  | .coll k c h m ks es, b => by cases b <;> simp [Ref.beq, Ref.beqs_iff es, and_assoc]
theorem Ref.beqs_iff : ∀ (a b : List Ref), Ref.beqs a b = true ↔ a = b
  | [], b => by cases b <;> simp [Ref.beqs]
  | x :: xs, b => by cases b <;> simp [Ref.beqs, Ref.beq_iff x, Ref.beqs_iff xs]
end

instance : DecidableEq Ref := fun a b => decidable_of_iff _ (Ref.beq_iff a b)

namespace Ref

/-- attribute `cid` -/
def cid : Ref → String
  | .atom c _ _ => c
  | .coll _ c _ _ _ _ => c

/-- attribute `hid` -/
def hid : Ref → String
  | .atom _ h _ => h
  | .coll _ _ h _ _ _ => h

/-- `with_hid` (model.py:30-31), also `ref.hid = ...` on a copy -/
def withHid (h : String) : Ref → Ref
  | .atom c _ o => .atom c h o
  | .coll k c _ m ks es => .coll k c h m ks es

/-- `detached` (model.py:42-46) -/
def detached : Ref → Ref
  | .atom c h _ => .atom c h none
  | .coll k c h _ _ _ => .coll k c h false [] []

end Ref

/-- An argument as the user passes it: a ref, a plain value, a python list/dict that may contain
refs, or a `ValuePointer` with its object. (Plain collections without refs are also `val`.) -/
inductive Arg
  | ref (r : Ref)
  | val (v : Val)
  | list (xs : List Arg)
  | dict (keys : List String) (xs : List Arg)
  | ptr (id : String) (obj : Val)
  deriving Repr, Inhabited

section Ids
variable (H : Val → String)

/-- History id of a value without history (model.py:309-310). -/
def rawHid (v : Val) : String := H (.str (H v))

/-- `get_call_history_id`/`get_call_content_id` (model.py:187-210, no semantic version): the hash of
`({name: id}, op name, op version)`. -/
def callId (op : String) (version : Int) (ids : List (String × String)) : String :=
  H (.tuple [.dict ((canon ids).map (·.1)) ((canon ids).map (fun p => .str p.2)), .str op, .int version])

/-- `get_output_history_ids` (model.py:222-225) -/
def outHid (callHid name : String) : String := H (.tuple [.str callHid, .str name])

/-- What `__make_list__`/`__make_dict__` hash to get the content id (model.py:408-426); `sorted` has no
effect since keys are in order. -/
def collPre : Kind → List String → List String → Val
  | .list, _, cids => .list (cids.map .str)
  | .dict, keys, cids => .list ((keys.zip cids).map fun p => .tuple [.str p.1, .str p.2])

/-- `wrap_atom` (model.py:289-311) for a value that is not a `Ref`, `history_id` given or not. -/
def wrapVal (v : Val) (historyId : Option String) : Ref :=
  .atom (H v) (historyId.getD (rawHid H v)) (some v)

/-- `wrap_atom` for a `ValuePointer` (model.py:303-306): cid and hid are the hash of the *id string*; a given
history id is ignored. -/
def wrapPtr (id : String) : Ref := .atom (H (.str id)) (H (.str id)) (some (.ptr id))

end Ids

/-- Names of the inputs of a struct builder (storage.py:544-555): `elts_i`, or the dictionary keys. -/
def structNames : Kind → List String → Nat → List String
  | .list, _, n => (List.range n).map eltName
  | .dict, keys, _ => keys

/-- The name of the struct builder (storage.py:535-542, model.py:448-449). -/
def builderName : Kind → String
  | .list => "__make_list__"
  | .dict => "__make_dict__"

/-- Its output name. -/
def builderOut : Kind → String
  | .list => "list"
  | .dict => "dict"

/-- Element access: op, name of the collection argument, of the index argument, of the output
(model.py:438-453). -/
def getitemName : Kind → String
  | .list => "__list_getitem__"
  | .dict => "__dict_getitem__"
def getitemArg : Kind → String
  | .list => "list"
  | .dict => "dict"
def getitemIdx : Kind → String
  | .list => "i"
  | .dict => "key"
def getitemOut : Kind → String
  | .list => "list_item"
  | .dict => "dict_value"

end Verif
