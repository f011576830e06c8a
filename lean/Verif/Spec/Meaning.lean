import Verif.Model.Storage
import Verif.Basic.ListRel
/-!
What refs and recorded calls *mean*: the value a history id stands for, independently of any storage.

A history id is a hash of how a value came about: a plain value, or output `name` of a call of an
op on inputs that themselves have history ids. `Prov` says which value that is; it only refers to the
plain functions. `RefOK`/`CallOK` relate refs and calls to these values.
-/
namespace Verif

/-- A value as the storage sees it: opaque (`atom`) or a collection of stored values. -/
inductive TVal
  | atom (v : Val)
  | coll (kind : Kind) (keys : List String) (elts : List TVal)
  deriving Inhabited

/-- The python list or dictionary. -/
def mkVal : Kind → List String → List Val → Val
  | .list, _, vs => .list vs
  | .dict, keys, vs => .dict keys vs

mutual
/-- The plain python value. -/
def TVal.erase : TVal → Val
  | .atom v => v
  | .coll k keys elts => mkVal k keys (TVal.erases elts)
/-- pointwise -/
def TVal.erases : List TVal → List Val
  | [] => []
  | t :: ts => t.erase :: TVal.erases ts
end

section
variable (H : Val → String)

mutual
/-- The content id. -/
def TVal.cid : TVal → String
  | .atom v => H v
  | .coll k keys elts => H (collPre k keys (TVal.cids elts))
/-- pointwise -/
def TVal.cids : List TVal → List String
  | [] => []
  | t :: ts => t.cid :: TVal.cids ts
end

/-- Values that look like what is hashed to get the content id of a non-empty collection. Storing such a
value as an atom provokes a collision of content ids even if `H` is injective. -/
def ShapeLike (v : Val) : Prop :=
  ∃ xs, v = .list xs ∧ xs ≠ [] ∧
    ((∀ x ∈ xs, ∃ u, x = .str (H u)) ∨ (∀ x ∈ xs, ∃ k u, x = .tuple [.str k, .str (H u)]))
end

/-- The fixed surroundings: hash, the set of user ops, and which of `[]` as an atom, the empty `MList`, the empty
`MDict` may occur (they share one content id, so only one of them can). -/
structure World where
  cfg : Cfg
  D : OpDef → Prop
  emp : TVal

/-- the hash -/
abbrev World.H (W : World) : Val → String := W.cfg.H

/-- Keys of a collection with `n` elements: none for a list; for a dictionary, one per element, in order. -/
def KeysOK : Kind → List String → Nat → Prop
  | .list, keys, _ => keys = []
  | .dict, keys, n => keys.length = n ∧ keys.Pairwise (· ≤ ·) ∧ keys.Nodup

section
variable (W : World)

mutual
/-- Values without content id collisions. -/
def TVal.Wf : TVal → Prop
  | .atom v => (∀ id, v ≠ .ptr id) ∧ ¬ ShapeLike W.H v ∧ (v = .list [] → W.emp = .atom (.list []))
  | .coll k keys elts => KeysOK k keys elts.length ∧ (elts = [] → W.emp = .coll k [] []) ∧ TVal.Wfs elts
/-- pointwise -/
def TVal.Wfs : List TVal → Prop
  | [] => True
  | t :: ts => t.Wf ∧ TVal.Wfs ts
end

/-- The stored form of a plain value at a given type. -/
def ValT : Ty → Val → TVal → Prop
  | .atom, v, t => t = .atom v
  | .coll k ty, v, t => ∃ keys vs ts, v = mkVal k keys vs ∧ t = .coll k keys ts ∧
      KeysOK k keys ts.length ∧ All2 (ValT ty) vs ts
  | .unsupported, _, _ => False

/-- Element `idx` of a collection. -/
def eltAt : Kind → List String → List TVal → Val → Option TVal
  | .list, _, ts, .int i => ts[i.toNat]?
  | .dict, keys, ts, .str k => Dict.get? (keys.zip ts) k
  | _, _, _, _ => none

/-- named values with their plain python values -/
def eraseIns (ins : List (String × TVal)) : List (String × Val) := ins.map fun p => (p.1, p.2.erase)

/-- What the op with this name and version returns on these inputs (sorted by name): user functions, building
a collection, taking an element out of a collection. -/
inductive Sem : String → Int → List (String × TVal) → List (String × TVal) → Prop
  | user {d : OpDef} {ins : List (String × TVal)} {ret : Val} {outs : List (String × Val × Ty)}
      {touts : List (String × TVal)} : W.D d → d.body (eraseIns ins) = .ok ret →
      parseReturns d.nout d.outNames d.ann ret = .ok outs →
      All2 (fun p q => p.1 = q.1 ∧ ValT p.2.2 p.2.1 q.2 ∧ q.2.Wf W) outs touts → Sem d.name d.version ins touts
  | make {k : Kind} {keys : List String} {ts : List TVal} : (TVal.coll k keys ts).Wf W →
      Sem (builderName k) 0 (canon ((structNames k keys ts.length).zip ts)) [(builderOut k, .coll k keys ts)]
  | getitem {k : Kind} {keys : List String} {ts : List TVal} {idx : Val} {t : TVal} :
      eltAt k keys ts idx = some t →
      Sem (getitemName k) 0 (canon [(getitemArg k, .coll k keys ts), (getitemIdx k, .atom idx)])
        [(getitemOut k, t)]

/-- An input of a call: name, history id, value. -/
structure In where
  name : String
  hid : String
  t : TVal

/-- `{name: value}` -/
def insVals (ins : List In) : List (String × TVal) := ins.map fun p => (p.name, p.t)
/-- `{name: history id}` -/
def insHids (ins : List In) : List (String × String) := ins.map fun p => (p.name, p.hid)
/-- `{name: content id}` -/
def insCids (ins : List In) : List (String × String) := ins.map fun p => (p.name, p.t.cid W.H)

/-- `Prov h t`: the history id `h` stands for the value `t`. -/
inductive Prov : String → TVal → Prop
  | raw {v : Val} : (TVal.atom v).Wf W → Prov (rawHid W.H v) (.atom v)
  | out {op : String} {ver : Int} {ins : List In} {outs : List (String × TVal)} {name : String} {t : TVal} :
      (∀ p ∈ ins, Prov p.hid p.t) → Sem W op ver (canon (insVals ins)) outs → Dict.get? outs name = some t →
      t.Wf W → Prov (outHid W.H (callId W.H op ver (insHids ins)) name) t

mutual
/-- The ref stands for the value `t`: its history id does, its content id is that of `t`, and what it holds in
memory is (the parts of) `t`. -/
def RefOK : Ref → TVal → Prop
  | .atom c h o, t => Prov W h t ∧ ∃ v, t = .atom v ∧ c = W.H v ∧ (o = none ∨ o = some v)
  | .coll k c h inMem keys elts, t => Prov W h t ∧ ∃ keys' ts, t = .coll k keys' ts ∧ c = t.cid W.H ∧
      (inMem = true → keys = keys' ∧ RefsOK elts ts)
/-- pointwise -/
def RefsOK : List Ref → List TVal → Prop
  | [], [] => True
  | r :: rs, t :: ts => RefOK r t ∧ RefsOK rs ts
  | _, _ => False
end

/-- The identifiers of a call of `op`, its inputs (sorted by name) and what it returns on them. -/
def CallSem (op : String) (hid cid : String) (cins outs : List (String × TVal)) : Prop :=
  ∃ (ver : Int) (ins : List In), (∀ p ∈ ins, Prov W p.hid p.t) ∧ hid = callId W.H op ver (insHids ins) ∧
    cid = callId W.H op ver (insCids W ins) ∧ cins = canon (insVals ins) ∧ (Dict.keys cins).Nodup ∧
    Sem W op ver cins outs

/-- The outputs of a call on record: one ref for each output, standing for what the op returns. -/
def OutsOK (hid : String) (outputs : Dict String Ref) (outs : List (String × TVal)) : Prop :=
  (Dict.keys outputs).Nodup ∧ (∀ n ∈ Dict.keys outs, n ∈ Dict.keys outputs) ∧
  ∀ p ∈ outputs, ∃ t, Dict.get? outs p.1 = some t ∧ p.2.hid = outHid W.H hid p.1 ∧ RefOK W p.2 t

/-- The named inputs `ins` of a call are those from which its history id was computed; an input is missing only if an output has its
name. -/
def InsFrom (H : Val → String) (op hid : String) (ins : List (String × String)) (outs : List String) : Prop :=
  ∃ (ver : Int) (ids : List (String × String)), hid = callId H op ver ids ∧ (∀ p ∈ ins, p ∈ ids) ∧
    ∀ n ∈ Dict.keys ids, n ∈ Dict.keys ins ∨ n ∈ outs

/-- A call object says what its op returns on its inputs. -/
def CallOK (c : CallObj) : Prop :=
  ∃ cins outs, CallSem W c.op c.hid c.cid cins outs ∧
    (∀ p ∈ c.inputs, ∃ t, (p.1, t) ∈ cins ∧ RefOK W p.2 t) ∧ OutsOK W c.hid c.outputs outs ∧
    InsFrom W.H c.op c.hid (idsOf Ref.hid c.inputs) (Dict.keys c.outputs)

/-- The elements of a python list (for `MList`) or dictionary (for `MDict`). -/
def plainItems : Kind → Arg → Option (List String × List Arg)
  | .list, .val (.list xs) => some ([], xs.map .val)
  | .list, .list xs => some ([], xs)
  | .dict, .val (.dict ks vs) => some (ks, vs.map .val)
  | .dict, .dict ks xs => some (ks, xs)
  | _, _ => none

/-- The argument `a`, passed for a parameter of type `ty`, stands for the value `t`: a ref, or a plain value that
conforms to the type (a list for `MList`, a dictionary for `MDict`, anything without collisions otherwise). -/
def ArgT : Ty → Arg → TVal → Prop
  | .atom, a, t => match a with
    | .ref r => RefOK W r t
    | .val v => t = .atom v ∧ t.Wf W
    | _ => False
  | .coll k ty, a, t => match a with
    | .ref r => RefOK W r t
    | a => ∃ keys items ts, plainItems k a = some (keys, items) ∧ t = .coll k keys ts ∧ t.Wf W ∧
        All2 (ArgT ty) items ts
  | .unsupported, a, t => match a with
    | .ref r => RefOK W r t
    | _ => False

end

/-- The history id of an argument: that of a ref, of a plain value, or of a collection built from its
elements. -/
def argHid (H : Val → String) : Ty → Arg → String
  | .atom, a => match a with
    | .ref r => r.hid
    | .val v => rawHid H v
    | _ => ""
  | .coll k ty, a => match a with
    | .ref r => r.hid
    | a => match plainItems k a with
      | some (keys, items) =>
        outHid H (callId H (builderName k) 0 ((structNames k keys items.length).zip (items.map (argHid H ty))))
          (builderOut k)
      | none => ""
  | .unsupported, a => match a with
    | .ref r => r.hid
    | _ => ""

/-- The content id of an argument: that of a ref, the hash of a plain value, or the hash of the content ids of the
elements. -/
def argCid (H : Val → String) : Ty → Arg → String
  | .atom, a => match a with
    | .ref r => r.cid
    | .val v => H v
    | _ => ""
  | .coll k ty, a => match a with
    | .ref r => r.cid
    | a => match plainItems k a with
      | some (keys, items) => H (collPre k keys (items.map (argCid H ty)))
      | none => ""
  | .unsupported, a => match a with
    | .ref r => r.cid
    | _ => ""

/-- The history ids of the calls that build the collections in an argument, innermost first. -/
def structHids (H : Val → String) : Ty → Arg → List String
  | .coll k ty, a => match a with
    | .ref _ => []
    | a => match plainItems k a with
      | some (keys, items) => items.flatMap (structHids H ty) ++
          [callId H (builderName k) 0 ((structNames k keys items.length).zip (items.map (argHid H ty)))]
      | none => []
  | _, _ => []

end Verif
