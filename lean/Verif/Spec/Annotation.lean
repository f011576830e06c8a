import Verif.Model.Annotation
import Verif.Spec.Total
/-!
What annotations mean: which values they allow, and which parts of the values get refs of their own.
-/
namespace Verif

/-- The values that can be taken apart as the type says. -/
def Ty.Takes : Ty → Val → Prop
  | .coll .list t, v => ∃ xs, v = .list xs ∧ ∀ x ∈ xs, t.Takes x
  | .coll .dict t, v => ∃ ks xs, v = .dict ks xs ∧ KeysOK .dict ks xs.length ∧ ∀ x ∈ xs, t.Takes x
  | _, _ => True

mutual
/-- The value is one that python's typing allows; `isA` says so for classes and other annotations that are not looked into. The keys of
dictionaries are strings. -/
def Fits (isA : String → Val → Prop) : Ann → Val → Prop
  | .absent, _ => True
  | .any, _ => True
  | .none_, v => v = .none
  | .bareTuple, v => ∃ xs, v = .tuple xs
  | .tuple as, v => ∃ xs, v = .tuple xs ∧ FitsAll isA as xs
  | .tupleVar a, v => ∃ xs, v = .tuple xs ∧ ∀ x ∈ xs, Fits isA a x
  | .mlist a, v => ∃ xs, v = .list xs ∧ ∀ x ∈ xs, Fits isA a x
  | .mdict _ a, v => ∃ ks xs, v = .dict ks xs ∧ KeysOK .dict ks xs.length ∧ ∀ x ∈ xs, Fits isA a x
  | .mset _, v => isA "MSet" v
  | .mtuple as, v => ∃ xs, v = .tuple xs ∧ FitsAll isA as xs
  | .type_ t, v => t.Takes v
  | .other n, v => isA n v
/-- pointwise, as many -/
def FitsAll (isA : String → Val → Prop) : List Ann → List Val → Prop
  | [], [] => True
  | a :: as, v :: vs => Fits isA a v ∧ FitsAll isA as vs
  | _, _ => False
end

/-- no sets and tuples -/
def Ty.Plain : Ty → Prop
  | .coll _ t => t.Plain
  | .unsupported => False
  | .atom => True

/-- No `MSet` and no `MTuple`, by itself or in an `MList` or `MDict`. -/
def Ann.Supported : Ann → Prop
  | .mlist a => a.Supported
  | .mdict _ a => a.Supported
  | .mset _ => False
  | .mtuple _ => False
  | .type_ t => t.Plain
  | _ => True

/-- Values are taken apart along the type. -/
def Ty.form : Ty → Val → TVal
  | .coll .list t, .list xs => .coll .list [] (xs.map t.form)
  | .coll .dict t, .dict ks xs => .coll .dict ks (xs.map t.form)
  | _, v => .atom v

/-- How a value is stored: the elements of what is annotated as `MList` or `MDict` have refs of their own, anything else has one. -/
def Ann.form : Ann → Val → TVal
  | .mlist a, .list xs => .coll .list [] (xs.map a.form)
  | .mdict _ a, .dict ks xs => .coll .dict ks (xs.map a.form)
  | .type_ t, v => t.form v
  | _, v => .atom v

/-- pointwise -/
def Ann.forms : List Ann → List Val → List TVal
  | a :: as, v :: vs => a.form v :: Ann.forms as vs
  | _, _ => []

/-- How what a function returns is stored: a tuple is several outputs. -/
def Ann.outForms : Ann → Val → List TVal
  | .absent, v => (plainResults v).map .atom
  | .tuple as, .tuple xs => Ann.forms as xs
  | .tupleVar a, .tuple xs => xs.map a.form
  | a, v => [a.form v]

/-- The annotation can be used for a function returning this: several outputs only if it is left out or is a `Tuple[...]` with the types of the parts. -/
def Ann.Usable : Ann → Val → Prop
  | .absent, _ => True
  | .bareTuple, _ => False
  | .tuple as, _ => ∀ a ∈ as, a.Supported
  | .tupleVar a, _ => a.Supported
  | a, v => a.Supported ∧ ∀ xs, v ≠ .tuple xs

/-- `nout` is `"auto"`, or the function returns a tuple, of the given length if one is given. -/
def NoutOK : Nout → Val → Prop
  | .auto, _ => True
  | .var, v => ∃ xs, v = .tuple xs
  | .exactly n, v => ∃ xs, v = .tuple xs ∧ xs.length = n

/-- an `MList` or `MDict` -/
def Ann.IsColl : Ann → Prop
  | .mlist _ => True
  | .mdict _ _ => True
  | .type_ (.coll _ _) => True
  | _ => False

/-- No `MList` of `MList`s or `MDict`s. -/
def Ann.Flat : Ann → Prop
  | .mlist a => ¬ a.IsColl
  | .mdict _ a => a.Flat
  | .type_ t => FlatTy t
  | _ => True

/-- nor in the outputs -/
def Ann.FlatOuts : Ann → Prop
  | .tuple as => ∀ a ∈ as, a.Flat
  | .tupleVar a => a.Flat
  | a => a.Flat

/-- A function with annotations that holds to them, made an op; its results `lim` deep at most, and clean in the sense of `TVal.Wf`. -/
structure AnnotatedOp (W : World) (isA : String → Val → Prop) (a : Ann) (d : OpDef) : Prop where
  known : W.D d
  ann : d.ann = a.ret
  fits : ∀ ins ret, d.body ins = .ok ret → Fits isA a ret
  usable : ∀ ins ret, d.body ins = .ok ret → a.Usable ret
  nout : ∀ ins ret, d.body ins = .ok ret → NoutOK d.nout ret
  names : ∀ ins ret, d.body ins = .ok ret → NamesOK d.outNames (plainResults ret).length
  clean : ∀ ins ret, d.body ins = .ok ret → ∀ t ∈ a.outForms ret, t.Wf W

/-- An argument: name, annotation of the parameter, value. -/
structure AnnArg where
  name : String
  ann : Ann
  val : Val

/-- It is what is passed to the storage (storage.py:704-771, 1185-1187). -/
def AnnArg.bound (x : AnnArg) : PArg := { name := x.name, ty := fromAnn x.ann, ignored := false, expr := .raw x.val }

/-- The argument holds to the annotation. -/
structure AnnArg.OK (W : World) (isA : String → Val → Prop) (x : AnnArg) : Prop where
  fits : Fits isA x.ann x.val
  supported : x.ann.Supported
  flat : x.ann.Flat
  clean : (x.ann.form x.val).Wf W

end Verif
