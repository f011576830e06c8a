import Verif.Model.Value
/-!
From the caller's expression to the inputs of the storage and to the arguments of the function body: `Storage.parse_args`,
the argument handling of `Storage.call_internal` and of the noop mode (mandala/storage.py), `boundargs_to_args_kwargs`
(mandala/utils.py), `_Ignore`/`_NewArgDefault` (mandala/model.py).

Python's own rules for binding arguments to parameters (`inspect.Signature.bind`, `BoundArguments`, calling a function) are
modelled by `bind`, `boundArgs` and `boundKwargs`; they belong to the environment, not to the project. `A` is the type of
ordinary python objects and refs.
-/
namespace Verif
namespace Args

/-- Objects that can be passed: ordinary ones (among them refs and value pointers), `_Ignore(v)` and `_NewArgDefault(v)`
(model.py:69-88), and the tuple and the dictionary python makes for `*args` and `**kwargs`. -/
inductive PV (A : Type)
  | val (a : A)
  | ignore (v : PV A)
  | newArg (v : PV A)
  | tup (vs : List (PV A))
  | dct (d : List (String × PV A))

/-- A parameter with its annotation and its default value, if any. -/
structure Param (A : Type) where
  name : String
  ty : Ty := .atom
  default : Option (PV A) := none

/-- `inspect.Signature`: positional-only parameters, ordinary parameters, `*args`, keyword-only parameters, `**kwargs`, in
the only order python allows. -/
structure Sig (A : Type) where
  posOnly : List (Param A) := []
  posOrKw : List (Param A) := []
  varPos : Option (String × Ty) := none
  kwOnly : List (Param A) := []
  varKw : Option (String × Ty) := none

variable {A : Type}

/-! ### Python: binding arguments to parameters -/

/-- positional-only parameters take the first positional arguments -/
def bindPosOnly : List (Param A) → List (PV A) → Except Err (Dict String (PV A) × List (PV A))
  | [], pos => .ok ([], pos)
  | p :: ps, v :: pos =>
    match bindPosOnly ps pos with | .error e => .error e | .ok (d, r) => .ok ((p.name, v) :: d, r)
  | p :: ps, [] =>
    match p.default with
    | none => .error .typeError
    | some v => match bindPosOnly ps [] with | .error e => .error e | .ok (d, r) => .ok ((p.name, v) :: d, r)

/-- ordinary parameters take the next positional arguments, then keyword arguments, then their defaults -/
def bindPosOrKw : List (Param A) → List (PV A) → Dict String (PV A) →
    Except Err (Dict String (PV A) × List (PV A) × Dict String (PV A))
  | [], pos, kw => .ok ([], pos, kw)
  | p :: ps, v :: pos, kw =>
    if kw.has p.name then .error .typeError
    else match bindPosOrKw ps pos kw with | .error e => .error e | .ok (d, r) => .ok ((p.name, v) :: d, r)
  | p :: ps, [], kw =>
    match kw.get? p.name with
    | some v => match bindPosOrKw ps [] (kw.erase p.name) with | .error e => .error e | .ok (d, r) => .ok ((p.name, v) :: d, r)
    | none =>
      match p.default with
      | none => .error .typeError
      | some v => match bindPosOrKw ps [] kw with | .error e => .error e | .ok (d, r) => .ok ((p.name, v) :: d, r)

/-- keyword-only parameters -/
def bindKwOnly : List (Param A) → Dict String (PV A) → Except Err (Dict String (PV A) × Dict String (PV A))
  | [], kw => .ok ([], kw)
  | p :: ps, kw =>
    match kw.get? p.name with
    | some v => match bindKwOnly ps (kw.erase p.name) with | .error e => .error e | .ok (d, r) => .ok ((p.name, v) :: d, r)
    | none =>
      match p.default with
      | none => .error .typeError
      | some v => match bindKwOnly ps kw with | .error e => .error e | .ok (d, r) => .ok ((p.name, v) :: d, r)

/-- `f(*pos, **kw)`: what the parameters of `f` are bound to, in the order of the signature; the same as `sig.bind` followed by
`apply_defaults` (storage.py:719-721). -/
def bind (sig : Sig A) (pos : List (PV A)) (kw : Dict String (PV A)) : Except Err (Dict String (PV A)) :=
  match bindPosOnly sig.posOnly pos with
  | .error e => .error e
  | .ok (d1, pos1) =>
    match bindPosOrKw sig.posOrKw pos1 kw with
    | .error e => .error e
    | .ok (d2, pos2, kw2) =>
      if sig.varPos.isNone && !pos2.isEmpty then .error .typeError
      else
        match bindKwOnly sig.kwOnly kw2 with
        | .error e => .error e
        | .ok (d4, kw4) =>
          if sig.varKw.isNone && !kw4.isEmpty then .error .typeError
          else .ok (d1 ++ d2 ++ (sig.varPos.toList.map fun q => (q.1, PV.tup pos2)) ++ d4 ++
            (sig.varKw.toList.map fun q => (q.1, PV.dct kw4)))

/-- The kind of a parameter. -/
inductive PKind
  | pos
  | varPos
  | kwOnly
  | varKw
  deriving DecidableEq

/-- `sig.parameters`: names and kinds in order -/
def Sig.params (sig : Sig A) : List (String × PKind) :=
  (sig.posOnly.map fun p => (p.name, PKind.pos)) ++ (sig.posOrKw.map fun p => (p.name, .pos)) ++
    (sig.varPos.toList.map fun q => (q.1, .varPos)) ++ (sig.kwOnly.map fun p => (p.name, .kwOnly)) ++
    (sig.varKw.toList.map fun q => (q.1, .varKw))

/-- The parameters that are neither `*args` nor `**kwargs`. -/
def Sig.plain (sig : Sig A) : List (Param A) := sig.posOnly ++ sig.posOrKw ++ sig.kwOnly

/-- the elements of a tuple -/
def PV.elems : PV A → List (PV A)
  | .tup vs => vs
  | _ => []

/-- the entries of a dictionary -/
def PV.entries : PV A → Dict String (PV A)
  | .dct d => d
  | _ => []

/-- `BoundArguments.args` (python): positional arguments up to the first parameter that has no entry -/
def boundArgs (d : Dict String (PV A)) : List (String × PKind) → List (PV A)
  | [] => []
  | (n, k) :: ps =>
    match k with
    | .varKw => []
    | .kwOnly => []
    | .pos => match d.get? n with | none => [] | some v => v :: boundArgs d ps
    | .varPos => match d.get? n with | none => [] | some v => v.elems ++ boundArgs d ps

/-- `BoundArguments.kwargs` (python): from the first keyword-only parameter or the first parameter without an entry on, the
remaining ones by name. Note that `*args` is then passed under its own name. -/
def boundKwargs (d : Dict String (PV A)) : Bool → List (String × PKind) → Dict String (PV A) → Dict String (PV A)
  | _, [], acc => acc
  | false, (n, k) :: ps, acc =>
    match k with
    | .varKw => boundKwargs d true ps (match d.get? n with | none => acc | some v => acc.update v.entries)
    | .kwOnly => boundKwargs d true ps (match d.get? n with | none => acc | some v => acc.set n v)
    | _ => if d.has n then boundKwargs d false ps acc else boundKwargs d true ps acc
  | true, (n, k) :: ps, acc =>
    match d.get? n with
    | none => boundKwargs d true ps acc
    | some v => boundKwargs d true ps (if k = .varKw then acc.update v.entries else acc.set n v)

/-! ### `parse_args`, storage.py:704-771 -/

/-- `isinstance(v, _Ignore)` -/
def PV.isIgnore : PV A → Bool
  | .ignore _ => true
  | .newArg _ => true
  | _ => false

/-- `v.value if isinstance(v, _Ignore) else v` (storage.py:730, 744; `unwrap_special_value`, model.py:131-137) -/
def PV.strip : PV A → PV A
  | .ignore v => v
  | .newArg v => v
  | v => v

/-- `default_values[k].value` if the default of parameter `k` is a `_NewArgDefault` (storage.py:718, 752) -/
def newDefault (sig : Sig A) (k : String) : Option (PV A) :=
  match sig.plain.find? (fun p => p.name = k) with
  | some p => match p.default with | some (.newArg d) => some d | _ => none
  | none => none

/-- the annotation of an ordinary parameter -/
def Sig.tyOf (sig : Sig A) (k : String) : Ty :=
  match sig.plain.find? (fun p => p.name = k) with | some p => p.ty | none => .atom

/-- Inputs of the storage: name to value and type (`storage_inputs`, `storage_annotations`). -/
abbrev Inputs (A : Type) := Dict String (PV A × Ty)

/-- storage.py:727-739: elements of `*args` are called `args_0`, `args_1`, ...; ignored ones are left out -/
def addVarPos (k : String) (ty : Ty) (vs : List (PV A)) (inp : Inputs A) : Inputs A :=
  vs.zipIdx.foldl (fun inp p => if p.1.isIgnore then inp else inp.set (idxName k p.2) (p.1.strip, ty)) inp

/-- storage.py:740-748: entries of `**kwargs` keep their names -/
def addVarKw (ty : Ty) (d : Dict String (PV A)) (inp : Inputs A) : Inputs A :=
  d.foldl (fun inp p => if p.2.isIgnore then inp else inp.set p.1 (p.2.strip, ty)) inp

/-- The loop of `parse_args` (storage.py:726-770) for one entry of `bound_arguments.arguments`: its new value, and the new
`storage_inputs`. `eqd d v` is the comparison with the default of storage.py:754-763 (`_conservative_equality_check` on `v`, or
on the unwrapped value when `v` is a ref). -/
def parseOne (sig : Sig A) (ignoreArgs : List String) (eqd : PV A → PV A → Bool) (k : String) (v : PV A) (inp : Inputs A) :
    PV A × Inputs A :=
  if sig.varPos.map (·.1) = some k then
    (.tup (v.elems.map PV.strip), addVarPos k ((sig.varPos.map (·.2)).getD .atom) v.elems inp)
  else if sig.varKw.map (·.1) = some k then
    (.dct (v.entries.mapVals PV.strip), addVarKw ((sig.varKw.map (·.2)).getD .atom) v.entries inp)
  else
    let v := if k ∈ ignoreArgs then .ignore v else v
    if v.isIgnore then (v.strip, inp)
    else match newDefault sig k with
      | some d => if eqd d v then (d, inp) else (v, inp.set k (v, sig.tyOf k))
      | none => (v, inp.set k (v, sig.tyOf k))

/-- The whole loop. -/
def parseLoop (sig : Sig A) (ignoreArgs : List String) (eqd : PV A → PV A → Bool) :
    Dict String (PV A) → Inputs A → Dict String (PV A) × Inputs A
  | [], inp => ([], inp)
  | (k, v) :: d, inp =>
    let r := parseOne sig ignoreArgs eqd k v inp
    let r' := parseLoop sig ignoreArgs eqd d r.2
    ((k, r.1) :: r'.1, r'.2)

/-- `parse_args` with `apply_defaults=True`, storage.py:704-771: the bound arguments to pass to the function and the inputs
for the storage -/
def parseArgs (sig : Sig A) (ignoreArgs : List String) (eqd : PV A → PV A → Bool) (pos : List (PV A)) (kw : Dict String (PV A)) :
    Except Err (Dict String (PV A) × Inputs A) :=
  match bind sig pos kw with
  | .error e => .error e
  | .ok b => .ok (parseLoop sig ignoreArgs eqd b [])

/-! ### Passing the arguments to the function -/

/-- storage.py:848-861: move what was passed by keyword out of the bound arguments. `kwarg_keys` is a set, so `keys` may be in
any order. -/
def moveKeys (sig : Sig A) : List String → Dict String (PV A) → Dict String (PV A) →
    Except Err (Dict String (PV A) × Dict String (PV A))
  | [], b, kwargs => .ok (b, kwargs)
  | k :: ks, b, kwargs =>
    match b.get? k with
    | some v => moveKeys sig ks (b.erase k) (kwargs.set k v)
    | none =>
      match sig.varKw with
      | none => .error .assertionError
      | some (n, _) =>
        match b.get? n with
        | none => .error .keyError
        | some d =>
          match d.entries.get? k with
          | none => .error .keyError
          | some v => moveKeys sig ks (b.set n (.dct (d.entries.erase k))) (kwargs.set k v)

/-- storage.py:846-864: the arguments for `f(*args, **kwargs)` in `call_internal`, before `unwrap` replaces refs by their
values (865-869) -/
def runArgs (sig : Sig A) (keys : List String) (b : Dict String (PV A)) : Except Err (List (PV A) × Dict String (PV A)) :=
  match moveKeys sig keys b [] with
  | .error e => .error e
  | .ok (b', kwargs) => .ok (boundArgs b' sig.params, kwargs.update (boundKwargs b' false sig.params []))

/-- `boundargs_to_args_kwargs`, utils.py:176-215 -/
def splitBound (b : Dict String (PV A)) : List (String × PKind) → List (PV A) → Dict String (PV A) →
    Except Err (List (PV A) × Dict String (PV A))
  | [], args, kwargs => .ok (args, kwargs)
  | (n, k) :: ps, args, kwargs =>
    match b.get? n with
    | none => .error .keyError
    | some v =>
      match k with
      | .pos => splitBound b ps (args ++ [v]) kwargs
      | .varPos => splitBound b ps (args ++ v.elems) kwargs
      | .kwOnly => splitBound b ps args (kwargs.set n v)
      | .varKw => splitBound b ps args (kwargs.update v.entries)

/-- storage.py:1176-1179: the arguments for `op.f(*args, **kwargs)` in noop mode, before `unwrap` -/
def noopArgs (sig : Sig A) (b : Dict String (PV A)) : Except Err (List (PV A) × Dict String (PV A)) :=
  match splitBound b sig.params [] [] with
  | .error e => .error e
  | .ok (args, kwargs) => .ok (args.map PV.strip, kwargs.mapVals PV.strip)

/-- What the parameters of the function body are bound to in run mode when the body is executed. -/
def runBody (sig : Sig A) (ignoreArgs : List String) (eqd : PV A → PV A → Bool) (keys : List String)
    (pos : List (PV A)) (kw : Dict String (PV A)) : Except Err (Dict String (PV A)) :=
  match parseArgs sig ignoreArgs eqd pos kw with
  | .error e => .error e
  | .ok (b, _) =>
    match runArgs sig keys b with
    | .error e => .error e
    | .ok (args, kwargs) => bind sig args kwargs

/-- The same in noop mode (storage.py:1175-1183). -/
def noopBody (sig : Sig A) (ignoreArgs : List String) (eqd : PV A → PV A → Bool)
    (pos : List (PV A)) (kw : Dict String (PV A)) : Except Err (Dict String (PV A)) :=
  match parseArgs sig ignoreArgs eqd pos kw with
  | .error e => .error e
  | .ok (b, _) =>
    match noopArgs sig b with
    | .error e => .error e
    | .ok (args, kwargs) => bind sig args kwargs

/-- Outside any context the function is called with the arguments as they are (`Op.__call__`, model.py:244-246). -/
def plainBody (sig : Sig A) (pos : List (PV A)) (kw : Dict String (PV A)) : Except Err (Dict String (PV A)) :=
  bind sig pos kw

end Args
end Verif
