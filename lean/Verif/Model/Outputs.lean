import Verif.Model.Value
/-!
Naming and ordering of outputs: `parse_returns` (utils.py:218-275), `dump_output_name` (utils.py:92-96),
`Op.get_ordered_outputs` (model.py:227-237).
-/
namespace Verif

/-- `nout`: `"auto"`, `"var"` or a number. -/
inductive Nout
  | auto
  | var
  | exactly (n : Nat)
  deriving DecidableEq, Repr

/-- Return annotation: none, `Tuple[T, ...]`, `Tuple[T1, ..., Tn]`, `Tuple` of `typing` by itself, anything else. -/
inductive RetAnn
  | none
  | tupleVar (t : Ty)
  | tuple (ts : List Ty)
  | bareTuple
  | single (t : Ty)
  deriving DecidableEq, Repr

/-- `mapM` in `Except`, left to right, stops at the first exception. -/
def mapE {α β : Type} (f : α → Except Err β) : List α → Except Err (List β)
  | [] => .ok []
  | a :: as =>
    match f a with
    | .error e => .error e
    | .ok b =>
      match mapE f as with
      | .error e => .error e
      | .ok bs => .ok (b :: bs)

/-- utils.py:92-96 -/
def dumpOutputName (names : Option (List String)) (i : Nat) : String :=
  match names with
  | none => outputName i
  | some ns => (ns[i]?).getD (outputName i)

/-- utils.py:230-245: the returned value as a tuple of outputs. -/
def returnsTuple (nout : Nout) (ret : Val) : Except Err (List Val) :=
  match nout, ret with
  | .auto, .tuple xs => .ok xs
  | .auto, v => .ok [v]
  | .var, .tuple xs => .ok xs
  | .var, _ => .error .assertionError
  | .exactly n, .tuple xs => if xs.length = n then .ok xs else .error .assertionError
  | .exactly _, _ => .error .assertionError

/-- utils.py:246-249: `{dump_output_name(i, names): returns[i] for i in range(nout)}` -/
def namedOutputs (names : Option (List String)) : Nat → List Val → Dict String Val → Dict String Val
  | _, [], d => d
  | i, v :: vs, d => namedOutputs names (i + 1) vs (Dict.set d (dumpOutputName names i) v)

/-- utils.py:264-267: `{k: args[i] for i, k in enumerate(keys)}`; too few annotations: `IndexError`. -/
def annOfTuple : List String → List Ty → Except Err (List Ty)
  | [], _ => .ok []
  | _ :: _, [] => .error .indexError
  | _ :: ks, t :: ts =>
    match annOfTuple ks ts with
    | .ok r => .ok (t :: r)
    | .error e => .error e

/-- utils.py:251-274: the annotation of every output. `Tuple` of `typing` has an `__origin__` but no `__args__`. -/
def outputTys (ann : RetAnn) (nout : Nat) (keys : List String) : Except Err (List Ty) :=
  match ann with
  | .none => .ok (keys.map fun _ => .atom)
  | .tupleVar t => .ok (keys.map fun _ => t)
  | .tuple ts => annOfTuple keys ts
  | .bareTuple => .error .attributeError
  | .single t => if nout = 1 then .ok (keys.map fun _ => t) else .error .assertionError

/-- `parse_returns` (utils.py:218-275): name, value and type of each output. -/
def parseReturns (nout : Nout) (names : Option (List String)) (ann : RetAnn) (ret : Val) :
    Except Err (List (String × Val × Ty)) :=
  match returnsTuple nout ret with
  | .error e => .error e
  | .ok vs =>
    let d := namedOutputs names 0 vs []
    match outputTys ann vs.length d.keys with
    | .error e => .error e
    | .ok tys => .ok ((d.zip tys).map fun p => (p.1.1, p.1.2, p.2))

/-- model.py:231-233: `{parse_output_name(name): value}` -/
def byInt {α : Type} : Dict String α → Dict Nat α → Except Err (Dict Nat α)
  | [], acc => .ok acc
  | (k, v) :: d, acc =>
    match parseOutputName k with
    | none => .error .valueError
    | some i => byInt d (Dict.set acc i v)

/-- `get_ordered_outputs` (model.py:227-237) -/
def orderedOutputs {α : Type} (names : Option (List String)) (d : Dict String α) : Except Err (List α) :=
  match names with
  | none =>
    match byInt d [] with
    | .error e => .error e
    | .ok m => mapE (fun i => match Dict.get? m i with
        | some v => .ok v
        | none => .error .keyError) (List.range d.length)
  | some ns => mapE (fun k => match Dict.get? d k with
        | some v => .ok v
        | none => .error .keyError) ns

end Verif
