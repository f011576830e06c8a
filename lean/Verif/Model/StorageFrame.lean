import Verif.Model.Provenance
import Verif.Model.CFrameExpand
/-!
Frames on a storage: `Storage.cf` (/repo/mandala/storage.py lines 1138-1160), `ComputationFrame.from_op` with its query
(cf.py lines 2084-2116), and expansion with the calls the storage returns (cf.py lines 1073-1132).

Simplifications.
* A dictionary given to `cf` has strings as keys, and refs or lists of refs as values.
* The columns `semantic_version` and `content_version` are never equal to the name of an op.
-/
namespace Verif

/-- The call as a frame sees it. -/
def CallObj.toF (c : CallObj) : FCall :=
  { hid := c.hid, op := c.op, inputs := c.inputs.map fun p => (p.1, ⟨p.2.hid, p.2.cid⟩),
    outputs := c.outputs.map fun p => (p.1, ⟨p.2.hid, p.2.cid⟩) }

/-- The names that sqlite knows in the table of calls: the columns (storage_utils.py lines 515-517) and the row number. -/
def sqlNames : List String :=
  ["call_history_id", "name", "direction", "call_content_id", "ref_content_id", "ref_history_id", "op", "semantic_version", "content_version",
    "rowid", "oid", "_rowid_"]

/-- The value of `"x"` in a row. For sqlite, a name in double quotes is a column if there is one (whatever the case of the
letters), and a string otherwise. -/
def sqlQuoted (x : String) (r : Row) : Option String :=
  if x.toLower ∈ sqlNames then
    match x.toLower with
    | "call_history_id" => some r.callHid
    | "name" => some r.name
    | "direction" => some (match r.dir with | .in_ => "in" | .out => "out")
    | "call_content_id" => some r.callCid
    | "ref_content_id" => some r.refCid
    | "ref_history_id" => some r.refHid
    | "op" => some r.op
    | _ => none
  else some x

/-- cf.py lines 2085-2087: `SELECT call_history_id FROM calls WHERE op="{f.name}"`, without repetitions -/
def opCallHids (rows : List Row) (op : String) : List String :=
  PySet.ofList ((rows.filter fun r => sqlQuoted op r = some r.op).map (·.callHid))

/-- cf.py lines 2084-2116 `from_op` -/
def cfFromOp (cfg : Cfg) (op : String) : M CFrame := do
  let hids ← M.read fun s => opCallHids s.calls.pers op
  let cs ← mgetCall cfg hids
  M.lift (CFrame.fromOp op (cs.map CallObj.toF))

/-- An element of what is given to `cf`: a ref, a string, something else. -/
inductive CfElt
  | ref (r : FRef)
  | str (h : String)
  | other
  deriving DecidableEq, Repr

def CfElt.ref? : CfElt → Option FRef
  | .ref r => some r
  | _ => none

def CfElt.str? : CfElt → Option String
  | .str h => some h
  | _ => none

/-- What is given to `cf`. A collection can be iterated again and again, an iterator (a generator, `map`, `zip`, ...) once. In a
dictionary, a value is a single ref (`.inl`) or several. -/
inductive CfSource
  | op (name : String)
  | ref (r : FRef)
  | coll (es : List CfElt)
  | iter (es : List CfElt)
  | dict (vars : Dict String (FRef ⊕ List FRef))

/-- storage.py lines 1157-1158 -/
def cfFromHids (cfg : Cfg) (hids : List String) : M CFrame := do
  let rs ← M.mapM' (fun h => loadRef cfg.fuel h true) hids
  M.lift (CFrame.fromRefs (rs.map fun r => ⟨r.hid, r.cid⟩))

/-- storage.py lines 1147-1148 and 1155-1160 on something that can be iterated: `first` are the elements the first test sees,
`second` those which the second test sees, `third` those of the loops (lines 2122 and 1157). -/
def cfFromElts (cfg : Cfg) (first second third : List CfElt) : M CFrame :=
  if first.all fun e => e.ref?.isSome then M.lift (CFrame.fromRefs (third.filterMap CfElt.ref?))
  else if second.all fun e => e.str?.isSome then cfFromHids cfg (third.filterMap CfElt.str?)
  else M.raise .valueError

/-- storage.py lines 1138-1160 `cf`. An iterator is used up by the test of line 1147 up to the first element that is not a ref,
and by the test of line 1155 from there on. The empty dictionary passes the test of line 1147. -/
def cf (cfg : Cfg) : CfSource → M CFrame
  | .op n => cfFromOp cfg n
  | .ref r => M.lift (CFrame.fromRefs [r])
  | .coll es => cfFromElts cfg es es es
  | .iter es => cfFromElts cfg es ((es.dropWhile fun e => e.ref?.isSome).drop 1) []
  | .dict [] => M.lift (CFrame.fromRefs [])
  | .dict vars => M.lift (CFrame.fromVars (vars.map fun p => (p.1, match p.2 with | .inl r => [r] | .inr rs => rs)))

/-- What the dictionary given to `cf` is afterwards (storage.py lines 1150-1152). -/
def cfArgAfter : CfSource → CfSource
  | .dict vars => .dict (vars.map fun p => (p.1, match p.2 with | .inl r => .inr [r] | .inr rs => .inr rs))
  | x => x

namespace CFrame

/-- cf.py lines 1111-1131 `_expand_unidirectional` with given variables, on a storage; `ord` and `inCtx` as in `getCreatorCalls` -/
def expandOnceAt (cfg : Cfg) (ord : List String → List String) (inCtx : Bool) (dir : Side) (reuse skip : Bool) (varnames : List String) (f : CFrame) : M CFrame := do
  let ends ← M.lift (f.endElts dir.flip)
  let elts := ends.filter fun p => p.1 ∈ varnames
  if elts = [] then M.raise .typeError
  else do
    let cs ← (match dir with
      | .back => getCreatorCalls cfg ord inCtx (valsUnion elts)
      | .forward => getConsumerCalls cfg ord inCtx (valsUnion elts))
    let calls := cs.map CallObj.toF
    let calls := if skip then calls.filter fun c => !f.calls.has c.hid else calls
    let groups ← M.lift (f.groupCalls calls varnames dir)
    M.lift ((sortGroups groups).foldlM (expandGroup dir reuse) f)

/-- cf.py lines 1084-1102 `_expand_unidirectional` without given variables, on a storage. The first number is the round, the
second the number of rounds left; python's order of sets may differ from round to round. -/
def expandAt (cfg : Cfg) (ord : Nat → List String → List String) (inCtx : Bool) (dir : Side) (reuse skip recursive : Bool) : Nat → Nat → CFrame → M CFrame
  | _, 0, _ => M.raise .recursionError
  | i, k + 1, f => do
    let g ← f.expandOnceAt cfg (ord i) inCtx dir reuse skip f.vs.keys
    if setLen g.nodes = setLen f.nodes ∨ recursive = false then M.pure g else expandAt cfg ord inCtx dir reuse skip recursive (i + 1) k g

end CFrame
end Verif
