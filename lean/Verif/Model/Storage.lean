import Verif.Model.DictStorage
import Verif.Model.CallStorage
import Verif.Model.Outputs
/-!
Model of the memoizing core of `mandala/storage.py`: refs, calls, `call_internal`, commit, caches, drops.

Simplifications:
* Unversioned storage (`deps_path=None`), so `must_version_call` is false everywhere; the versioned path is
  modelled in `Verif.Model.Versioner`.
* File-backed database: a failing commit rolls back the tables (`with self.conn() as conn`,
  storage.py:211); overflow files are not rolled back.
* A user function is a deterministic function from its named (unwrapped) arguments to a value or an
  exception; it does not call ops itself. Binding of arguments to parameters is in `Verif.Model.Args`.
* The log of executed function bodies is added as a ghost variable.
-/
namespace Verif

/-- The fixed surroundings: hash function, recursion limit, size of serialized values. -/
structure Cfg where
  H : Val → String
  fuel : Nat
  sizeA : Val → Nat
  sizeS : Ref → Nat
  sizeO : String → Nat

/-- A user-defined op (model.py:143-175): name, version, `nout`, `output_names`, return annotation, and the
function. -/
structure OpDef where
  name : String
  version : Int
  nout : Nout
  outNames : Option (List String)
  ann : RetAnn
  body : List (String × Val) → Except Err Val

/-- `Call` (model.py:252-271) -/
structure CallObj where
  op : String
  cid : String
  hid : String
  inputs : Dict String Ref
  outputs : Dict String Ref
  deriving Inhabited

/-- A bound argument: name, type from the annotation, whether it is ignored by the storage, and what
was passed (the result of `parse_args`, storage.py:704-771). -/
structure BArg where
  name : String
  ty : Ty
  ignored : Bool
  arg : Arg

/-- `Storage` (storage.py:26-130). `stale`: `self.call_cache` is the cache object that `self.calls` had when
the storage was created (line 46); `none` as long as it still is the same object, `some m` once
`clear_cache` has replaced `self.calls.cache`. -/
structure St where
  atoms : CachedDict Val
  shapes : CachedDict Ref
  ops : CachedDict String
  calls : CachedCalls
  stale : Option InMem
  allowNew : Bool
  /-- ghost: bodies executed so far, latest first -/
  log : List (String × List (String × Val))

/-- Statements on the storage: exception or result, and the storage afterwards. -/
def M (α : Type) : Type := St → Res St α

namespace M

def pure {α : Type} (a : α) : M α := fun s => (.ok a, s)

def bind {α β : Type} (m : M α) (f : α → M β) : M β := fun s =>
  match m s with
  | (.ok a, s') => f a s'
  | (.error e, s') => (.error e, s')

instance : Monad M where
  pure := M.pure
  bind := M.bind

/-- `raise` -/
def raise {α : Type} (e : Err) : M α := fun s => (.error e, s)

/-- a computation that does not touch the storage -/
def lift {α : Type} (x : Except Err α) : M α := fun s => (x, s)

/-- reading the storage -/
def read {α : Type} (f : St → α) : M α := fun s => (.ok (f s), s)

/-- a python loop collecting results -/
def mapM' {α β : Type} (f : α → M β) : List α → M (List β)
  | [] => M.pure []
  | a :: as => do
    let b ← f a
    let bs ← mapM' f as
    M.pure (b :: bs)

/-- a python loop -/
def forM' {α : Type} (f : α → M Unit) : List α → M Unit
  | [] => M.pure ()
  | a :: as => do
    f a
    forM' f as

end M

/-! ### the tables -/

/-- `self.shapes[hid]` -/
def shapesGet (h : String) : M Ref := fun s => ((s.shapes.get h).1, { s with shapes := (s.shapes.get h).2 })
/-- `self.shapes[hid] = r` -/
def shapesSet (h : String) (r : Ref) : M Unit := fun s => (.ok (), { s with shapes := s.shapes.set h r })
/-- `self.atoms[cid]` -/
def atomsGet (c : String) : M Val := fun s => ((s.atoms.get c).1, { s with atoms := (s.atoms.get c).2 })
/-- `self.atoms[cid] = v` -/
def atomsSet (c : String) (v : Val) : M Unit := fun s => (.ok (), { s with atoms := s.atoms.set c v })
/-- `self.ops[name]` -/
def opsGet (n : String) : M String := fun s => ((s.ops.get n).1, { s with ops := (s.ops.get n).2 })
/-- `self.ops[name] = op.detached()` -/
def opsSet (n : String) : M Unit := fun s => (.ok (), { s with ops := s.ops.set n n })

section
variable (cfg : Cfg)

/-! ### refs -/

/-- `ListRef.shape`/`DictRef.shape` (model.py:328-335, 364-371) -/
def shapeOf (k : Kind) (c h : String) (keys : List String) (elts : List Ref) : Ref :=
  .coll k c h true keys (elts.map Ref.detached)

/-- The exception for going through a collection whose `obj` is `None`: iterating `None`
(`TypeError`) or `None.items()` (`AttributeError`). -/
def noneErr : Kind → Err
  | .list => .typeError
  | .dict => .attributeError

/-- The exception for iterating over a `ListRef` that is not in memory (`assert self.in_memory`,
model.py:322), or calling `items` on a `DictRef` that is not. -/
def iterErr : Kind → Err
  | .list => .assertionError
  | .dict => .attributeError

mutual
/-- `save_ref` (storage.py:245-267) -/
def saveRef : Ref → M Unit
  | .atom c h o => do
    if ← M.read (fun s => s.shapes.exists_ h) then M.pure ()
    else
      (match o with
        | some v => atomsSet c v
        | none => M.pure ())
      shapesSet h (.atom c h none)
  | .coll k c h inMem keys elts => do
    if ← M.read (fun s => s.shapes.exists_ h) then M.pure ()
    else if inMem then
      shapesSet h (shapeOf k c h keys elts)
      saveRefs elts
    else M.raise (noneErr k)
/-- the loops of `save_ref` -/
def saveRefs : List Ref → M Unit
  | [] => M.pure ()
  | r :: rs => do
    saveRef r
    saveRefs rs
end

/-- `load_ref` (storage.py:269-292). A recursion deeper than the limit raises `RecursionError`. For a list
the loaded elements are thrown away (line 286: `shape.attached(obj=shape.obj)`). -/
def loadRef : Nat → String → Bool → M Ref
  | 0, _, _ => M.raise .recursionError
  | n + 1, h, inMemory => do
    match ← shapesGet h with
    | .atom c h' o =>
      if inMemory then M.pure (.atom c h' o)
      else do
        let v ← atomsGet c
        M.pure (.atom c h' (some v))
    | .coll k c h' inMem keys elts =>
      if inMem then do
        let es ← M.mapM' (fun e => loadRef n (Ref.hid e) inMemory) elts
        match k with
        | .list => M.pure (.coll k c h' true keys elts)
        | .dict => M.pure (.coll k c h' true keys es)
      else M.raise (iterErr k)

mutual
/-- `unwrap` of a ref (storage.py:488-497, 514-523, model.py:391-405). Unwrapping an atom that is not in memory
writes it to the cache (line 494), marking it as uncommitted. If the record under the history id is not an
atom, the python code would return a list of refs; this case is marked `unmodelled` and proved
unreachable. -/
def unwrapRef : Ref → M Val
  | .atom _ _ (some v) => M.pure v
  | .atom c h none => do
    match ← loadRef cfg.fuel h false with
    | .atom _ _ (some v) => do
      atomsSet c v
      M.pure v
    | _ => M.raise .unmodelled
  | .coll k _ _ inMem keys elts =>
    if inMem then do
      let vs ← unwrapRefs elts
      match k with
      | .list => M.pure (.list vs)
      | .dict => M.pure (.dict keys vs)
    else M.raise (iterErr k)
/-- pointwise -/
def unwrapRefs : List Ref → M (List Val)
  | [] => M.pure []
  | r :: rs => do
    let v ← unwrapRef r
    let vs ← unwrapRefs rs
    M.pure (v :: vs)
end

mutual
/-- `unwrap` of an argument (storage.py:860-863, `recurse_on_ref_collections`, model.py:391-405); a pointer inside a collection stays a pointer. -/
def unwrapArg : Arg → M Val
  | .ref r => unwrapRef cfg r
  | .val v => M.pure v
  | .list xs => do
    let vs ← unwrapArgs xs
    M.pure (.list vs)
  | .dict keys xs => do
    let vs ← unwrapArgs xs
    M.pure (.dict keys vs)
  | .ptr id _ => M.pure (.ptr id)
/-- pointwise -/
def unwrapArgs : List Arg → M (List Val)
  | [] => M.pure []
  | a :: as => do
    let v ← unwrapArg a
    let vs ← unwrapArgs as
    M.pure (v :: vs)
end

/-- storage.py:864-866: a top-level pointer is replaced by its object. -/
def bodyArg : Arg → M Val
  | .ptr _ v => M.pure v
  | a => unwrapArg cfg a

/-! ### calls -/

/-- `_get_call_from_data` (storage.py:381-398), always with `in_memory=True` here. -/
def getCallFromData (d : CallData) : M CallObj := do
  let _ ← opsGet d.opName
  let ins ← M.mapM' (fun p => do
    let r ← loadRef cfg.fuel p.2 true
    M.pure (p.1, r)) d.inputHids
  let outs ← M.mapM' (fun p => do
    let r ← loadRef cfg.fuel p.2 true
    M.pure (p.1, r)) d.outputHids
  M.pure { op := d.opName, cid := d.cid, hid := d.hid, inputs := ins, outputs := outs }

/-- `{k: f(ref)}` -/
def idsOf (f : Ref → String) (inputs : List (String × Ref)) : List (String × String) :=
  inputs.map fun p => (p.1, f p.2)

/-- storage.py:687-690: output ids for the names in the recorded call -/
def reassignOutputs (outNames : Option (List String)) (callHid : String) (names : List String)
    (outputs : Dict String Ref) : Except Err (Dict String Ref) :=
  match orderedOutputs outNames (names.map fun k => (k, k)) with
  | .error e => .error e
  | .ok ordered =>
    mapE (fun p => if p.1 ∈ ordered then .ok (p.1, p.2.withHid (outHid cfg.H callHid p.1))
      else .error .keyError) outputs

/-- storage.py:691-692 -/
def reassignInputs (inputs : List (String × Ref)) (proto : Dict String Ref) : Except Err (Dict String Ref) :=
  mapE (fun p => match Dict.get? inputs p.1 with
    | some r => .ok (p.1, p.2.withHid r.hid)
    | none => .error .keyError) proto

/-- `lookup_call` (storage.py:639-695), unversioned -/
def lookupCall (op : String) (version : Int) (outNames : Option (List String)) (inputs : List (String × Ref)) :
    M (Option CallObj) := do
  let callHid := callId cfg.H op version (idsOf Ref.hid inputs)
  if ← M.read (fun s => s.calls.exists_ callHid) then
    let d ← (fun s => (s.calls.getData callHid, s) : M CallData)
    let c ← getCallFromData cfg d
    M.pure (some c)
  else
    let callCid := callId cfg.H op version (idsOf Ref.cid inputs)
    if ← M.read (fun s => s.calls.existsContent callCid) then
      let d ← (fun s => (s.calls.getDataContent callCid, s) : M CallData)
      let c ← getCallFromData cfg d
      let outs ← M.lift (reassignOutputs cfg outNames callHid d.outputHids.keys c.outputs)
      let ins ← M.lift (reassignInputs inputs c.inputs)
      M.pure (some { c with hid := callHid, outputs := outs, inputs := ins })
    else M.pure none

/-- `call_internal` (storage.py:773-936) for a structural op whose inputs are already wrapped. -/
def structCall (op out : String) (inputs : List (String × Ref)) (compute : Except Err Ref) : M CallObj := do
  match ← lookupCall cfg op 0 (some [out]) inputs with
  | some c => M.pure c
  | none => do
    if ← M.read (fun s => s.allowNew) then
      let r ← M.lift compute
      let callHid := callId cfg.H op 0 (idsOf Ref.hid inputs)
      M.pure { op := op, cid := callId cfg.H op 0 (idsOf Ref.cid inputs), hid := callHid, inputs := inputs,
               outputs := [(out, r.withHid (outHid cfg.H callHid out))] }
    else M.raise .runtimeError

/-- `wrap_atom` (model.py:289-311) of a value -/
def wrapAtom (v : Val) (historyId : Option String) : Ref :=
  match v with
  | .ptr id => wrapPtr cfg.H id
  | _ => wrapVal cfg.H v historyId

/-- The keys and elements of an argument for a collection parameter (storage.py:544-572, `enumerate(val)` or
`val.keys()`). -/
def argItems : Kind → Arg → Except Err (List String × List Arg)
  | .list, .val (.list xs) => .ok ([], xs.map .val)
  | .list, .val (.tuple xs) => .ok ([], xs.map .val)
  | .list, .val (.str s) => .ok ([], s.toList.map fun c => .val (.str (String.singleton c)))
  | .list, .val (.dict ks _) => .ok ([], ks.map fun k => .val (.str k))
  | .list, .list xs => .ok ([], xs)
  | .list, .dict ks _ => .ok ([], ks.map fun k => .val (.str k))
  | .list, _ => .error .typeError
  | .dict, .val (.dict ks vs) => .ok (ks, vs.map .val)
  | .dict, .dict ks xs => .ok (ks, xs)
  | .dict, _ => .error .attributeError

/-- `__make_list__`/`__make_dict__` (model.py:408-426) -/
def makeColl (k : Kind) (keys : List String) (elts : List Ref) : Ref :=
  .coll k (cfg.H (collPre k keys (elts.map Ref.cid))) (cfg.H (collPre k keys (elts.map Ref.hid))) true keys elts

/-- `construct` (storage.py:574-591): the ref and the structural calls. A list or dict with refs inside for a
parameter that is not annotated as a collection would be pickled as a whole; not modelled. -/
def construct : Ty → Arg → M (Ref × List CallObj)
  | _, .ref r => M.pure (r, [])
  | .atom, .val v => M.pure (wrapAtom cfg v none, [])
  | .atom, .ptr id _ => M.pure (wrapPtr cfg.H id, [])
  | .atom, _ => M.raise .unmodelled
  | .unsupported, _ => M.raise .notImplemented
  | .coll k t, a => do
    let (keys, items) ← M.lift (argItems k a)
    let rs ← M.mapM' (construct t) items
    let refs := rs.map (·.1)
    let main ← structCall cfg (builderName k) (builderOut k) ((structNames k keys refs.length).zip refs)
      (.ok (makeColl cfg k keys refs))
    match main.outputs with
    | [] => M.raise .indexError
    | (_, out) :: _ => M.pure (out, rs.flatMap (·.2) ++ [main])

/-- The indices used to take a collection apart (storage.py:606-610, 623-627). -/
def idxVals : Kind → List String → Nat → List Val
  | .list, _, n => (List.range n).map fun i => .int (i : Nat)
  | .dict, keys, _ => keys.map .str

/-- `__list_getitem__`/`__dict_getitem__` (model.py:441-445, 320-323, 347-355) on a collection in memory -/
def getItem : Kind → List String → List Ref → Val → Except Err Ref
  | .list, _, elts, .int i =>
    match elts[i.toNat]? with
    | some r => .ok r
    | none => .error .indexError
  | .dict, keys, elts, .str k =>
    match Dict.get? (keys.zip elts) k with
    | some r => .ok r
    | none => .error .keyError
  | _, _, _, _ => .error .typeError

/-- `destruct` (storage.py:593-637) -/
def destruct : Ty → Ref → M (Ref × List CallObj)
  | _, .atom c h o => M.pure (.atom c h o, [])
  | .coll k t, .coll k' c h inMem keys elts =>
    if k = k' then
      if inMem then do
        let rs ← M.mapM' (fun idx => do
          let call ← structCall cfg (getitemName k) (getitemOut k)
            [(getitemArg k, .coll k' c h inMem keys elts), (getitemIdx k, wrapAtom cfg idx none)]
            (getItem k keys elts idx)
          match Dict.get? call.outputs (getitemOut k) with
          | none => M.raise .keyError
          | some elt => do
            let (elt', sub) ← destruct t elt
            M.pure (elt', call :: sub)) (idxVals k keys elts.length)
        M.pure (.coll k c h true keys (rs.map (·.1)), rs.flatMap (·.2))
      else M.raise (iterErr k)
    else M.raise .assertionError
  | _, .coll .. => M.raise .assertionError

/-- storage.py:916-926: wrap one output -/
def wrapOutput (hid : String) (v : Val) (ty : Ty) : M (Ref × List CallObj) :=
  match ty with
  | .atom => M.pure (wrapAtom cfg v (some hid), [])
  | ty => do
    let (start, _) ← construct cfg ty (.val v)
    destruct cfg ty (start.withHid hid)

/-- ghost: record that a body runs -/
def logExec (op : String) (args : List (String × Val)) : M Unit :=
  fun s => (.ok (), { s with log := (op, args) :: s.log })

/-- storage.py:792-796: wrap the non-ignored arguments -/
def wrapInputs (args : List BArg) : M (List (String × Ref) × List CallObj) := do
  let rs ← M.mapM' (fun (a : BArg) => do
    let (r, cs) ← construct cfg a.ty a.arg
    M.pure (a.name, r, cs)) (args.filter fun a => !a.ignored)
  M.pure (rs.map fun p => (p.1, p.2.1), rs.flatMap fun p => p.2.2)

/-- `call_internal` (storage.py:773-936) for a user op: the main call and the structural calls -/
def callInternal (op : OpDef) (args : List BArg) : M (CallObj × List CallObj) := do
  let (inputs, inputCalls) ← wrapInputs cfg args
  match ← lookupCall cfg op.name op.version op.outNames inputs with
  | some c => M.pure (c, inputCalls)
  | none => do
    if ← M.read (fun s => s.allowNew) then
      let vals ← M.mapM' (fun (a : BArg) => do
        let v ← bodyArg cfg a.arg
        M.pure (a.name, v)) args
      logExec op.name vals
      let ret ← M.lift (op.body vals)
      let outs ← M.lift (parseReturns op.nout op.outNames op.ann ret)
      let callHid := callId cfg.H op.name op.version (idsOf Ref.hid inputs)
      let wrapped ← M.mapM' (fun (p : String × Val × Ty) => do
        let (r, cs) ← wrapOutput cfg (outHid cfg.H callHid p.1) p.2.1 p.2.2
        M.pure (p.1, r, cs)) outs
      M.pure ({ op := op.name, cid := callId cfg.H op.name op.version (idsOf Ref.cid inputs), hid := callHid,
                inputs := inputs, outputs := wrapped.map fun p => (p.1, p.2.1) },
              inputCalls ++ wrapped.flatMap fun p => p.2.2)
    else M.raise .runtimeError

/-- What is stored of a call -/
def CallObj.toRec (c : CallObj) : CallRec :=
  { op := c.op, cid := c.cid, hid := c.hid, inputs := c.inputs.map fun p => (p.1, ⟨p.2.cid, p.2.hid⟩),
    outputs := c.outputs.map fun p => (p.1, ⟨p.2.cid, p.2.hid⟩) }

/-- `save_call` (storage.py:334-350) -/
def saveCall (c : CallObj) : M Unit := do
  if ← M.read (fun s => s.calls.exists_ c.hid) then M.pure ()
  else
    (do if ← M.read (fun s => s.ops.exists_ c.op) then M.pure () else opsSet c.op)
    saveRefs (c.inputs.map (·.2) ++ c.outputs.map (·.2))
    (fun s => (.ok (), { s with calls := s.calls.save c.toRec }) : M Unit)

/-- `Storage.call` in mode "run" (storage.py:1162-1203) after `parse_args`: the ordered outputs. -/
def call (op : OpDef) (args : List BArg) : M (List Ref) := do
  let (main, calls) ← callInternal cfg op args
  saveCall main
  M.forM' saveCall calls
  M.lift (orderedOutputs op.outNames main.outputs)

/-! ### commit, caches, drops -/

/-- `with self.conn() as conn` leaving with an exception: the tables are as before, overflow files and
caches are not. -/
def rollback (before : St) (now : St) : St :=
  { now with
    atoms := { now.atoms with pers := { now.atoms.pers with rows := before.atoms.pers.rows } }
    shapes := { now.shapes with pers := { now.shapes.pers with rows := before.shapes.pers.rows } }
    ops := { now.ops with pers := { now.ops.pers with rows := before.ops.pers.rows } }
    calls := { now.calls with pers := before.calls.pers } }

/-- The body of `commit` (storage.py:210-217, unversioned), before the transaction ends. -/
def commitBody : M Unit := fun s =>
  match s.atoms.commit cfg.sizeA with
  | (.error e, a) => (.error e, { s with atoms := a })
  | (.ok _, a) =>
    let s := { s with atoms := a }
    match s.shapes.commit cfg.sizeS with
    | (.error e, a) => (.error e, { s with shapes := a })
    | (.ok _, a) =>
      let s := { s with shapes := a }
      match s.ops.commit cfg.sizeO with
      | (.error e, a) => (.error e, { s with ops := a })
      | (.ok _, a) =>
        let s := { s with ops := a }
        match s.calls.commit with
        | (.error e, a) => (.error e, { s with calls := a })
        | (.ok _, a) => (.ok (), { s with calls := a })

/-- `commit` (storage.py:210-217) on a file-backed database -/
def commit : M Unit := fun s =>
  match commitBody cfg s with
  | (.ok _, s') => (.ok (), s')
  | (.error e, s') => (.error e, rollback s s')

/-- `clear_cache` (storage.py:169-174) -/
def clearCache (allow : Bool) : M Unit := fun s =>
  match s.atoms.clear allow with
  | (.error e, a) => (.error e, { s with atoms := a })
  | (.ok _, a) =>
    let s := { s with atoms := a }
    match s.shapes.clear allow with
    | (.error e, a) => (.error e, { s with shapes := a })
    | (.ok _, a) =>
      let s := { s with shapes := a }
      match s.ops.clear allow with
      | (.error e, a) => (.error e, { s with ops := a })
      | (.ok _, a) =>
        let s := { s with ops := a }
        match s.calls.clear allow with
        | (.error e, a) => (.error e, { s with calls := a })
        | (.ok _, a) => (.ok (), { s with calls := a, stale := some (s.stale.getD s.calls.cache) })

/-- The object `self.call_cache` refers to. -/
def St.callCache (s : St) : InMem := s.stale.getD s.calls.cache

/-- mutating `self.call_cache` -/
def St.setCallCache (s : St) (m : InMem) : St :=
  match s.stale with
  | none => { s with calls := { s.calls with cache := m } }
  | some _ => { s with stale := some m }

/-- storage.py:426-429: drop calls from `self.call_cache` -/
def dropCached : List String → M Unit
  | [] => M.pure ()
  | h :: hs => fun s =>
    if s.callCache.exists_ h then
      match s.callCache.drop h with
      | .error e => (.error e, s)
      | .ok m => dropCached hs (s.setCallCache m)
    else dropCached hs s

/-- `drop_calls` (storage.py:403-434). (The database part follows the cache part, so an exception in the
latter leaves the database as it was.) -/
def dropCalls (hids : List String) (deleteDependents : Bool) : M Unit := fun s =>
  let hids' := if deleteDependents then
      match getDependents s.calls.pers [] hids with
      | some (_, C) => hids ++ C
      | none => hids
    else hids
  match dropCached hids' s with
  | (.error e, s') => (.error e, s')
  | (.ok _, s') =>
    (.ok (), { s' with calls := { s'.calls with pers := s'.calls.pers.filter (fun r => r.callHid ∉ hids') } })

/-- `get_orphans` (storage.py:462-471) -/
def orphans (s : St) : List String :=
  s.shapes.pers.keys.filter fun h => h ∉ s.calls.pers.map (·.refHid)

/-- `get_unreferenced_cids` (storage.py:473-483) -/
def unreferencedCids (s : St) : List String :=
  s.atoms.pers.keys.filter fun c =>
    c ∉ s.calls.pers.map (·.refCid) ∧ c ∉ s.shapes.pers.values.map Ref.cid

/-- `self.shapes.drop(hid)` -/
def shapesDrop (h : String) : M Unit := fun s => ((s.shapes.drop h).1, { s with shapes := (s.shapes.drop h).2 })
/-- `self.atoms.drop(cid)` -/
def atomsDrop (c : String) : M Unit := fun s => ((s.atoms.drop c).1, { s with atoms := (s.atoms.drop c).2 })

/-- `cleanup_refs` (storage.py:313-326), outside of a context -/
def cleanupRefs : M Unit := do
  let os ← M.read orphans
  M.forM' shapesDrop os
  let cs ← M.read unreferencedCids
  M.forM' atomsDrop cs

/-- `preload` (storage.py:189-208), `lazy=False` -/
def preload : M Unit := fun s =>
  let s := s.setCallCache (InMem.ofRows s.calls.pers)
  (.ok (), { s with
    shapes := { s.shapes with cache := s.shapes.pers.loadAll }
    ops := { s.ops with cache := s.ops.pers.loadAll }
    atoms := { s.atoms with cache := s.atoms.pers.loadAll } })

/-- The process ends and a new storage is opened on the same database (storage.py:42-130). -/
def reopen : M Unit := fun s =>
  (.ok (), { atoms := .open_ s.atoms.pers, shapes := .open_ s.shapes.pers, ops := .open_ s.ops.pers,
             calls := .open_ s.calls.pers, stale := none, allowNew := true, log := s.log })

/-- A new storage on an empty database. -/
def St.fresh (overflow : Option (Joblib Val)) (thr : Nat) : St :=
  { atoms := .open_ { rows := [], overflow := overflow, threshold := thr },
    shapes := .open_ { rows := [], overflow := none, threshold := thr },
    ops := .open_ { rows := [], overflow := none, threshold := thr },
    calls := .open_ [], stale := none, allowNew := true, log := [] }

end
end Verif
