import Verif.Basic.Dict
import Verif.Basic.Err
/-!
Model of the call storages of `mandala/storage_utils.py` (lines 325-780).

The pandas data frame of `InMemCallStorage` and the SQLite table of `SQLiteCallStorage` are lists of
rows in insertion order, keyed by `(call_history_id, name)`. Python sets of ids are lists; only membership
matters for them.
-/
namespace Verif

/-- Column `direction`. -/
inductive Dir
  | in_
  | out
  deriving DecidableEq, Repr

/-- A row of the calls table (storage_utils.py:326-337 / 514-517). -/
structure Row where
  callHid : String
  name : String
  dir : Dir
  callCid : String
  refCid : String
  refHid : String
  op : String
  semVer : Option String := none
  contVer : Option String := none
  deriving DecidableEq, Repr

/-- A reference to a stored value as it appears in a call: content id and history id. -/
structure IO where
  cid : String
  hid : String
  deriving DecidableEq, Repr

/-- What is stored of a `Call` (model.py:252-271): op name, ids, and ids of inputs and outputs. -/
structure CallRec where
  op : String
  cid : String
  hid : String
  inputs : Dict String IO
  outputs : Dict String IO
  semVer : Option String := none
  contVer : Option String := none
  deriving DecidableEq, Repr

/-- The dictionary returned by `get_data` (storage_utils.py:412-422): separate dicts of hids and cids. -/
structure CallData where
  opName : String
  cid : String
  hid : String
  inputHids : Dict String String
  outputHids : Dict String String
  inputCids : Dict String String
  outputCids : Dict String String
  semVer : Option String
  contVer : Option String
  deriving DecidableEq, Repr

/-- The row of an input. -/
def CallRec.inRow (c : CallRec) (p : String × IO) : Row :=
  { callHid := c.hid, name := p.1, dir := .in_, callCid := c.cid, refCid := p.2.cid,
    refHid := p.2.hid, op := c.op, semVer := c.semVer, contVer := c.contVer }

/-- The row of an output. -/
def CallRec.outRow (c : CallRec) (p : String × IO) : Row :=
  { callHid := c.hid, name := p.1, dir := .out, callCid := c.cid, refCid := p.2.cid,
    refHid := p.2.hid, op := c.op, semVer := c.semVer, contVer := c.contVer }

/-- `df.loc[(hid, name), :] = row`: replaces the row with the same key or appends. -/
def setRow : List Row → Row → List Row
  | [], r => [r]
  | r' :: rs, r => if r'.callHid = r.callHid ∧ r'.name = r.name then r :: rs else r' :: setRow rs r

/-- Fold of one row into the call data (storage_utils.py:403-410, 609-622). -/
def CallData.addRow (d : CallData) (r : Row) : CallData :=
  match r.dir with
  | .in_ => { d with inputHids := d.inputHids.set r.name r.refHid,
                     inputCids := d.inputCids.set r.name r.refCid }
  | .out => { d with outputHids := d.outputHids.set r.name r.refHid,
                     outputCids := d.outputCids.set r.name r.refCid }

/-- The rows of one call turned into call data; the header fields come from the first row. -/
def dataOfRows : List Row → Option CallData
  | [] => none
  | r :: rs => some ((r :: rs).foldl CallData.addRow
      { opName := r.op, cid := r.callCid, hid := r.callHid, inputHids := [], outputHids := [],
        inputCids := [], outputCids := [], semVer := r.semVer, contVer := r.contVer })

/-- The rows of one call. -/
def rowsOf (rows : List Row) (hid : String) : List Row := rows.filter (fun r => r.callHid = hid)

/-- `mget_data` (storage_utils.py:394-423 and 596-623): a requested call without rows raises `KeyError`
(`res_dict[hid]`). -/
def mgetData (rows : List Row) : List String → Except Err (List CallData)
  | [] => .ok []
  | h :: hs =>
    match dataOfRows (rowsOf rows h) with
    | none => .error .keyError
    | some d =>
      match mgetData rows hs with
      | .ok ds => .ok (d :: ds)
      | .error e => .error e

/-- `InMemCallStorage` -/
structure InMem where
  df : List Row
  callHids : List String
  deriving DecidableEq

namespace InMem

/-- storage_utils.py:343-347, empty storage -/
def empty : InMem := { df := [], callHids := [] }

/-- storage_utils.py:339-342: from a data frame -/
def ofRows (rows : List Row) : InMem := { df := rows, callHids := rows.map (·.callHid) }

/-- storage_utils.py:352-373 `save` -/
def save (m : InMem) (c : CallRec) : InMem :=
  if c.hid ∈ m.callHids then m
  else
    let df := (c.inputs.map c.inRow).foldl setRow m.df
    let df := (c.outputs.map c.outRow).foldl setRow df
    { df := df, callHids := m.callHids ++ [c.hid] }

/-- storage_utils.py:375-385 `drop` -/
def drop (m : InMem) (hid : String) : Except Err InMem :=
  if rowsOf m.df hid = [] then .error .valueError
  else .ok { df := m.df.filter (fun r => r.callHid ≠ hid), callHids := m.callHids.filter (· ≠ hid) }

/-- storage_utils.py:387-389 `exists` -/
def exists_ (m : InMem) (hid : String) : Bool := hid ∈ m.callHids

/-- storage_utils.py:391-392 `exists_content` -/
def existsContent (m : InMem) (cid : String) : Bool := m.df.any (fun r => r.callCid = cid)

/-- storage_utils.py:425-431 `get_data` -/
def getData (m : InMem) (hid : String) : Except Err CallData :=
  if m.exists_ hid then
    match mgetData m.df [hid] with
    | .ok (d :: _) => .ok d
    | .ok [] => .error .indexError
    | .error e => .error e
  else .error .valueError

/-- storage_utils.py:433-436 `get_data_content`: the call of the first row with that content id. -/
def getDataContent (m : InMem) (cid : String) : Except Err CallData :=
  match m.df.find? (fun r => r.callCid = cid) with
  | some r => m.getData r.callHid
  | none => .error .indexError

end InMem

/-! ### provenance queries (storage_utils.py:438-466, SQL versions 646-686) -/

/-- `get_creator_hids` -/
def creatorHids (rows : List Row) (refs : List String) : List String :=
  (rows.filter (fun r => r.refHid ∈ refs ∧ r.dir = .out)).map (·.callHid)

/-- `get_consumer_hids` -/
def consumerHids (rows : List Row) (refs : List String) : List String :=
  (rows.filter (fun r => r.refHid ∈ refs ∧ r.dir = .in_)).map (·.callHid)

/-- `get_input_hids` -/
def inputHids (rows : List Row) (calls : List String) : List String :=
  (rows.filter (fun r => r.callHid ∈ calls ∧ r.dir = .in_)).map (·.refHid)

/-- `get_output_hids` -/
def outputHids (rows : List Row) (calls : List String) : List String :=
  (rows.filter (fun r => r.callHid ∈ calls ∧ r.dir = .out)).map (·.refHid)

/-- python set difference -/
def setDiff (a b : List String) : List String := a.filter (fun x => x ∉ b)

/-- The `while True` loop shared by `get_dependencies` and `get_dependents`
(storage_utils.py:468-504). `nextCalls` / `nextRefs` are the two queries. `none`: the loop did not stop
within the given number of iterations. -/
def depLoop (nextCalls nextRefs : List String → List String) :
    Nat → (refs calls curRefs curCalls : List String) → Option (List String × List String)
  | 0, _, _, _, _ => none
  | n + 1, refs, calls, curRefs, curCalls =>
    let callsUpd := setDiff (nextCalls curRefs) calls
    let refsUpd := setDiff (nextRefs curCalls) refs
    if callsUpd = [] ∧ refsUpd = [] then some (refs, calls)
    else depLoop nextCalls nextRefs n (refs ++ refsUpd) (calls ++ callsUpd) refsUpd callsUpd

/-- Number of iterations after which the loop has always stopped (proved). -/
def depFuel (rows : List Row) : Nat := 2 * rows.length + 1

/-- `get_dependencies` (storage_utils.py:468-485) -/
def getDependencies (rows : List Row) (refs calls : List String) : Option (List String × List String) :=
  depLoop (creatorHids rows) (inputHids rows) (depFuel rows) refs calls refs calls

/-- `get_dependents` (storage_utils.py:487-504) -/
def getDependents (rows : List Row) (refs calls : List String) : Option (List String × List String) :=
  depLoop (consumerHids rows) (outputHids rows) (depFuel rows) refs calls refs calls

/-! ### SQLite call storage -/

/-- One `INSERT` (storage_utils.py:548-551): the primary key `(call_history_id, name)` must be new. -/
def insertRow (rows : List Row) (r : Row) : Except Err (List Row) :=
  if rows.any (fun r' => r'.callHid = r.callHid ∧ r'.name = r.name) then .error .integrityError
  else .ok (rows ++ [r])

/-- Several `INSERT`s; stops at the first error, rows inserted before stay in the open transaction. -/
def insertRows : List Row → List Row → Res (List Row) Unit
  | rows, [] => (.ok (), rows)
  | rows, r :: rs =>
    match insertRow rows r with
    | .ok rows' => insertRows rows' rs
    | .error e => (.error e, rows)

/-- The rows written for a call data (storage_utils.py:546-559). A cid missing in the dict raises
`KeyError` in python; the two dicts always have the same keys (they are filled together). -/
def CallData.toRows (d : CallData) : List Row :=
  d.inputHids.map (fun p =>
    { callHid := d.hid, name := p.1, dir := .in_, callCid := d.cid,
      refCid := (d.inputCids.get? p.1).getD "", refHid := p.2, op := d.opName,
      semVer := d.semVer, contVer := d.contVer }) ++
  d.outputHids.map (fun p =>
    { callHid := d.hid, name := p.1, dir := .out, callCid := d.cid,
      refCid := (d.outputCids.get? p.1).getD "", refHid := p.2, op := d.opName,
      semVer := d.semVer, contVer := d.contVer })

/-- `SQLiteCallStorage.save` (storage_utils.py:539-559) -/
def sqlSave (rows : List Row) (d : CallData) : Res (List Row) Unit := insertRows rows d.toRows

/-- `SQLiteCallStorage.drop` (storage_utils.py:561-563) -/
def sqlDrop (rows : List Row) (hid : String) : List Row := rows.filter (fun r => r.callHid ≠ hid)

/-- `SQLiteCallStorage.exists` (storage_utils.py:565-574) -/
def sqlExists (rows : List Row) (hid : String) : Bool := rows.any (fun r => r.callHid = hid)

/-- `SQLiteCallStorage.exists_content` (storage_utils.py:576-584) -/
def sqlExistsContent (rows : List Row) (cid : String) : Bool := rows.any (fun r => r.callCid = cid)

/-- `SQLiteCallStorage.exists_ref_hid` (storage_utils.py:586-594) -/
def sqlExistsRefHid (rows : List Row) (hid : String) : Bool := rows.any (fun r => r.refHid = hid)

/-- `SQLiteCallStorage.get_data` (storage_utils.py:625-632) -/
def sqlGetData (rows : List Row) (hid : String) : Except Err CallData :=
  match mgetData rows [hid] with
  | .ok (d :: _) => .ok d
  | .ok [] => .error .indexError
  | .error e => .error e

/-- `SQLiteCallStorage.get_data_content` (storage_utils.py:634-644), called as
`self.persistent.get_data_content(cid, conn)` (line 757): the connection is passed positionally, so the
transaction wrapper passes `conn` twice and the call raises `TypeError`. -/
def sqlGetDataContent (_rows : List Row) (_cid : String) : Except Err CallData := .error .typeError

/-- `CachedCallStorage` (storage_utils.py:710-780) -/
structure CachedCalls where
  pers : List Row
  cache : InMem
  dirty : List String
  deriving DecidableEq

namespace CachedCalls

/-- `__init__` on an existing table (storage_utils.py:716-719) -/
def open_ (rows : List Row) : CachedCalls := { pers := rows, cache := .empty, dirty := [] }

/-- storage_utils.py:721-723 `save` -/
def save (s : CachedCalls) (c : CallRec) : CachedCalls :=
  { s with cache := s.cache.save c, dirty := if c.hid ∈ s.dirty then s.dirty else s.dirty ++ [c.hid] }

/-- storage_utils.py:725-728 `drop` -/
def drop (s : CachedCalls) (hid : String) : Res CachedCalls Unit :=
  match s.cache.drop hid with
  | .error e => (.error e, s)
  | .ok m => (.ok (), { s with cache := m, dirty := s.dirty.filter (· ≠ hid) })

/-- storage_utils.py:730-735 `exists` -/
def exists_ (s : CachedCalls) (hid : String) : Bool :=
  if s.cache.exists_ hid then true else sqlExists s.pers hid

/-- storage_utils.py:737-742 `exists_content`: the fallback asks for a *ref history id*. -/
def existsContent (s : CachedCalls) (cid : String) : Bool :=
  if s.cache.existsContent cid then true else sqlExistsRefHid s.pers cid

/-- storage_utils.py:744-750 `get_data` -/
def getData (s : CachedCalls) (hid : String) : Except Err CallData :=
  if s.cache.exists_ hid then s.cache.getData hid else sqlGetData s.pers hid

/-- storage_utils.py:752-758 `get_data_content` -/
def getDataContent (s : CachedCalls) (cid : String) : Except Err CallData :=
  if s.cache.existsContent cid then s.cache.getDataContent cid else sqlGetDataContent s.pers cid

/-- storage_utils.py:770-771, the loop of `commit` -/
def flush (cache : InMem) : List String → List Row → Res (List Row) Unit
  | [], rows => (.ok (), rows)
  | h :: hs, rows =>
    match cache.getData h with
    | .error e => (.error e, rows)
    | .ok d =>
      match sqlSave rows d with
      | (.error e, rows') => (.error e, rows')
      | (.ok (), rows') => flush cache hs rows'

/-- storage_utils.py:766-772 `commit` -/
def commit (s : CachedCalls) : Res CachedCalls Unit :=
  match flush s.cache s.dirty s.pers with
  | (.ok (), rows) => (.ok (), { s with pers := rows, dirty := [] })
  | (.error e, rows) => (.error e, { s with pers := rows })

/-- storage_utils.py:774-780 `clear` -/
def clear (s : CachedCalls) (allowUncommitted : Bool) : Res CachedCalls Unit :=
  if s.dirty.length > 0 && !allowUncommitted then (.error .valueError, s)
  else (.ok (), { s with cache := .empty, dirty := [] })

end CachedCalls

/-! ### batch access, `Storage.mget_call` (storage.py:352-379) -/

/-- storage.py:354-355 `split_list` -/
def splitList {α : Type} (xs : List α) (mask : List Bool) : List α × List α :=
  (((xs.zip mask).filter (·.2)).map (·.1), ((xs.zip mask).filter (fun p => !p.2)).map (·.1))

/-- storage.py:357-367 `merge_lists`; indexing past the end raises `IndexError`. -/
def mergeLists {α : Type} : List α → List α → List Bool → Except Err (List α)
  | _, _, [] => .ok []
  | ts, fs, true :: m =>
    match ts with
    | [] => .error .indexError
    | t :: ts => match mergeLists ts fs m with
      | .ok r => .ok (t :: r)
      | .error e => .error e
  | ts, fs, false :: m =>
    match fs with
    | [] => .error .indexError
    | f :: fs => match mergeLists ts fs m with
      | .ok r => .ok (f :: r)
      | .error e => .error e

/-- The data part of `mget_call` (storage.py:369-374); `callCache` is the storage's own reference to
the cache (storage.py:44), which is not necessarily `calls.cache` (see `CachedCalls.clear`). -/
def mgetCallData (callCache : InMem) (pers : List Row) (hids : List String) : Except Err (List CallData) :=
  let mask := hids.map callCache.exists_
  let (cachePart, dbPart) := splitList hids mask
  match mgetData callCache.df cachePart with
  | .error e => .error e
  | .ok cacheDatas =>
    match mgetData pers dbPart with
    | .error e => .error e
    | .ok dbDatas => mergeLists cacheDatas dbDatas mask

end Verif
