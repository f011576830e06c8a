import Verif.Basic.Dict
import Verif.Basic.Err
/-!
Model of the key/value storages of `mandala/storage_utils.py` (lines 101-322).

Simplifications: `serialize`/`deserialize` is the identity (a value is stored as itself), the length of
the serialized value is the parameter `size`; a single call with its own transaction always gets the
database lock (failures of the transaction wrapper are the subject of `Verif.Model.Transaction`);
directory listing order is insertion order.
-/
namespace Verif

variable {V : Type}

/-- `JoblibDictStorage` (storage_utils.py:135-167): one file per key under `root`. -/
abbrev Joblib (V : Type) := Dict String V

namespace Joblib

/-- storage_utils.py:146-147 `get`: `joblib.load` of a missing file raises `FileNotFoundError`. -/
def get (j : Joblib V) (k : String) : Except Err V :=
  match Dict.get? j k with
  | some v => .ok v
  | none => .error .fileNotFound

/-- storage_utils.py:149-150 `exists` -/
def exists_ (j : Joblib V) (k : String) : Bool := Dict.has j k

/-- storage_utils.py:152-155 `set`: write-once. -/
def set (j : Joblib V) (k : String) (v : V) : Joblib V :=
  if j.exists_ k then j else Dict.set j k v

/-- storage_utils.py:157-158 `drop`: `os.remove` of a missing file raises. -/
def drop (j : Joblib V) (k : String) : Except Err (Joblib V) :=
  if j.exists_ k then .ok (Dict.erase j k) else .error .fileNotFound

/-- storage_utils.py:163-164 `keys` -/
def keys (j : Joblib V) : List String := Dict.keys j

end Joblib

/-- `SQLiteDictStorage` (storage_utils.py:172-263): table `(key PRIMARY KEY, value)`, optional overflow
storage (`none` = not configured), size threshold. -/
structure SqlDict (V : Type) where
  rows : Dict String V
  overflow : Option (Joblib V)
  threshold : Nat
  deriving DecidableEq

namespace SqlDict

/-- storage_utils.py:200-210 `get` -/
def get (p : SqlDict V) (k : String) : Except Err V :=
  match p.rows.get? k with
  | none =>
    match p.overflow with
    | some j => j.get k
    | none => .error .keyError
  | some v => .ok v

/-- storage_utils.py:212-230 `set` -/
def set (size : V → Nat) (p : SqlDict V) (k : String) (v : V) : Except Err (SqlDict V) :=
  if size v > p.threshold then
    match p.overflow with
    | some j => .ok { p with overflow := some (j.set k v) }
    | none => .error .valueError
  else .ok { p with rows := p.rows.set k v }

/-- storage_utils.py:232-236 `drop` -/
def drop (p : SqlDict V) (k : String) : Except Err (SqlDict V) :=
  let p := { p with rows := p.rows.erase k }
  match p.overflow with
  | none => .ok p
  | some j =>
    if j.exists_ k then
      match j.drop k with
      | .ok j' => .ok { p with overflow := some j' }
      | .error e => .error e
    else .ok p

/-- storage_utils.py:238-247 `exists` -/
def exists_ (p : SqlDict V) (k : String) : Bool :=
  match p.overflow with
  | none => p.rows.has k
  | some j => p.rows.has k || j.exists_ k

/-- storage_utils.py:249-255 `keys` -/
def keys (p : SqlDict V) : List String :=
  match p.overflow with
  | none => p.rows.keys
  | some j => p.rows.keys ++ j.keys

/-- storage_utils.py:257-263 `values` -/
def values (p : SqlDict V) : List V :=
  match p.overflow with
  | none => p.rows.vals
  | some j => p.rows.vals ++ Dict.vals j

/-- storage_utils.py:191-198 `load_all`: overflow entries override table rows. -/
def loadAll (p : SqlDict V) : Dict String V :=
  match p.overflow with
  | none => p.rows
  | some j => p.rows.update j

end SqlDict

/-- `CachedDictStorage` (storage_utils.py:266-322) -/
structure CachedDict (V : Type) where
  pers : SqlDict V
  cache : Dict String V
  dirty : List String
  deriving DecidableEq

namespace CachedDict

/-- storage_utils.py:267-272 `__init__` on an existing database (also: re-opening a database). -/
def open_ (p : SqlDict V) : CachedDict V := { pers := p, cache := [], dirty := [] }

/-- storage_utils.py:280-286 `get`: a miss fills the cache. -/
def get (c : CachedDict V) (k : String) : Res (CachedDict V) V :=
  match c.cache.get? k with
  | some v => (.ok v, c)
  | none =>
    match c.pers.get k with
    | .ok v => (.ok v, { c with cache := c.cache.set k v })
    | .error e => (.error e, c)

/-- python `set.add` -/
def addKey (d : List String) (k : String) : List String := if k ∈ d then d else d ++ [k]

/-- storage_utils.py:288-290 `set` -/
def set (c : CachedDict V) (k : String) (v : V) : CachedDict V :=
  { c with cache := c.cache.set k v, dirty := addKey c.dirty k }

/-- storage_utils.py:296-297, the loop of `commit`: writes the keys one by one; stops at the first
exception (`cache[key]` of a missing key raises `KeyError`). -/
def flush (size : V → Nat) (cache : Dict String V) : List String → SqlDict V → Res (SqlDict V) Unit
  | [], p => (.ok (), p)
  | k :: ks, p =>
    match cache.get? k with
    | none => (.error .keyError, p)
    | some v =>
      match p.set size k v with
      | .error e => (.error e, p)
      | .ok p' => flush size cache ks p'

/-- storage_utils.py:292-298 `commit`. The dirty set is cleared only if all writes succeeded. -/
def commit (size : V → Nat) (c : CachedDict V) : Res (CachedDict V) Unit :=
  match flush size c.cache c.dirty c.pers with
  | (.ok (), p) => (.ok (), { c with pers := p, dirty := [] })
  | (.error e, p) => (.error e, { c with pers := p })

/-- storage_utils.py:300-308 `clear` -/
def clear (c : CachedDict V) (allowUncommitted : Bool) : Res (CachedDict V) Unit :=
  if c.dirty.length > 0 && !allowUncommitted then (.error .valueError, c)
  else (.ok (), { c with cache := [], dirty := [] })

/-- storage_utils.py:310-315 `drop` -/
def drop (c : CachedDict V) (k : String) : Res (CachedDict V) Unit :=
  let c := { c with cache := c.cache.erase k, dirty := c.dirty.filter (· ≠ k) }
  match c.pers.drop k with
  | .ok p => (.ok (), { c with pers := p })
  | .error e => (.error e, c)

/-- storage_utils.py:317-322 `exists` -/
def exists_ (c : CachedDict V) (k : String) : Bool :=
  if c.cache.has k then true else c.pers.exists_ k

/-- The operations a caller can perform. -/
inductive Op (V : Type)
  | get (k : String)
  | set (k : String) (v : V)
  | exists_ (k : String)
  | drop (k : String)
  | commit
  | clear (allowUncommitted : Bool)
  /-- the process ends and the database is opened again -/
  | reopen

/-- What the caller sees. -/
inductive Out (V : Type)
  | unit
  | val (v : V)
  | bool (b : Bool)
  | raised (e : Err)
  deriving DecidableEq

/-- One operation on the storage. -/
def step (size : V → Nat) (c : CachedDict V) : Op V → Out V × CachedDict V
  | .get k => match c.get k with
    | (.ok v, c') => (.val v, c')
    | (.error e, c') => (.raised e, c')
  | .set k v => (.unit, c.set k v)
  | .exists_ k => (.bool (c.exists_ k), c)
  | .drop k => match c.drop k with
    | (.ok _, c') => (.unit, c')
    | (.error e, c') => (.raised e, c')
  | .commit => match c.commit size with
    | (.ok _, c') => (.unit, c')
    | (.error e, c') => (.raised e, c')
  | .clear a => match c.clear a with
    | (.ok _, c') => (.unit, c')
    | (.error e, c') => (.raised e, c')
  | .reopen => (.unit, open_ c.pers)

/-- A sequence of operations; the list of what the caller sees. -/
def run (size : V → Nat) : CachedDict V → List (Op V) → List (Out V) × CachedDict V
  | c, [] => ([], c)
  | c, o :: os =>
    let (r, c') := step size c o
    let (rs, c'') := run size c' os
    (r :: rs, c'')

end CachedDict
end Verif
