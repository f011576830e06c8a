import Verif.Model.Storage
/-!
Transactions: `DBAdapter.conn` and the decorator `transaction` (storage_utils.py:11-76), and what a crash during
`Storage.commit` (storage.py:210-217) leaves on disk.

Of SQLite the following is assumed: changes made after `BEGIN` (or, on a file-backed connection, by the first write) become
part of the database only with the commit of the transaction; closing the connection or the end of the process discards
them; `BEGIN` inside of a transaction is an `OperationalError`; changes of an open transaction are visible on its own
connection.
-/
namespace Verif

/-- `sqlite3.OperationalError` (locked, disk I/O, no such table, ...) or any other exception. -/
inductive TErr
  | operational
  | other (e : Err)
  deriving DecidableEq

/-- The surroundings of one attempt: what other processes committed before it, whether `BEGIN IMMEDIATE` gets the lock,
whether the commit succeeds, and what the method does to the tables before it returns or raises. -/
structure Attempt (D α : Type) where
  others : D → D
  beginOk : Bool
  commitOk : Bool
  method : D → Except TErr α × D

section
variable {D α : Type}

/-- The loop of `wrapper` (storage_utils.py:61-76) on a file-backed database: every attempt has its own connection, which is
closed in the end (line 75). The list are the remaining attempts. -/
def txFile : List (Attempt D α) → D → Except TErr α × D
  | [], db => (.error .operational, db)
  | a :: rest, db =>
    let db := a.others db
    if a.beginOk then
      match a.method db with
      | (.ok x, db') => if a.commitOk then (.ok x, db') else txFile rest db
      | (.error .operational, _) => txFile rest db
      | (.error (.other e), _) => (.error (.other e), db)
    else txFile rest db

/-- The single connection of an in-memory database: the committed database, and the state inside of the open transaction. -/
structure MemConn (D : Type) where
  db : D
  pending : Option D
  deriving DecidableEq

/-- What a query on the connection sees. -/
def MemConn.visible (c : MemConn D) : D := c.pending.getD c.db

/-- The loop of `wrapper` (storage_utils.py:61-76) on an in-memory database: always the same connection, which is not closed
(lines 74-75); an `OperationalError` does not roll back (lines 67-71). Nobody else uses the database, so `others` and
`beginOk` play no role; `BEGIN` fails inside of a transaction. -/
def txMem : List (Attempt D α) → MemConn D → Except TErr α × MemConn D
  | [], c => (.error .operational, c)
  | a :: rest, c =>
    match c.pending with
    | some _ => txMem rest c
    | none =>
      match a.method c.db with
      | (.ok x, db') => if a.commitOk then (.ok x, ⟨db', none⟩) else txMem rest ⟨c.db, some db'⟩
      | (.error .operational, db') => txMem rest ⟨c.db, some db'⟩
      | (.error (.other e), _) => (.error (.other e), ⟨c.db, none⟩)

end

/-! ### a crash during a commit -/

/-- What is on disk: the tables (with the overflow files of `atoms` and so on). -/
structure Disk where
  atoms : SqlDict Val
  shapes : SqlDict Ref
  ops : SqlDict String
  calls : List Row

def St.disk (s : St) : Disk := ⟨s.atoms.pers, s.shapes.pers, s.ops.pers, s.calls.pers⟩

/-- Where the process dies: having written some of the dirty atoms (and possibly a part of the next overflow file, with the
given content), between the atoms and the end of the transaction, or after the end of the transaction. -/
inductive CrashPoint
  | inAtoms (written : Nat) (torn : Option (String × Val))
  | later
  | afterCommit

/-- A partly written overflow file: `joblib.dump` (storage_utils.py:155) opens the file under its final name. -/
def tear (p : SqlDict Val) : Option (String × Val) → SqlDict Val
  | none => p
  | some (k, junk) => { p with overflow := p.overflow.map fun j => Joblib.set j k junk }

/-- The disk after the process died during `commit`: the transaction is rolled back, overflow files stay. Only atoms can have
overflow files (storage.py:80-103). -/
def crash (cfg : Cfg) (s : St) : CrashPoint → Disk
  | .inAtoms n torn =>
    let p := (CachedDict.flush cfg.sizeA s.atoms.cache (s.atoms.dirty.take n) s.atoms.pers).2
    { s.disk with atoms := { tear p torn with rows := s.atoms.pers.rows } }
  | .later =>
    let p := (CachedDict.flush cfg.sizeA s.atoms.cache s.atoms.dirty s.atoms.pers).2
    { s.disk with atoms := { p with rows := s.atoms.pers.rows } }
  | .afterCommit => (commit cfg s).2.disk

end Verif
