import Verif.Basic.Dict
import Verif.Basic.Err
/-!
Contexts and modes: `Storage.__call__`, `__enter__`, `__exit__`, `mode` (storage.py:128-129, 159-161, 1205-1257), `noop`
(storage.py:1259-1283), `Context.current_context` (model.py:497-522), the dispatch in `Op.__call__` (model.py:244-249) and
`Storage.call` (storage.py:1175-1184).

The code that uses them is a tree of `with` blocks and op calls. `__exit__` does the same whether the block is left normally
or by an exception, and its `finally` clause runs whether or not `commit` raises; so exceptions are not visible here.
Entering a block is assumed not to fail (unversioned storages; a versioned storage can abort in `sync_code`). Exit hooks are
left out.
-/
namespace Verif

inductive Mode
  | run
  | noop
  deriving DecidableEq, Repr

/-- A storage object. -/
abbrev SId := Nat

/-- What happens: an op call (`none`: as a plain function; otherwise by `Storage.call` in that mode), a commit. -/
inductive CEvent
  | ran (op : Nat) (how : Option (SId × Mode))
  | commit (s : SId)
  deriving DecidableEq

/-- The code: an op call, `with storage:` or `with storage(mode=...):`, `with noop():` -/
inductive Code
  | op (i : Nat)
  | block (s : SId) (mode : Option Mode) (body : List Code)
  | noop (body : List Code)

/-- `Context.current_context`, and `_mode_stack` (top first) and `_next_mode` of every storage; `log` is a ghost. -/
structure CSt where
  current : Option SId
  stack : SId → List Mode
  next : SId → Mode
  log : List CEvent

namespace CSt

/-- no block entered yet (storage.py:128-129, model.py:499) -/
def init : CSt := ⟨none, fun _ => [], fun _ => .run, []⟩

/-- updating the attribute of one storage -/
def upd {α : Type} (f : SId → α) (s : SId) (a : α) : SId → α := fun t => if t = s then a else f t

/-- the property `mode` (storage.py:159-161) -/
def mode (c : CSt) (s : SId) : Mode :=
  match c.stack s with
  | [] => .run
  | m :: _ => m

/-- `__call__` (storage.py:1205-1207) -/
def configure (c : CSt) (s : SId) (m : Mode) : CSt := { c with next := upd c.next s m }

/-- `__enter__` (storage.py:1209-1216) -/
def enter (c : CSt) (s : SId) : CSt := { c with current := some s, stack := upd c.stack s (c.next s :: c.stack s) }

/-- `__exit__` (storage.py:1235-1257) -/
def exit (c : CSt) (s : SId) : CSt :=
  let c := if (c.stack s).length = 1 then { c with log := c.log ++ [.commit s], current := none } else c
  let st := (c.stack s).tail
  { c with stack := upd c.stack s st
           next := upd c.next s (match st with | [] => .run | m :: _ => m) }

/-- `Op.__call__` (model.py:244-249) and the mode test in `Storage.call` (storage.py:1175, 1184) -/
def callOp (c : CSt) (i : Nat) : CSt :=
  { c with log := c.log ++ [.ran i (match c.current with | none => none | some s => some (s, c.mode s))] }

/-- `noop.__enter__` (storage.py:1270-1275) -/
def noopEnter (c : CSt) : CSt :=
  match c.current with
  | none => c
  | some s => (c.configure s .noop).enter s

/-- `noop.__exit__` (storage.py:1277-1282) -/
def noopExit (c : CSt) : CSt :=
  match c.current with
  | none => c
  | some s => (c.configure s .run).exit s

mutual
/-- one statement -/
def run1 : Code → CSt → CSt
  | .op i, c => c.callOp i
  | .block s m body, c =>
    let c := match m with
      | none => c
      | some m => c.configure s m
    (runAll body (c.enter s)).exit s
  | .noop body, c => (runAll body c.noopEnter).noopExit
/-- one statement after the other -/
def runAll : List Code → CSt → CSt
  | [], c => c
  | x :: xs, c => runAll xs (run1 x c)
end

end CSt
end Verif
