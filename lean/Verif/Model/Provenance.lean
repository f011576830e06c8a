import Verif.Model.Storage
/-!
Model of the provenance queries of `mandala/storage.py` (lines 352-398, 436-483).
-/
namespace Verif

/-- keep the last occurrence of every element: the elements of a python set -/
def distinct : List String → List String
  | [] => []
  | x :: xs => if x ∈ xs then distinct xs else x :: distinct xs

/-- `get_creators` (storage.py:448-453) as far as call history ids go; outside of a context, on the database -/
def getCreators (s : St) (refs : List String) : List String := distinct (creatorHids s.calls.pers refs)

/-- `get_consumers` (storage.py:455-460) -/
def getConsumers (s : St) (refs : List String) : List String := distinct (consumerHids s.calls.pers refs)

/-- `get_ref_creator` (storage.py:439-446) -/
def getRefCreator (s : St) (h : String) : Except Err (Option String) :=
  match getCreators s [h] with
  | [] => .ok none
  | [c] => .ok (some c)
  | _ => .error .runtimeError

/-! ### the calls themselves -/

/-- `mget_call` (storage.py:352-398) with `in_memory=True`, as all callers have it. -/
def mgetCall (cfg : Cfg) (hids : List String) : M (List CallObj) := do
  let ds ← (fun s => (mgetCallData s.callCache s.calls.pers hids, s) : M (List CallData))
  M.mapM' (getCallFromData cfg) ds

/-- `get_creators` (storage.py:448-453). `ord` is the order in which the python set of ids is iterated; `inCtx` is
`self.in_context()`. The ids of the refs are given as a list: a generator would be used up by the first of the two iterations in
storage_utils.py:650-655. -/
def getCreatorCalls (cfg : Cfg) (ord : List String → List String) (inCtx : Bool) (refs : List String) : M (List CallObj) :=
  if inCtx then M.raise .notImplemented
  else do
    let hids ← M.read fun s => ord (getCreators s refs)
    mgetCall cfg hids

/-- `get_consumers` (storage.py:455-460) -/
def getConsumerCalls (cfg : Cfg) (ord : List String → List String) (inCtx : Bool) (refs : List String) : M (List CallObj) :=
  if inCtx then M.raise .notImplemented
  else do
    let hids ← M.read fun s => ord (getConsumers s refs)
    mgetCall cfg hids

/-- `get_ref_creator` (storage.py:439-446) -/
def getRefCreatorCall (cfg : Cfg) (ord : List String → List String) (inCtx : Bool) (h : String) : M (Option CallObj) := do
  match ← getCreatorCalls cfg ord inCtx [h] with
  | [] => M.pure none
  | [c] => M.pure (some c)
  | _ => M.raise .runtimeError

end Verif
