import Verif.Model.Versioner
import Verif.Model.Tracer
/-!
How the current code is found: `Versioner.guess_code_state` (deps/versioner.py lines 152-175), deps/crawler.py, and what they use of
deps/utils.py, deps/model.py and utils.py.

The objects of the python process are a heap: an address stands for an object, `PyProc` says what it is. Left out: attributes of functions and
of instances (`load_obj` does not find them), the text normalisation of `represent` (lines are stripped, `source` is the result), log output.
Paths are given as the modules that they stand for, in the order in which they are visited.
-/
namespace Verif

abbrev Addr := Nat

/-- What has a `__wrapped__` without being a function (python 3.10 and later) -/
inductive Wrapping
  | static
  | clsmethod
  /-- other callable objects, such as those made by `functools.lru_cache` -/
  | caller
  deriving DecidableEq

/-- Python objects, as far as the crawler tells them apart -/
inductive PyObj
  /-- `types.FunctionType`; `source` is what `inspect.getsource` finds, if anything -/
  | func (modul qualname : String) (source : Option String) (runtime : String) (wrapped : Option Addr)
  /-- `Op` -/
  | op (f : Addr)
  /-- a class: its own `__dict__`, and what it inherits -/
  | cls (modul : String) (attrs inherited : Dict String Addr)
  | wrapping (kind : Wrapping) (f : Addr)
  | property (fget : Addr)
  /-- `types.BuiltinFunctionType` -/
  | builtin
  /-- anything else -/
  | other (callable : Bool)
  deriving DecidableEq

structure PyProc where
  obj : Addr → PyObj
  /-- `get_content_hash`, the content id of a `Ref`; `none` when hashing raises -/
  hash : Addr → Option String
  /-- `textwrap.shorten(repr(obj))` -/
  repr : Addr → String
  /-- the modules that can be imported, with their `__dict__` -/
  modules : Dict String (Dict String Addr)
  /-- `unknown_function`, deps/utils.py lines 173-176 -/
  unknown : Addr
  /-- `UNKNOWN_GLOBAL_VAR`, deps/utils.py line 179 -/
  unknownGlobal : Addr

/-- `name.split(".")` -/
def splitDots (name : String) : List String :=
  (name.toList.foldr (fun c (acc : List (List Char)) => match acc with
    | [] => []
    | w :: ws => if c = '.' then [] :: w :: ws else (c :: w) :: ws) [[]]).map String.ofList

namespace PyProc

variable (w : PyProc)

/-- `unwrap_decorators` without the check, utils.py lines 281-282. A cycle of `__wrapped__` would never end. -/
def unwrap : Nat → Addr → Except Err Addr
  | 0, _ => .error .unmodelled
  | n + 1, a =>
    match w.obj a with
    | .func _ _ _ _ (some b) => unwrap n b
    | .wrapping _ b => unwrap n b
    | _ => .ok a

/-- `is_callable_obj`, deps/utils.py lines 89-96 -/
def isCallableObj (strict : Bool) (a : Addr) : Bool :=
  match w.obj a with
  | .op _ => true
  | .func .. => true
  | .cls .. => !strict
  | .wrapping .clsmethod _ => false
  | .wrapping _ _ => !strict
  | .property _ => false
  | .builtin => !strict
  | .other c => !strict && c

/-- attribute of a class, as `getattr` finds it before binding -/
def attr (attrs inherited : Dict String Addr) (x : String) : Option Addr :=
  match attrs.get? x with
  | some a => some a
  | none => inherited.get? x

/-- `extract_func_obj`, deps/utils.py lines 99-117 -/
def extractFunc (fuel : Nat) (strict : Bool) (a : Addr) : Except Err Addr :=
  match w.obj a with
  | .op f => .ok f
  | _ =>
    match w.unwrap fuel a with
    | .error e => .error e
    | .ok b =>
      match w.obj b with
      | .func .. => .ok b
      | .builtin => if strict then .error .runtimeError else .error .valueError
      | .cls _ attrs inherited =>
        if strict then .error .runtimeError
        else
          match attr attrs inherited "__init__" with
          | none => .ok w.unknown
          | some i => match w.obj i with | .func .. => .ok i | _ => .ok w.unknown
      | _ => if strict then .error .runtimeError else .ok w.unknown

/-- `CallableNode.from_obj`, deps/model.py lines 90-101, with `represent` (137-163) and `extract_code` (deps/utils.py lines 120-129): both look
at the innermost function; a property has no source -/
def callableNode (fuel : Nat) (a : Addr) : Except Err TNode :=
  let b := match w.obj a with | .op f => f | _ => a
  match w.unwrap fuel b with
  | .error e => .error e
  | .ok c =>
    match w.obj c with
    | .func _ _ (some s) rt _ => .ok (.callable (some s) rt)
    | _ => .error .runtimeError

/-- `GlobalVarNode.from_obj` and `represent`, deps/model.py lines 191-230 -/
def globalNode (skipUnhashable : Bool) (a : Addr) : Except Err TNode :=
  match w.hash a with
  | some h => .ok (.globalVar h (w.repr a))
  | none => if skipUnhashable then .ok (.globalVar "UNKNOWN_GLOBAL_VAR" (w.repr a)) else .error .runtimeError

/-- The function part of `crawl_obj`, deps/crawler.py lines 27-37: the table, and whether `crawl_obj` has returned -/
def crawlFunc (fuel : Nat) (strict : Bool) (modul : String) (a : Addr) (acc : Dict DKey TNode) : Except Err (Dict DKey TNode × Bool) :=
  if w.isCallableObj strict a then
    match w.unwrap fuel a with
    | .error e => .error e
    | .ok b =>
      if w.obj b = .builtin then .ok (acc, true)
      else
        match w.extractFunc fuel strict a with
        | .error e => .error e
        | .ok v =>
          match w.obj v with
          | .func m q _ _ _ =>
            if v ≠ w.unknown ∧ m ≠ modul then .ok (acc, true)
            else
              match w.callableNode fuel v with
              | .error e => .error e
              | .ok n => .ok (acc.set (modul, q) n, false)
          | _ => .error .attributeError
  else .ok (acc, false)

/-- for loops whose body may raise -/
def foldE {α β : Type} (f : β → α → Except Err β) : β → List α → Except Err β
  | b, [] => .ok b
  | b, x :: xs => match f b x with | .error e => .error e | .ok b' => foldE f b' xs

/-- `crawl_obj`, deps/crawler.py lines 16-51, with `include_methods` (always so in a storage, storage.py line 108); the number bounds the
depth of the recursion -/
def crawlObj (fuel : Nat) (strict : Bool) (modul : String) : Nat → Dict DKey TNode → Addr → Except Err (Dict DKey TNode)
  | 0, _, _ => .error .recursionError
  | n + 1, acc, a =>
    match w.crawlFunc fuel strict modul a acc with
    | .error e => .error e
    | .ok (acc', true) => .ok acc'
    | .ok (acc', false) =>
      match w.obj a with
      | .cls m attrs _ => if m ≠ modul then .ok acc' else foldE (crawlObj fuel strict modul n) acc' (attrs.map (·.2))
      | _ => .ok acc'

/-- `crawl_static`, deps/crawler.py lines 54-109 -/
def crawlStatic (fuel : Nat) (strict : Bool) (mods : List String) : Except Err (Dict DKey TNode) :=
  foldE (fun acc m =>
    match w.modules.get? m with
    | none => if strict then .error .valueError else .ok acc
    | some d => foldE (w.crawlObj fuel strict m fuel) acc (d.map (·.2))) [] mods

/-- what `getattr` makes of what it finds in a class: static methods and class methods are bound -/
def bound (a : Addr) : Addr :=
  match w.obj a with
  | .wrapping .static f => f
  | .wrapping .clsmethod f => f
  | _ => a

/-- the loop of `load_obj` over the remaining parts -/
def loadIn : Addr → List String → Option Addr
  | a, [] => some a
  | a, x :: xs =>
    match w.obj a with
    | .cls _ attrs inherited =>
      match attr attrs inherited x with
      | none => none
      | some b => loadIn (w.bound b) xs
    | _ => none

/-- `load_obj`, deps/utils.py lines 192-203; a failing import raises its own exception -/
def loadObj (k : DKey) : Except Err (Option Addr) :=
  match w.modules.get? k.1 with
  | none => .error (.userError 1)
  | some d =>
    match splitDots k.2 with
    | [] => .ok none
    | x :: xs => match d.get? x with | none => .ok none | some a => .ok (w.loadIn a xs)

/-- The first loop of `guess_code_state`, versioner.py lines 155-163: `node.load_obj` (deps/model.py lines 54-69) and `from_obj`, one component -/
def currentNode (fuel : Nat) (skipMissing : Bool) (k : DKey) (n : TNode) : Except Err TNode :=
  match w.loadObj k with
  | .error e => .error e
  | .ok o =>
    match n with
    | .callable _ _ =>
      match o with
      | some a => w.callableNode fuel a
      | none => if skipMissing then w.callableNode fuel w.unknown else .error .valueError
    | .globalVar _ _ =>
      match o with
      | some a => w.globalNode false a
      | none => if skipMissing then w.globalNode false w.unknownGlobal else .error .valueError
    | .terminal _ _ => .error .unmodelled

/-- the first loop of `guess_code_state` -/
def currentNodes (fuel : Nat) (skipMissing : Bool) (parts : DepKey → DKey) (topology : Dict DepKey TNode) : Except Err CodeState :=
  foldE (fun acc p => match w.currentNode fuel skipMissing (parts p.1) p.2 with | .error e => .error e | .ok n => .ok (acc.set p.1 n)) [] topology

/-- `guess_code_state`, versioner.py lines 152-175 -/
def guessCodeState (fuel : Nat) (strict skipMissing : Bool) (mods : List String) (parts : DepKey → DKey) (enc : DKey → DepKey)
    (topology : Dict DepKey TNode) : Except Err CodeState :=
  match w.currentNodes fuel skipMissing parts topology with
  | .error e => .error e
  | .ok cs =>
    match w.crawlStatic fuel strict mods with
    | .error e => .error e
    | .ok st => .ok (st.foldl (fun acc p => if acc.has (enc p.1) then acc else acc.set (enc p.1) p.2) cs)

end PyProc
end Verif
