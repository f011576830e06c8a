import Verif.Model.Versioner
/-!
The dependency tracer: mandala/deps/tracers/dec_impl.py with `DependencyGraph` of mandala/deps/model.py (lines 298-331) and its use
in storage.py (lines 800-802, 868-879).

The input is what happens while the body of an op runs (`Act`): calls of `@track`ed functions, reads of global variables by
them, calls of other ops on the same versioned storage. Code that is not tracked is invisible to the tracer and left out.
Checks on accessed objects (dec_impl.py:57-91), closures (line 224-231) and printing are left out. A function that leaves
with an exception is followed by whatever the code that catches it does; an exception of the tracer itself is not caught.

The class attribute `TracerState.tracer` is the tracer of one op call or `None`. While a nested op runs, nothing touches the
tracer of the outer op (line 802 of storage.py sets `TracerState.tracer` to `None`, and the pending `register_return` calls
come later). So every op call has its own record `Tracer`, and `active` says whether `TracerState.tracer` is this tracer.
-/
namespace Verif

/-- `(module_name, obj_name)` -/
abbrev DKey := String × String

/-- A tracked function: `__module__`, `__qualname__`, and the description of its code object. -/
structure Fn where
  modul : String
  name : String
  runtime : String
  deriving DecidableEq

def Fn.key (f : Fn) : DKey := (f.modul, f.name)

/-- What the code does. `exc`: the function is left with an exception. `hit`: the nested op call is found in the storage. -/
inductive Act
  | call (fn : Fn) (body : List Act) (exc : Bool)
  | glob (name hash repr : String)
  | op (fn : Fn) (hit : Bool) (body : List Act) (exc : Bool)

/-- `DecTracer` (dec_impl.py:166-193) with its `DependencyGraph` (deps/model.py:298-302). `CallableNode`s are compared by
identity (line 264), so a node on the stack carries a number. The top of the stack is the head. -/
structure Tracer where
  stack : List (Nat × Fn)
  nodes : Dict DKey TNode
  edges : List (DKey × DKey)
  roots : List DKey
  active : Bool
  next : Nat
  deriving DecidableEq

namespace Tracer

/-- `DecTracer.__init__` and `__enter__` (lines 170-193, 290-292) -/
def new : Tracer := ⟨[], [], [], [], true, 0⟩

/-- `DependencyGraph.add_edge` (deps/model.py:325-330) -/
def addEdge (t : Tracer) (k : DKey) (n : TNode) (k' : DKey) (n' : TNode) : Tracer :=
  let nodes := if t.nodes.has k then t.nodes else t.nodes.set k n
  let nodes := if nodes.has k' then nodes else nodes.set k' n'
  { t with nodes := nodes, edges := PySet.add t.edges (k, k') }

/-- `CallableNode.from_runtime` (deps/model.py:100-111) -/
def node (f : Fn) : TNode := .callable none f.runtime

/-- `register_call` (lines 221-250); the number identifies the node object -/
def registerCall (t : Tracer) (f : Fn) : Tracer × Nat :=
  let t1 := { t with stack := (t.next, f) :: t.stack, nodes := t.nodes.set f.key (node f), next := t.next + 1 }
  let t2 := match t.stack with
    | [] => { t1 with roots := PySet.add t1.roots f.key }
    | (_, p) :: _ => t1.addEdge p.key (node p) f.key (node f)
  (t2, t.next)

/-- `register_global_access` (lines 252-262) -/
def registerGlobal (t : Tracer) (name hash repr : String) : Except Err Tracer :=
  match t.stack with
  | [] => .error .assertionError
  | (_, p) :: _ => .ok (t.addEdge p.key (node p) (p.modul, name) (.globalVar hash repr))

/-- `register_return` (lines 264-266) -/
def registerReturn (t : Tracer) (id : Nat) : Except Err Tracer :=
  match t.stack with
  | [] => .error .indexError
  | (id', _) :: rest => if id' = id then .ok { t with stack := rest } else .error .assertionError

/-- storage.py:872-875 with the wrapper of dec_impl.py:147-151: the op's function is registered by `call_internal` and once
more by the wrapper that `track` puts around it. -/
def enterOp (f : Fn) : Tracer := ((new.registerCall f).1.registerCall f).1

/-- dec_impl.py:152, storage.py:878-879: the two returns -/
def leaveOp (t : Tracer) : Except Err Tracer :=
  match t.registerReturn 1 with
  | .error e => .error e
  | .ok t' => t'.registerReturn 0

mutual
/-- One thing the code does. -/
def runAct : Act → Tracer → Except Err Tracer
  /- `TrackedDict.__getitem__`, lines 53-55, 74-75 -/
  | .glob name hash repr, t => if t.active then t.registerGlobal name hash repr else .ok t
  /- `wrapper`, lines 145-155; `tracer` is bound before the body runs -/
  | .call fn body exc, t =>
    if t.active then
      match runActs body (t.registerCall fn).1 with
      | .error e => .error e
      | .ok t' => if exc then .ok t' else t'.registerReturn (t.registerCall fn).2
    else runActs body t
  /- `call_internal`: the active tracer is removed (storage.py:802); `suspended_trace_obj` is never used again -/
  | .op fn hit body exc, t =>
    if hit then .ok { t with active := false }
    else
      match runActs body (enterOp fn) with
      | .error e => .error e
      | .ok t' =>
        if exc then .ok { t with active := false }
        else
          match leaveOp t' with
          | .error e => .error e
          | .ok _ => .ok { t with active := false }
/-- One thing after the other. -/
def runActs : List Act → Tracer → Except Err Tracer
  | [], t => .ok t
  | a :: as, t =>
    match runAct a t with
    | .error e => .error e
    | .ok t' => runActs as t'
end

/-- The trace of an op call that returns normally (storage.py:868-879). -/
def traceOp (f : Fn) (body : List Act) : Except Err Tracer :=
  match runActs body (enterOp f) with
  | .error e => .error e
  | .ok t => leaveOp t

end Tracer
end Verif
