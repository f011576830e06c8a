import Verif.Model.Tracer
/-!
The other dependency tracer: mandala/deps/tracers/sys_impl.py, which uses `sys.settrace`.

The input is the tree of the frames python runs (`SysRun`). Of python: the function given to `sys.settrace` is called with the event
`call` for each new frame; if it returns a function, this one gets the event `return` when the frame is left, normally or with an exception
(an exception of the code itself makes no difference to the tracer and is left out; a generator is a frame for each time it is resumed).
Other events are ignored (lines 88-89). An exception of the trace function comes out of the frame, and tracing is switched off.

Where a module is (lines 90-104, and `get_module_flow`, tracer_base.py:60-93) is given by `Place`.
-/
namespace Verif

/-- Where the module of a frame is: not among the paths of the tracer (`BREAK`), in mandala (`CONTINUE`), in the code of the user (`KEEP`). -/
inductive Place
  | outside
  | mandala
  | user
  deriving DecidableEq

/-- A global variable: name, hash (`none` if it cannot be hashed) and representation. -/
structure SysGlobal where
  name : String
  hash : Option String
  repr : String
  deriving DecidableEq

/-- What the tracer looks at in a frame: `co_name`, what `get_func_qualname` gives (deps/utils.py:211-247), the description of the code, whether
there are closure variables (tracer_base.py:53-57), the global variables among the names the code loads (lines 178-189), and, for `leaf_signal`, the
argument `data` (as the name of the node and the node). `catches`: the code of the frame catches any exception. -/
structure SysFrame where
  place : Place
  modul : String
  name : String
  qual : String
  runtime : String := ""
  closure : Bool := false
  globals : List SysGlobal := []
  data : Option (String × TNode) := none
  catches : Bool := false
  deriving DecidableEq

def SysFrame.key (c : SysFrame) : DKey := (c.modul, c.qual)

/-- A frame and the frames that are run from it, in order. -/
inductive SysRun
  | frame (c : SysFrame) (body : List SysRun)

/-- lines 25-30 -/
def leafSignal : String := "leaf_signal"
def skipFrames : List String := ["<listcomp>", "<dictcomp>", "<setcomp>", "<genexpr>", "<lambda>"]

/-- `SysTracer` (lines 33-47), with its graph (deps/model.py:298-302). On the stack are functions (`CallableNode`s) and names of skipped frames. The top of
the stack is the head. `active`: it is the function set by `sys.settrace`. -/
structure SysTracer where
  strict : Bool
  allowMethods : Bool
  stack : List (SysFrame ⊕ String)
  nodes : Dict DKey TNode
  edges : List (DKey × DKey)
  roots : List DKey
  active : Bool

namespace SysTracer

/-- the constructor and `__enter__` -/
def new (strict allowMethods : Bool) : SysTracer := ⟨strict, allowMethods, [], [], [], [], true⟩

/-- `DependencyGraph.add_node` (deps/model.py:321-322) -/
def addNode (t : SysTracer) (k : DKey) (n : TNode) : SysTracer := { t with nodes := t.nodes.set k n }

/-- `DependencyGraph.add_edge` (deps/model.py:324-329) -/
def addEdge (t : SysTracer) (k : DKey) (n : TNode) (k' : DKey) (n' : TNode) : SysTracer :=
  let t := if t.nodes.has k then t else t.addNode k n
  let t := if t.nodes.has k' then t else t.addNode k' n'
  { t with edges := PySet.add t.edges (k, k') }

/-- `CallableNode.from_runtime` (deps/model.py:100-111) -/
def node (c : SysFrame) : TNode := .callable none c.runtime

/-- lines 71-80 `find_most_recent_call` -/
def mostRecent : List (SysFrame ⊕ String) → Option SysFrame
  | [] => none
  | .inl c :: _ => some c
  | .inr _ :: l => mostRecent l

/-- `GlobalVarNode.from_obj` (deps/model.py:189-199), with `skip_unhashable=False` (line 186 does not pass it) -/
def globalNode (c : SysFrame) (g : SysGlobal) : Except Err (DKey × TNode) :=
  match g.hash with
  | some h => .ok ((c.modul, g.name), .globalVar h g.repr)
  | none => .error .runtimeError

/-- edges from a function to nodes (lines 196-199, 209-210) -/
def addAll (t : SysTracer) (c : SysFrame) (ns : List (DKey × TNode)) : SysTracer :=
  ns.foldl (fun t p => t.addEdge c.key (node c) p.1 p.2) t

/-- The event `call` (lines 87-222). The answer: whether the frame is traced, that is, whether there will be an event `return`. -/
def onCall (t : SysTracer) (c : SysFrame) : Except Err (SysTracer × Bool) :=
  /- lines 92-104 -/
  if c.place = .outside then .ok (t, false)
  /- lines 128-145 -/
  else if c.name = leafSignal then
    match c.data with
    | none => .error .keyError
    | some d => match mostRecent t.stack with
      | some p => .ok (t.addEdge p.key (node p) (c.modul, d.1) d.2, false)
      | none => .ok (t, false)
  /- lines 147-152 -/
  else if c.place = .mandala then .ok (t, false)
  /- lines 160-164 -/
  else if '.' ∈ c.qual.toList ∧ t.allowMethods = false then .error .runtimeError
  /- lines 166-176 -/
  else if c.closure ∧ c.name ∉ skipFrames ∧ t.strict then .error .runtimeError
  else do
    let gs ← c.globals.mapM (globalNode c)
    /- lines 191-201 -/
    if c.name ∈ skipFrames then
      match mostRecent t.stack with
      | none => .error .assertionError
      | some p => .ok ({ t.addAll p gs with stack := .inr c.name :: t.stack }, true)
    /- lines 203-221 -/
    else
      let t1 := (t.addNode c.key (node c)).addAll c gs
      let t2 := match mostRecent t.stack with
        | some p => t1.addEdge p.key (node p) c.key (node c)
        | none => t1
      .ok ({ t2 with stack := .inl c :: t.stack, roots := if t.stack = [] then PySet.add t2.roots c.key else t2.roots }, true)

/-- `obj_name.split(".")[-1]` -/
def lastPart (s : String) : String := String.ofList ((s.toList.reverse.takeWhile (· ≠ '.')).reverse)

/-- lines 65-69 `_process_failure` -/
def processFailure (t : SysTracer) : Except Err SysTracer := if t.strict then .error .runtimeError else .ok t

/-- The event `return` (lines 107-126) -/
def onReturn (t : SysTracer) (c : SysFrame) : Except Err SysTracer :=
  match t.stack with
  | [] => .error .runtimeError
  | x :: rest =>
    let t := { t with stack := rest }
    if c.name ∈ skipFrames then
      if x = .inr c.name then .ok t else t.processFailure
    else
      match x with
      | .inl p => if lastPart p.qual = c.name then .ok t else t.processFailure
      | .inr _ => .error .attributeError

mutual
/-- A frame is run: the exception of the tracer that comes out of it, if any, and the tracer. -/
def runFrame : SysRun → SysTracer → Option Err × SysTracer
  | .frame c body, t =>
    if t.active then
      match t.onCall c with
      | .error e => (some e, { t with active := false })
      | .ok (t1, on) =>
        match runFrames body t1 with
        | (some e, t2) => (if c.catches then none else some e, t2)
        | (none, t2) =>
          if on ∧ t2.active then
            match t2.onReturn c with
            | .ok t3 => (none, t3)
            | .error e => (some e, { t2 with active := false })
          else (none, t2)
    else (none, t)
/-- frames one after the other -/
def runFrames : List SysRun → SysTracer → Option Err × SysTracer
  | [], t => (none, t)
  | r :: rs, t =>
    match runFrame r t with
    | (some e, t') => (some e, t')
    | (none, t') => runFrames rs t'
end

/-- `with SysTracer(paths, strict=..., allow_methods=...) as tracer:` and a block -/
def trace (strict allowMethods : Bool) (rs : List SysRun) : Option Err × SysTracer := runFrames rs (new strict allowMethods)

/-- the parameters of `SysTracer.__init__` (lines 34-40) and of `DecTracer.__init__` (dec_impl.py:170-193) -/
def params : List String := ["paths", "graph", "strict", "allow_methods"]
def decParams : List String := ["paths", "graph", "strict", "allow_methods", "track_globals", "skip_unhashable_globals", "skip_globals_silently"]

/-- what `make_tracer` passes (versioner.py:142-150) -/
def makeArgs : List String := ["paths", "strict", "allow_methods", "track_globals", "skip_unhashable_globals", "skip_globals_silently"]

/-- a call of a constructor with these keyword arguments -/
def construct (params args : List String) : Except Err Unit := if args.all (· ∈ params) then .ok () else .error .typeError

/-- storage.py:817-819: the tracer of a versioned call of an op that is not structural; this is done whether or not the call is in the storage
(`none`: no tracer) -/
def tracerOption (params : List String) (mustVersion structural : Bool) : Except Err (Option Unit) :=
  if mustVersion ∧ ¬ structural then (construct params makeArgs).map some else .ok none

end SysTracer
end Verif
