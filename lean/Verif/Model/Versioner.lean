import Verif.Model.CodeHistory
import Verif.Model.SetDict
import Verif.Model.Value
/-!
Versions of calls: mandala/deps/versioner.py, mandala/deps/deep_versions.py, and the node classes of mandala/deps/model.py.

Simplifications: a dependency key `(module, name)` is one string (it is only compared, hashed and sorted); printing is left
out; loading objects and crawling the code base (`guess_code_state`, lines 152-175) is the environment's part, a code state is
an input; `is_recompute` is `False` as in the only call (storage.py:894); unused fields (`outputs` column) are dropped.
-/
namespace Verif

abbrev DepKey := String

/-- What the history of a component holds: the source of a function, or hash and short repr of a global variable
(deps/model.py:165-166 and 237-238). -/
inductive Content
  | code (source : String)
  | gv (hash repr : String)
  deriving DecidableEq

/-- `get_content_hash` of the two adapters (shallow_versions.py:108-109 and 130-131) -/
def Content.hash (H : Val → String) : Content → String
  | .code s => H (.str s)
  | .gv h _ => h

/-- `CallableNode` (its source may be unknown yet), `GlobalVarNode`, `TerminalNode` of deps/model.py -/
inductive TNode
  | callable (representation : Option String) (runtime : String)
  | globalVar (hash repr : String)
  | terminal (depKey : DepKey) (contentVersion : String)
  deriving DecidableEq

/-- `node.content()`; `none` where python has `None` or raises -/
def TNode.content : TNode → Option Content
  | .callable (some s) _ => some (.code s)
  | .callable none _ => none
  | .globalVar h r => some (.gv h r)
  | .terminal _ _ => none

/-- `CodeState.nodes`, versioner.py:30-32 -/
abbrev CodeState := Dict DepKey TNode

/-- `hash_dict`, deps/utils.py:188-189 -/
def hashDict (H : Val → String) {α : Type} (enc : α → Val) (d : Dict DepKey α) : String :=
  H (.list ((canon d).map fun p => .tuple [.str p.1, enc p.2]))

/-- `tuple(sorted(s))` as a value -/
def encSorted (s : List String) : Val := .tuple ((s.mergeSort fun a b => decide (a ≤ b)).map .str)

/-- A synced `Version`, deep_versions.py:14-46 -/
structure Version where
  component : DepKey
  directDeps : Dict DepKey String
  memoizedDeps : Dict DepKey (List String)
  contentExpansion : Dict DepKey (List String)
  contentVersion : String
  semanticExpansion : Dict DepKey String
  semanticVersion : String
  deriving DecidableEq

/-- A row of `Versioner.df`, versioner.py:81-88 -/
structure VRow where
  preCallUid : String
  semanticVersion : String
  contentVersion : String
  deriving DecidableEq

/-- `Versioner`, versioner.py:50-88 -/
structure Versioner where
  strict : Bool
  topology : Dict DepKey TNode
  topologyEdges : List (DepKey × DepKey)
  nodes : Dict DepKey TNode
  dags : Dict DepKey (Dag String Content)
  versions : Dict DepKey (Dict String Version)
  df : List VRow
  deriving DecidableEq

namespace Versioner

/-- a fresh versioner -/
def empty (strict : Bool) : Versioner := ⟨strict, [], [], [], [], [], []⟩

variable (H : Val → String)

/-- `node.content_hash` (deps/model.py:171-174, 240-243): asserts that the source is known -/
def contentHash (n : TNode) : Except Err String :=
  match n.content with
  | some c => .ok (c.hash H)
  | none => .error .assertionError

/-- `Versioner.get_codestate_semantic_hashes`, lines 184-203: the loop over the code state -/
def semanticHashesLoop (s : Versioner) : List (DepKey × TNode) → Dict DepKey String → Except Err (Option (Dict DepKey String))
  | [], result => .ok (some result)
  | (k, n) :: rest, result =>
    if s.topology.has k then
      match contentHash H n with
      | .error e => .error e
      | .ok h =>
        match s.dags.get? k with
        | none => .error .keyError
        | some dag =>
          match dag.commits.get? h with
          | none => .ok none
          | some c => semanticHashesLoop s rest (result.set k c.semanticHash)
    else semanticHashesLoop s rest result

/-- `Versioner.get_codestate_semantic_hashes`, lines 177-203 -/
def codestateSemanticHashes (s : Versioner) (cs : CodeState) : Except Err (Option (Dict DepKey String)) :=
  if s.topology.keys.all cs.has then semanticHashesLoop H s cs [] else .error .valueError

/-- `{k: semantic_hashes[k] for k in support}`, lines 250-253 -/
def restrict (hashes : Dict DepKey String) : List DepKey → Except Err (Dict DepKey String)
  | [] => .ok []
  | k :: ks =>
    match hashes.get? k with
    | none => .error .keyError
    | some h =>
      match restrict hashes ks with
      | .error e => .error e
      | .ok d => .ok ((k, h) :: d)

/-- `Versioner.lookup_call`, lines 395-404: the loop over the candidate rows -/
def lookupLoop (hashes : Dict DepKey String) (vs : Dict String Version) : List VRow → Except Err (Option (String × String))
  | [] => .ok none
  | r :: rest =>
    match vs.get? r.contentVersion with
    | none => .error .keyError
    | some v =>
      match restrict hashes v.contentExpansion.keys with
      | .error e => .error e
      | .ok d =>
        if hashDict H .str d = r.semanticVersion then .ok (some (r.contentVersion, r.semanticVersion))
        else lookupLoop hashes vs rest

/-- `Versioner.lookup_call`, lines 367-405 -/
def lookupCall (s : Versioner) (component : DepKey) (uid : String) (cs : CodeState) : Except Err (Option (String × String)) :=
  match codestateSemanticHashes H s cs with
  | .error e => .error e
  | .ok none => .ok none
  | .ok (some hashes) =>
    match s.df.filter (fun r => r.preCallUid = uid) with
    | [] => .ok none
    | rows =>
      match s.versions.get? component with
      | none => .error .keyError
      | some vs => lookupLoop H hashes vs rows

/-- `Versioner.apply_state_hypothesis`, lines 209-246: one node; `none` when it is to be removed -/
def hypNode (strict : Bool) (hyp : CodeState) (k : DepKey) (n : TNode) : Except Err (Option TNode) :=
  match n with
  | .terminal _ _ => .ok (some n)
  | .globalVar _ _ =>
    match hyp.get? k with
    | none => .ok (some n)
    | some hn => if hn.content = n.content then .ok (some n) else .error .valueError
  | .callable _ rt =>
    match hyp.get? k with
    | none => if strict then .error .valueError else .ok none
    | some (.callable rep rt') =>
      if rt' ≠ rt && strict then .error .valueError
      else
        match rep with
        | none => .error .assertionError
        | some src => .ok (some (.callable (some src) rt))
    | some _ => .error .attributeError

/-- `Versioner.apply_state_hypothesis`, lines 205-248: the trace with the sources filled in -/
def applyHypothesis (strict : Bool) (hyp : CodeState) : List (DepKey × TNode) → Except Err (List (DepKey × TNode))
  | [] => .ok []
  | (k, n) :: rest =>
    match hypNode strict hyp k n with
    | .error e => .error e
    | .ok o =>
      match applyHypothesis strict hyp rest with
      | .error e => .error e
      | .ok rest' => .ok (match o with | none => rest' | some n' => (k, n') :: rest')

/-- `Versioner.update_global_topology`, lines 131-140 -/
def updateTopology (s : Versioner) (trace : Dict DepKey TNode) (edges : List (DepKey × DepKey)) : Versioner :=
  let nodes := trace.foldl (fun acc p => match p.2 with | .terminal _ _ => acc | n => acc.set p.1 n) s.topology
  { s with topology := nodes
           topologyEdges := edges.foldl (fun acc e => if nodes.has e.1 && nodes.has e.2 then PySet.add acc e else acc) s.topologyEdges }

/-- `CodeState.add_globals_from`, lines 44-47 -/
def addGlobals (cs : CodeState) (trace : Dict DepKey TNode) : CodeState :=
  trace.foldl (fun acc p => match p.2 with | .globalVar h r => if acc.has p.1 then acc else acc.set p.1 (.globalVar h r) | _ => acc) cs

/-- `Versioner.init_component`, lines 255-272 -/
def initComponent (s : Versioner) (k : DepKey) (n : TNode) (c : Content) : Versioner :=
  match Dag.init (Content.hash H) Dag.new c with
  | .error _ => s
  | .ok r => { s with nodes := s.nodes.set k n, dags := s.dags.set k r.1, versions := s.versions.set k [] }

/-- `Versioner.create_new_components_from_nodes`, lines 345-356. A function whose source is unknown fails the assertion in
`Commit`. -/
def createComponents (s : Versioner) : List (DepKey × TNode) → Res Versioner Unit
  | [] => (.ok (), s)
  | (k, n) :: rest =>
    match n with
    | .terminal _ _ => createComponents s rest
    | n =>
      if s.nodes.has k then createComponents s rest
      else
        match n.content with
        | none => (.error .assertionError, s)
        | some c => createComponents (initComponent H s k n c) rest

/-- `Version.from_trace`, deep_versions.py:53-76: the commits of the direct dependencies -/
def directDeps : List (DepKey × TNode) → Dict DepKey String → Except Err (Dict DepKey String)
  | [], acc => .ok acc
  | (k, n) :: rest, acc =>
    match n with
    | .terminal _ _ => directDeps rest acc
    | n =>
      match contentHash H n with
      | .error e => .error e
      | .ok h => directDeps rest (acc.set k h)

/-- `Version.from_trace`: the pointers to versions of memoized calls -/
def memoizedDeps (trace : List (DepKey × TNode)) : Dict DepKey (List String) :=
  trace.foldl (fun acc p => match p.2 with | .terminal k cv => acc.set k (PySet.add (getOr acc k) cv) | _ => acc) []

/-- All `(component, content version)` pairs the version points to, in iteration order. -/
def pointers (memo : Dict DepKey (List String)) : List (DepKey × String) := memo.flatMap fun p => p.2.map fun cv => (p.1, cv)

/-- `all_versions[dep_key][content_version]` -/
def getVersion (versions : Dict DepKey (Dict String Version)) (k : DepKey) (cv : String) : Except Err Version :=
  match versions.get? k with
  | none => .error .keyError
  | some vs => match vs.get? cv with | none => .error .keyError | some v => .ok v

/-- `Version._set_content_expansion`, deep_versions.py:81-96: following the pointers -/
def contentExpansionLoop (versions : Dict DepKey (Dict String Version)) : List (DepKey × String) → Dict DepKey (List String) →
    Except Err (Dict DepKey (List String))
  | [], acc => .ok acc
  | (k, cv) :: rest, acc =>
    match getVersion versions k cv with
    | .error e => .error e
    | .ok v => contentExpansionLoop versions rest (v.contentExpansion.foldl (fun acc p => acc.set p.1 (PySet.union (getOr acc p.1) p.2)) acc)

/-- `Version._set_semantic_expansion`, deep_versions.py:106-117: own dependencies -/
def semanticDirect (dags : Dict DepKey (Dag String Content)) : List (DepKey × String) → Dict DepKey String → Except Err (Dict DepKey String)
  | [], acc => .ok acc
  | (k, h) :: rest, acc =>
    match dags.get? k with
    | none => .error .keyError
    | some dag =>
      match dag.commits.get? h with
      | none => .error .keyError
      | some c => semanticDirect dags rest (acc.set k c.semanticHash)

/-- `Version._set_semantic_expansion`, lines 118-136: following the pointers -/
def semanticPointers (versions : Dict DepKey (Dict String Version)) : List (DepKey × String) → Dict DepKey String → Except Err (Dict DepKey String)
  | [], acc => .ok acc
  | (k, cv) :: rest, acc =>
    match getVersion versions k cv with
    | .error e => .error e
    | .ok v =>
      if v.semanticExpansion.any (fun p => match acc.get? p.1 with | none => false | some s => s ≠ p.2) then .error .valueError
      else semanticPointers versions rest (acc.update v.semanticExpansion)

/-- `Version.from_trace` and `Version.sync`, deep_versions.py:53-152 -/
def makeVersion (s : Versioner) (component : DepKey) (trace : List (DepKey × TNode)) : Except Err Version :=
  match directDeps H trace [] with
  | .error e => .error e
  | .ok direct =>
    let memo := memoizedDeps trace
    match contentExpansionLoop s.versions (pointers memo) (direct.map fun p => (p.1, [p.2])) with
    | .error e => .error e
    | .ok ce =>
      match semanticDirect s.dags direct [] with
      | .error e => .error e
      | .ok sd =>
        match semanticPointers s.versions (pointers memo) sd with
        | .error e => .error e
        | .ok se => .ok ⟨component, direct, memo, ce, hashDict H encSorted ce, se, hashDict H .str se⟩

/-- `Versioner.sync_version`, lines 358-365: keep the version unless one with this content version is there -/
def storeVersion (s : Versioner) (v : Version) : Except Err Versioner :=
  match s.versions.get? v.component with
  | none => .error .keyError
  | some vs =>
    if vs.has v.contentVersion then .ok s
    else .ok { s with versions := s.versions.set v.component (vs.set v.contentVersion v) }

/-- `Versioner._check_semantic_distinguishability`, lines 441-449: one semantic expansion per semantic version of the call -/
def existingExpansions (vs : Dict String Version) : List VRow → Dict String (Dict DepKey String) → Except Err (Dict String (Dict DepKey String))
  | [], acc => .ok acc
  | r :: rest, acc =>
    if acc.has r.semanticVersion then existingExpansions vs rest acc
    else
      match vs.get? r.contentVersion with
      | none => .error .keyError
      | some v => existingExpansions vs rest (acc.set r.semanticVersion v.semanticExpansion)

/-- lines 451-458: the two expansions agree wherever both are defined -/
def agree (a b : Dict DepKey String) : Bool :=
  a.all fun p => match b.get? p.1 with | none => true | some s => decide (a.get? p.1 = some s)

/-- `Versioner._check_semantic_distinguishability`, lines 434-458 -/
def checkDistinguishable (s : Versioner) (component : DepKey) (uid : String) (v : Version) : Except Err Unit :=
  match s.df.filter (fun r => r.preCallUid = uid) with
  | [] => .ok ()
  | rows =>
    match s.versions.get? component with
    | none => .error .keyError
    | some vs =>
      match existingExpansions vs rows [] with
      | .error e => .error e
      | .ok ex => if ex.any (fun p => agree p.2 v.semanticExpansion) then .error .valueError else .ok ()

/-- `Versioner.process_trace`, lines 407-432 -/
def processTrace (s : Versioner) (roots : List DepKey) (trace : List (DepKey × TNode)) (uid : String) : Res Versioner Version :=
  match roots with
  | [component] =>
    match createComponents H s trace with
    | (.error e, s1) => (.error e, s1)
    | (.ok (), s1) =>
      match makeVersion H s1 component trace with
      | .error e => (.error e, s1)
      | .ok v =>
        match storeVersion s1 v with
        | .error e => (.error e, s1)
        | .ok s2 =>
          match checkDistinguishable s2 component uid v with
          | .error e => (.error e, s2)
          | .ok () => (.ok v, { s2 with df := s2.df ++ [⟨uid, v.semanticVersion, v.contentVersion⟩] })
  | _ => (.error .valueError, s)

/-- `Versioner.sync_codebase`, lines 274-295: the loop over a deep copy of the histories. The user's answer may depend on
the component. -/
def syncDags (cs : CodeState) (answer : DepKey → Answer) : List (DepKey × Dag String Content) → Except Err (Dict DepKey (Dag String Content))
  | [] => .ok []
  | (k, dag) :: rest =>
    match cs.get? k with
    | none => .error .keyError
    | some n =>
      match n.content with
      | none => .error .attributeError
      | some c =>
        match dag.sync (Content.hash H) c none (answer k) with
        | .error e => .error e
        | .ok r =>
          match syncDags cs answer rest with
          | .error e => .error e
          | .ok ds => .ok ((k, r.1) :: ds)

/-- `Versioner.sync_codebase`, lines 274-295: the copies are installed only at the end -/
def syncCodebase (s : Versioner) (cs : CodeState) (answer : DepKey → Answer) : Res Versioner Unit :=
  match syncDags H cs answer s.dags with
  | .error e => (.error e, s)
  | .ok ds => (.ok (), { s with dags := ds })

/-- `Versioner.drop_semantic_version`, lines 90-104 -/
def dropSemanticVersion (s : Versioner) (sv : String) : Versioner :=
  { s with df := s.df.filter (fun r => r.semanticVersion ≠ sv)
           versions := s.versions.map fun p => (p.1, p.2.filter fun q => q.2.semanticVersion ≠ sv) }

end Versioner

/-! ### a versioned storage, as far as versions are concerned -/

/-- The versioner and the code state of the current context (storage.py:1212-1215). -/
structure VSt where
  versioner : Versioner
  codeState : CodeState
  deriving DecidableEq

/-- What happens to the versioner. -/
inductive VEvent
  /-- entering a context: `sync_code`, storage.py:966-972 -/
  | enter (cs : CodeState) (answer : DepKey → Answer)
  /-- the body of an op has been executed under a tracer: storage.py:881-898 -/
  | executed (uid : String) (roots : List DepKey) (trace : Dict DepKey TNode) (edges : List (DepKey × DepKey))
  /-- `drop_version`, storage.py:1131-1133 -/
  | dropVersion (sv : String)

/-- storage.py:881-898: check the trace, extend topology and code state, register the version -/
def VSt.executed (H : Val → String) (st : VSt) (uid : String) (roots : List DepKey) (trace : Dict DepKey TNode) (edges : List (DepKey × DepKey)) :
    Res VSt Version :=
  match Versioner.applyHypothesis st.versioner.strict st.codeState trace with
  | .error e => (.error e, st)
  | .ok trace' =>
    let s1 := st.versioner.updateTopology trace' edges
    let cs1 := Versioner.addGlobals st.codeState trace'
    match Versioner.processTrace H s1 roots trace' uid with
    | (r, s2) => (r, ⟨s2, cs1⟩)

/-- One event; exceptions leave what was mutated before. If `sync_code` fails on entering, the versioner is unchanged and no
code state is set (the old one, if any, stays). -/
def VSt.step (H : Val → String) (st : VSt) : VEvent → VSt
  | .enter cs answer =>
    match st.versioner.syncCodebase H cs answer with
    | (.ok (), s) => ⟨s, cs⟩
    | (.error _, s) => ⟨s, st.codeState⟩
  | .executed uid roots trace edges => (st.executed H uid roots trace edges).2
  | .dropVersion sv => ⟨st.versioner.dropSemanticVersion sv, st.codeState⟩

def VSt.run (H : Val → String) (st : VSt) (evs : List VEvent) : VSt := evs.foldl (VSt.step H) st

/-! ### together with the recorded calls -/

/-- The versioner and the recorded calls. A call is found by the hash of op, input contents and semantic version
(storage.py:668-693), that is by the pair of pre-call id and semantic version. -/
structure VStore where
  st : VSt
  calls : List (String × String)
  deriving DecidableEq

/-- Executing and recording, storage.py:836-936. Returns the semantic version. -/
def VStore.execute (H : Val → String) (s : VStore) (component : DepKey) (uid : String) (trace : Dict DepKey TNode) (edges : List (DepKey × DepKey)) :
    Res VStore (Bool × String) :=
  match s.st.executed H uid [component] trace edges with
  | (.error e, st') => (.error e, { s with st := st' })
  | (.ok v, st') => (.ok (true, v.semanticVersion), ⟨st', s.calls ++ [(uid, v.semanticVersion)]⟩)

/-- `lookup_call` (storage.py:639-695) in a versioned storage followed by execution if nothing was found (lines 808-936).
The trace is what an execution would leave. Returns whether the op was executed, and the semantic version. -/
def VStore.call (H : Val → String) (s : VStore) (component : DepKey) (uid : String) (trace : Dict DepKey TNode) (edges : List (DepKey × DepKey)) :
    Res VStore (Bool × String) :=
  match s.st.versioner.lookupCall H component uid s.st.codeState with
  | .error e => (.error e, s)
  | .ok none => s.execute H component uid trace edges
  | .ok (some (_, sv)) => if (uid, sv) ∈ s.calls then (.ok (false, sv), s) else s.execute H component uid trace edges

/-- `drop_calls`, storage.py:403-434: the versioner is not touched -/
def VStore.dropCall (s : VStore) (uid sv : String) : VStore := { s with calls := s.calls.filter fun p => p ≠ (uid, sv) }

/-- `drop_version`, storage.py:1116-1133, for calls without dependents -/
def VStore.dropVersion (s : VStore) (sv : String) : VStore :=
  ⟨⟨s.st.versioner.dropSemanticVersion sv, s.st.codeState⟩, s.calls.filter fun p => p.2 ≠ sv⟩

end Verif
