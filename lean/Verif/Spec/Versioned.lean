import Verif.Model.VersionedRun
import Verif.Props.Tracer
/-!
What is expected of the code and of the user of a versioned storage, for its answers to be right.
-/
namespace Verif.Props

open Verif Tracer

variable {V M : Type} (H : Val → String) (enc : DKey → DepKey) (ops : Ops V)

/-- In an execution of the call, the component is used: it is the op itself, or a function it enters or a global variable it reads,
directly or through others. -/
def Needs (src : Source) (uid : String) (k : DepKey) : Prop :=
  k = enc (ops.key uid) ∨ ∃ x d, Uses (ops.fn enc src uid) (ops.acts src uid) x d ∧ k = enc d

/-- What the component does or is worth, as far as it is of any importance; `sem` says this for each content (source or hash of the value). -/
def meaningOf (sem : DepKey → String → M) (src : Source) (k : DepKey) : Option M :=
  ((src k).bind TNode.content).map fun c => sem k (c.hash H)

/-- The execution is visible to the tracer: no other op is called, no exception is caught, and what is executed is the code in `src`. -/
structure Visible (src : Source) (uid : String) : Prop where
  calm : calmAll (ops.acts src uid) = true
  plain : plainAll (ops.acts src uid) = true
  self : ∃ text rt, src (enc (ops.key uid)) = some (.callable (some text) rt)
  seen : ∀ k n, Seen (ops.fn enc src uid) (ops.acts src uid) k n → match n with
    | .callable _ rt => ∃ text, src (enc k) = some (.callable (some text) rt)
    | .globalVar h r => src (enc k) = some (.globalVar h r)
    | .terminal _ _ => False

/-- What a call uses and returns is determined by the meaning of what it uses: two executions of it that have found the same meaning in all
that both have used have used the same and returned the same. -/
def Determined (sem : DepKey → String → M) : Prop :=
  ∀ src src' uid, Visible enc ops src uid → Visible enc ops src' uid →
    (∀ k, Needs enc ops src uid k → Needs enc ops src' uid k → meaningOf H sem src k = meaningOf H sem src' k) →
    (∀ k, Needs enc ops src uid k ↔ Needs enc ops src' uid k) ∧ ops.value src uid = ops.value src' uid

/-- What `guess_code_state` finds in the source: nothing but what is there, and all functions. -/
structure Crawled (src : Source) (cs : CodeState) : Prop where
  nodup : cs.keys.Nodup
  sub : ∀ k n, cs.get? k = some n → src k = some n
  funs : ∀ k text rt, src k = some (.callable (some text) rt) → k ∈ cs.keys

/-- The user says that a change does not matter only if the meaning stays the same. -/
def Honest (sem : DepKey → String → M) (s : VRun V) (cs : CodeState) (answer : DepKey → Answer) : Prop :=
  ∀ k d h n c, s.st.versioner.dags.get? k = some d → d.head = some h → cs.get? k = some n → n.content = some c → answer k = .no →
    sem k h = sem k (c.hash H)

/-- How the storage is to be used: the code is changed only outside of contexts; entering a context finds the code as it is, succeeds,
and the user answers honestly; blocks that are left have been entered; the executions of the calls are visible to the tracer. -/
def Proper (sem : DepKey → String → M) (s : VRun V) : VRun.Cmd → Prop
  | .change _ => s.depth = 0
  | .enter cs answer => Crawled s.src cs ∧ Honest H sem s cs answer ∧ (VRun.enter H s cs answer).1 = .ok ()
  | .exit => 0 < s.depth
  | .call uid => Visible enc ops s.src uid
  | .dropCalls _ => True
  | .dropVersion _ _ => True

/-- All of the session is proper. -/
def ProperAll (sem : DepKey → String → M) : VRun V → List VRun.Cmd → Prop
  | _, [] => True
  | s, c :: cs => Proper H enc ops sem s c ∧ ProperAll sem (VRun.step H enc ops s c) cs

/-- Nothing but whole versions is dropped: recorded calls are dropped only together with their version. -/
def OnlyVersions : List VRun.Cmd → Prop
  | [] => True
  | .dropCalls _ :: _ => False
  | .dropVersion _ dependents :: cs => dependents = [] ∧ OnlyVersions cs
  | _ :: cs => OnlyVersions cs

/-- Nothing is dropped. -/
def NoDrops : List VRun.Cmd → Prop
  | [] => True
  | .dropCalls _ :: _ => False
  | .dropVersion _ _ :: _ => False
  | _ :: cs => NoDrops cs

/-- All that an execution of the call with the code `src` uses is the same in `src'`: the source of the functions, the values of the global
variables. -/
def Unchanged (src src' : Source) (uid : String) : Prop :=
  ∀ k, Needs enc ops src uid k → ((src k).bind TNode.content).map (Content.hash H) = ((src' k).bind TNode.content).map (Content.hash H)

end Verif.Props
