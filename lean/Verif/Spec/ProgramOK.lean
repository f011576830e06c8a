import Verif.Spec.Meaning
import Verif.Spec.Program
/-!
Which programs the storage promises to run faithfully.
-/
namespace Verif

/-- Output names, if given, are distinct and as many as there are outputs. -/
def NamesOK : Option (List String) → Nat → Prop
  | none, _ => True
  | some ns, n => ns.Nodup ∧ ns.length = n

/-- What is expected of a user op: it is known, and what it returns conforms to its annotations and output names. -/
structure OpOK (W : World) (d : OpDef) : Prop where
  mem : W.D d
  conforms : ∀ (ins : List (String × TVal)) ret outs, (∀ p ∈ ins, p.2.Wf W) → d.body (eraseIns ins) = .ok ret →
    parseReturns d.nout d.outNames d.ann ret = .ok outs →
    ∃ touts : List (String × TVal), All2 (fun p q => p.1 = q.1 ∧ ValT p.2.2 p.2.1 q.2 ∧ q.2.Wf W) outs touts
  names : ∀ (ins : List (String × TVal)) ret vs, d.body (eraseIns ins) = .ok ret → returnsTuple d.nout ret = .ok vs →
    NamesOK d.outNames vs.length

mutual
/-- The expression conforms to the type of the parameter it is passed for. -/
def PExprOK (W : World) : Ty → PExpr → Prop
  | ty, .raw v => ∃ t, ValT ty v t ∧ t.Wf W
  | _, .var _ => True
  | ty, .list xs => ∃ ty', ty = .coll .list ty' ∧ (xs = [] → W.emp = .coll .list [] []) ∧ PExprsOK W ty' xs
  | ty, .dict keys xs => ∃ ty', ty = .coll .dict ty' ∧ KeysOK .dict keys xs.length ∧
      (xs = [] → W.emp = .coll .dict [] []) ∧ PExprsOK W ty' xs
/-- pointwise -/
def PExprsOK (W : World) : Ty → List PExpr → Prop
  | _, [] => True
  | ty, x :: xs => PExprOK W ty x ∧ PExprsOK W ty xs
end

/-- The non-ignored arguments. -/
def kept : List PArg → List Val → List (String × Val)
  | a :: as, v :: vs => if a.ignored then kept as vs else (a.name, v) :: kept as vs
  | _, _ => []

/-- The function depends neither on the ignored arguments nor on the order in which arguments are passed by name. -/
def IgnoreOK (d : OpDef) (args : List PArg) : Prop :=
  ∀ vs, vs.length = args.length → d.body ((args.map (·.name)).zip vs) = d.body (canon (kept args vs))

/-- The statement conforms to the rules of the storage. -/
def CmdOK (W : World) : Cmd → Prop
  | .call d args => OpOK W d ∧ (args.map (·.name)).Nodup ∧ IgnoreOK d args ∧ ∀ a ∈ args, PExprOK W a.ty a.expr
  | _ => True

/-- Statements that keep recorded calls, even if they are not committed. -/
def Cmd.Safe : Cmd → Prop
  | .dropCalls .. => False
  | .clearCache b => b = false
  | .preload => False
  | .reopen => False
  | _ => True

/-- Statements that keep committed calls. -/
def Cmd.NoDrop : Cmd → Prop
  | .dropCalls .. => False
  | _ => True

/-- Every commit of the program went through. -/
def commitsDone : List Cmd → List Obs → Prop
  | .commit :: cs, o :: os => o = .done ∧ commitsDone cs os
  | _ :: cs, _ :: os => commitsDone cs os
  | _, _ => True

/-- No call is dropped after the cache was cleared in the same process (`b`: it was not so far). -/
def dropsLinked : Bool → List Cmd → Prop
  | _, [] => True
  | b, .dropCalls .. :: cs => b = true ∧ dropsLinked b cs
  | _, .clearCache _ :: cs => dropsLinked false cs
  | _, .reopen :: cs => dropsLinked true cs
  | b, _ :: cs => dropsLinked b cs

end Verif
