import Verif.Spec.Sessions
/-!
Which statements must be answered, i.e. must not fail with an exception of the storage.
-/
namespace Verif

mutual
/-- How deep lists, tuples and dictionaries are nested. -/
def Val.height : Val → Nat
  | .list xs => Val.heights xs + 1
  | .tuple xs => Val.heights xs + 1
  | .dict _ xs => Val.heights xs + 1
  | _ => 0
/-- the maximum -/
def Val.heights : List Val → Nat
  | [] => 0
  | v :: vs => max v.height (Val.heights vs)
end

/-- A python list or dictionary. -/
def Val.isColl : Val → Bool
  | .list _ => true
  | .dict _ _ => true
  | _ => false

/-- No `MList` of collections. -/
def FlatTy : Ty → Prop
  | .coll .list ty => ty = .atom
  | .coll .dict ty => FlatTy ty
  | _ => True

/-- An element of a list display that is stored as an atom. -/
def AtomExpr (env : List Val) (ty : Ty) : PExpr → Prop
  | .raw _ => ty = .atom
  | .var i => ∀ v, env[i]? = some v → v.isColl = false
  | _ => False

/-- The op is declared to return no list of collections. -/
def OutsFlat (d : OpDef) : Prop := ∀ ins ret outs, d.body ins = .ok ret → parseReturns d.nout d.outNames d.ann ret = .ok outs →
  ∀ p ∈ outs, FlatTy p.2.2

/-- Result `i` was returned by such an op (`orig`: the ops that returned the results so far). -/
def FlatVar (orig : List OpDef) (i : Nat) : Prop := ∀ d, orig[i]? = some d → OutsFlat d

mutual
/-- The argument is not stored as a list of collections. -/
def FlatExpr (env : List Val) (orig : List OpDef) : Ty → PExpr → Prop
  | ty, .raw _ => FlatTy ty
  | _, .var i => FlatVar orig i
  | .coll .list ty, .list xs => ∀ x ∈ xs, AtomExpr env ty x
  | .coll .dict ty, .dict _ xs => FlatExprs env orig ty xs
  | _, _ => True
/-- pointwise -/
def FlatExprs (env : List Val) (orig : List OpDef) : Ty → List PExpr → Prop
  | _, [] => True
  | ty, x :: xs => FlatExpr env orig ty x ∧ FlatExprs env orig ty xs
end

/-- Nesting of arguments and results is within python's recursion limit, as many values are returned as declared, and there is some (not
ignored) argument or some output. -/
structure CallSized (lim : Nat) (env : List Val) (d : OpDef) (args : List PArg) : Prop where
  depth : ∀ vals, plainArgs env args = some vals → ∀ p ∈ vals, p.2.height < lim
  pos : 0 < lim
  returns : ∀ vals ret, plainArgs env args = some vals → d.body vals = .ok ret →
    (∃ outs, parseReturns d.nout d.outNames d.ann ret = .ok outs) ∧ (∀ v ∈ plainResults ret, v.height < lim) ∧
    ((∃ a ∈ args, a.ignored = false) ∨ plainResults ret ≠ [])

/-- The call is within what the storage can handle: besides, no lists of collections. -/
structure CallFitsIn (lim : Nat) (env : List Val) (orig : List OpDef) (d : OpDef) (args : List PArg) : Prop extends CallSized lim env d args where
  flat : ∀ a ∈ args, FlatExpr env orig a.ty a.expr
  flatOut : OutsFlat d

/-- Statements that must be answered: unwraps and, if new calls are allowed (`b`), calls, within the limits. -/
def MustAnswer (fuel : Nat) (b : Bool) (env : List Val) (orig : List OpDef) : Cmd → Prop
  | .call d args => b = true ∧ CallFitsIn fuel env orig d args
  | .unwrap x => 0 < fuel ∧ FlatVar orig x
  | .allowNew _ => True
  | _ => False

/-- Are new calls allowed after the statement? -/
def Cmd.allowsAfter (b : Bool) : Cmd → Bool
  | .allowNew b' => b'
  | _ => b

/-- Which ops returned the results so far; the statement had `n` new ones. -/
def Cmd.origins (orig : List OpDef) (n : Nat) : Cmd → List OpDef
  | .call d _ => orig ++ List.replicate n d
  | _ => orig

/-- What the program shows is what it shows without a storage, except that statements other than those that must be answered may fail with an
exception of the storage (and then have no effect on the results so far). -/
inductive Answers (fuel : Nat) : Bool → List Val → List OpDef → List Cmd → List Obs → Prop
  | nil {b env orig} : Answers fuel b env orig [] []
  | same {b env orig env' c cs o os} : c.plain env = (o, env') →
      Answers fuel (c.allowsAfter b) env' (c.origins orig (env'.length - env.length)) cs os →
      Answers fuel b env orig (c :: cs) (o :: os)
  | failed {b env orig c cs e os} : ¬ MustAnswer fuel b env orig c → StorageErr e → Answers fuel (c.allowsAfter b) env orig cs os →
      Answers fuel b env orig (c :: cs) (.raised e :: os)

end Verif
