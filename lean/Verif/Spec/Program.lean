import Verif.Model.Storage
/-!
User programs: sequences of op calls, unwraps and storage maintenance, and what they do without a storage.
-/
namespace Verif

/-- An argument expression: a raw value, an earlier result, a list or dictionary display. -/
inductive PExpr
  | raw (v : Val)
  | var (i : Nat)
  | list (xs : List PExpr)
  | dict (keys : List String) (xs : List PExpr)
  deriving Inhabited

/-- An argument of a call. -/
structure PArg where
  name : String
  ty : Ty
  ignored : Bool
  expr : PExpr

/-- The statements of a program. -/
inductive Cmd
  /-- `x1, ..., xn = op(args)` -/
  | call (d : OpDef) (args : List PArg)
  /-- `print(storage.unwrap(x))` -/
  | unwrap (x : Nat)
  | commit
  | clearCache (allowUncommitted : Bool)
  | dropCalls (hids : List String) (deleteDependents : Bool)
  | cleanupRefs
  | preload
  /-- end the process (or crash) between two operations and open the database again -/
  | reopen
  /-- enter/leave a region where new calls are forbidden -/
  | allowNew (b : Bool)

/-- What a statement shows. -/
inductive Obs
  | done
  | returned (n : Nat)
  | value (v : Val)
  | raised (e : Err)
  deriving DecidableEq

mutual
/-- The value of an expression, given the earlier results (refs). -/
def PExpr.toArg (env : List Ref) : PExpr → Option Arg
  | .raw v => some (.val v)
  | .var i => (env[i]?).map .ref
  | .list xs => (PExpr.toArgs env xs).map .list
  | .dict keys xs => (PExpr.toArgs env xs).map (.dict keys)
/-- pointwise -/
def PExpr.toArgs (env : List Ref) : List PExpr → Option (List Arg)
  | [] => some []
  | x :: xs =>
    match PExpr.toArg env x, PExpr.toArgs env xs with
    | some a, some as => some (a :: as)
    | _, _ => none
end

/-- The arguments of a call. -/
def bindArgs (env : List Ref) : List PArg → Option (List BArg)
  | [] => some []
  | p :: ps =>
    match p.expr.toArg env, bindArgs env ps with
    | some a, some as => some ({ name := p.name, ty := p.ty, ignored := p.ignored, arg := a } :: as)
    | _, _ => none

/-- One statement run with the storage: what it shows, the results so far, the storage. An exception is
shown; the program goes on (as if in a `try` statement). -/
def Cmd.run (cfg : Cfg) (env : List Ref) (s : St) : Cmd → Obs × List Ref × St
  | .call d args =>
    match bindArgs env args with
    | none => (.raised .keyError, env, s)
    | some bargs =>
      match Verif.call cfg d bargs s with
      | (.ok rs, s') => (.returned rs.length, env ++ rs, s')
      | (.error e, s') => (.raised e, env, s')
  | .unwrap x =>
    match env[x]? with
    | none => (.raised .keyError, env, s)
    | some r =>
      match unwrapRef cfg r s with
      | (.ok v, s') => (.value v, env, s')
      | (.error e, s') => (.raised e, env, s')
  | .commit => admin (Verif.commit cfg)
  | .clearCache b => admin (Verif.clearCache b)
  | .dropCalls hids b => admin (Verif.dropCalls hids b)
  | .cleanupRefs => admin Verif.cleanupRefs
  | .preload => admin Verif.preload
  | .reopen => admin Verif.reopen
  | .allowNew b => (.done, env, { s with allowNew := b })
where
  admin (m : M Unit) : Obs × List Ref × St :=
    match m s with
    | (.ok _, s') => (.done, env, s')
    | (.error e, s') => (.raised e, env, s')

/-- A whole program. -/
def runProg (cfg : Cfg) : List Ref → St → List Cmd → List Obs × List Ref × St
  | env, s, [] => ([], env, s)
  | env, s, c :: cs =>
    let (o, env', s') := c.run cfg env s
    let (os, env'', s'') := runProg cfg env' s' cs
    (o :: os, env'', s'')

/-! ### without a storage -/

mutual
/-- The value of an expression, given the earlier results (values). -/
def PExpr.plain (env : List Val) : PExpr → Option Val
  | .raw v => some v
  | .var i => env[i]?
  | .list xs => (PExpr.plains env xs).map .list
  | .dict keys xs => (PExpr.plains env xs).map (.dict keys)
/-- pointwise -/
def PExpr.plains (env : List Val) : List PExpr → Option (List Val)
  | [] => some []
  | x :: xs =>
    match PExpr.plain env x, PExpr.plains env xs with
    | some a, some as => some (a :: as)
    | _, _ => none
end

/-- The named arguments. -/
def plainArgs (env : List Val) : List PArg → Option (List (String × Val))
  | [] => some []
  | p :: ps =>
    match p.expr.plain env, plainArgs env ps with
    | some v, some vs => some ((p.name, v) :: vs)
    | _, _ => none

/-- The results of a plain call: the components of a returned tuple, or the returned value. -/
def plainResults : Val → List Val
  | .tuple xs => xs
  | v => [v]

/-- One statement run without a storage. -/
def Cmd.plain (env : List Val) : Cmd → Obs × List Val
  | .call d args =>
    match plainArgs env args with
    | none => (.raised .keyError, env)
    | some vals =>
      match d.body vals with
      | .ok ret => (.returned (plainResults ret).length, env ++ plainResults ret)
      | .error e => (.raised e, env)
  | .unwrap x =>
    match env[x]? with
    | none => (.raised .keyError, env)
    | some v => (.value v, env)
  | _ => (.done, env)

/-- An exception of the storage itself, as opposed to one raised by a user function (or to a case that is not
modelled). -/
def StorageErr (e : Err) : Prop := e ≠ .unmodelled ∧ ∀ n, e ≠ .userError n

/-- What the program shows is what it shows without a storage, except that a statement may fail with an exception
of the storage; it then has no effect on the results so far. -/
inductive Agrees : List Val → List Cmd → List Obs → Prop
  | nil {env} : Agrees env [] []
  | same {env env' c cs o os} : c.plain env = (o, env') → Agrees env' cs os → Agrees env (c :: cs) (o :: os)
  | failed {env c cs e os} : StorageErr e → Agrees env cs os → Agrees env (c :: cs) (.raised e :: os)

end Verif
