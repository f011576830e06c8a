import Verif.Model.Noop
import Verif.Spec.ProgramOK
/-!
Programs that mix statements run with the storage and calls made in "noop" mode.
-/
namespace Verif

/-- A statement, or a call inside `with storage(mode="noop")`. -/
inductive MCmd
  | run (c : Cmd)
  | noop (d : OpDef) (args : List PArg)

/-- One statement. A call in "noop" mode returns a value and binds no ref. -/
def MCmd.run' (cfg : Cfg) (env : List Ref) (s : St) : MCmd → Obs × List Ref × St
  | .run c => c.run cfg env s
  | .noop d args =>
    match bindArgs env args with
    | none => (.raised .keyError, env, s)
    | some bargs =>
      match callNoop cfg d bargs s with
      | (.ok v, s') => (.value v, env, s')
      | (.error e, s') => (.raised e, env, s')

/-- The whole program. -/
def runMixed (cfg : Cfg) : List Ref → St → List MCmd → List Obs × List Ref × St
  | env, s, [] => ([], env, s)
  | env, s, c :: cs =>
    let (o, env', s') := c.run' cfg env s
    let (os, env'', s'') := runMixed cfg env' s' cs
    (o :: os, env'', s'')

/-- Without a storage, a call in "noop" mode is a call of the function. -/
def MCmd.plain (env : List Val) : MCmd → Obs × List Val
  | .run c => c.plain env
  | .noop d args =>
    match plainArgs env args with
    | none => (.raised .keyError, env)
    | some vals =>
      match d.body vals with
      | .ok ret => (.value ret, env)
      | .error e => (.raised e, env)

/-- What the program shows is what it shows without a storage, except that a statement may fail with an exception of the storage. -/
inductive MAgrees : List Val → List MCmd → List Obs → Prop
  | nil {env} : MAgrees env [] []
  | same {env env' c cs o os} : c.plain env = (o, env') → MAgrees env' cs os → MAgrees env (c :: cs) (o :: os)
  | failed {env c cs e os} : StorageErr e → MAgrees env cs os → MAgrees env (c :: cs) (.raised e :: os)

/-- The statement conforms to the rules of the storage. In "noop" mode only the arguments matter: the function may return anything,
and may depend on ignored arguments. -/
def MCmdOK (W : World) : MCmd → Prop
  | .run c => CmdOK W c
  | .noop _ args => ∀ a ∈ args, PExprOK W a.ty a.expr

end Verif
