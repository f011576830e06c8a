import Verif.Model.Noop
import Verif.Basic.ListRel
/-!
Which calls should be taken for the same: value pointers and ignored arguments.
-/
namespace Verif

mutual
/-- The argument without the objects behind its value pointers. -/
def Arg.forget : Arg → Arg
  | .ref r => .ref r
  | .val v => .val v
  | .list xs => .list (Arg.forgets xs)
  | .dict keys xs => .dict keys (Arg.forgets xs)
  | .ptr id _ => .ptr id .none
/-- pointwise -/
def Arg.forgets : List Arg → List Arg
  | [] => []
  | a :: as => a.forget :: Arg.forgets as
end

/-- The parts of a bound argument that may matter for the identity of a call: name, type, and the argument up to the objects
behind pointers. -/
def BArg.key (a : BArg) : String × Ty × Arg := (a.name, a.ty, a.arg.forget)

/-- Two calls of the same op agree on all that may matter: their non-ignored arguments, up to the objects behind pointers. -/
def SameKey (args args' : List BArg) : Prop :=
  (args.filter fun a => !a.ignored).map BArg.key = (args'.filter fun a => !a.ignored).map BArg.key

/-- Two calls that differ at most in the objects behind pointers. -/
def SameButObj (args args' : List BArg) : Prop :=
  All2 (fun a a' => a.name = a'.name ∧ a.ty = a'.ty ∧ a.ignored = a'.ignored ∧ a.arg.forget = a'.arg.forget) args args'

/-- Argument values for two such calls: they differ at most where a pointer is passed, and there they are the two objects. -/
def PtrVals (args args' : List BArg) (vs vs' : List (String × Val)) : Prop :=
  vs.map (·.1) = args.map (·.name) ∧ vs'.map (·.1) = args'.map (·.name) ∧
    All2 (fun (x : BArg × String × Val) (y : BArg × String × Val) => x.2.2 = y.2.2 ∨
      ∃ id o o', x.1.arg = .ptr id o ∧ y.1.arg = .ptr id o' ∧ x.2.2 = o ∧ y.2.2 = o') (args.zip vs) (args'.zip vs')

end Verif
