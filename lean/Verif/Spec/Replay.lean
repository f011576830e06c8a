import Verif.Spec.RoundTrip
/-!
Running a finished program again.
-/
namespace Verif

/-- Calls and unwraps. -/
def Cmd.isQuery : Cmd → Bool
  | .call .. => true
  | .unwrap _ => true
  | _ => false

/-- What the program shows without a storage. -/
def plainRun : List Val → List Cmd → List Obs
  | _, [] => []
  | env, c :: cs => (c.plain env).1 :: plainRun (c.plain env).2 cs

/-- All calls returned. -/
def callsReturned : List Cmd → List Obs → Prop
  | .call .. :: cs, o :: os => (∃ n, o = .returned n) ∧ callsReturned cs os
  | _ :: cs, _ :: os => callsReturned cs os
  | _, _ => True

/-- The call is within the limits (other than flatness) at this point. -/
def Cmd.Sized (lim : Nat) (env : List Val) : Cmd → Prop
  | .call d args => CallSized lim env d args
  | _ => True

/-- All calls are. -/
def SizedProg (lim : Nat) : List Val → List Cmd → Prop
  | _, [] => True
  | env, c :: cs => c.Sized lim env ∧ SizedProg lim (c.plain env).2 cs

/-- Running the calls and unwraps of the program with new calls forbidden shows what it shows without a storage, and executes nothing. -/
structure Replays (cfg : Cfg) (s : St) (p : List Cmd) : Prop where
  shows : (runProg cfg [] s (.allowNew false :: p.filter Cmd.isQuery)).1 = .done :: plainRun [] (p.filter Cmd.isQuery)
  quiet : (runProg cfg [] s (.allowNew false :: p.filter Cmd.isQuery)).2.2.log = s.log

end Verif
