import Verif.Props.Eval
/-!
C79: evaluations of tables that do not show the recorded values.
-/
namespace Verif.Props

open Verif CFrame

/-- a table with a null in the first row of the column of a function -/
def gapTable : Table := ⟨["y", "inc"], [[("y", [rawHid encH (.int 5)])], [("y", [outHid encH (incHid 7) "output_0"]), ("inc", [incHid 7])]]⟩

set_option maxRecDepth 20000 in
/-- C79: `eval_df(skip_calls=True)` keeps a column of calls if there is no call in the first row. -/
theorem C79_refuted_skip_calls : (shown (evalFrame Ex.W.cfg incFrame false none true gapTable chained) ==
      [[("y", some (.val (.int 5))), ("inc", none)], [("y", some (.val (.int 8))), ("inc", some (.ids [incHid 7]))]]) = true := by decide +kernel

/-- C79: of the columns a generator names, `eval_df` skips only those which the generator yields in the order of the columns; here the columns `x` and `y` are to be left
alone, and `y` is not (or both are not). -/
theorem C79_refuted_generator : skipOnce ["y", "x"] ["x", "inc", "y"] = ["x"] ∧ skipOnce ["y"] ["x", "inc", "y"] = [] := by decide +kernel

/-- `inc(5)` and `inc(6)`; the first result and the argument of the second call are equal. -/
def equalDay : List Cmd := [.call Ex.inc (Ex.arg1 (.raw (.int 5))), .call Ex.inc (Ex.arg1 (.raw (.int 6)))]
/-- `upto(1)` and `upto(2)` -/
def listDay : List Cmd := [.call Ex.upto (Ex.arg1 (.raw (.int 1))), .call Ex.upto (Ex.arg1 (.raw (.int 2)))]
/-- the history id of `upto(n)` -/
def uptoRef (n : Int) : String := outHid encH (callId encH "upto" 0 [("x", rawHid encH (.int n))]) "output_0"

/-- `unwrap` of a set of the refs with these ids -/
def setValue (p : List Cmd) (hs : List String) : Except Err (List Val) :=
  ((do let objs ← loadObjs Ex.W.cfg true hs; evalSet Ex.W.cfg objs hs : M (List Val)) (runProg Ex.W.cfg [] (.fresh none 100) p).2.2).1

set_option maxRecDepth 20000 in
/-- C79: the tables `get_history_df` returns have sets of refs in them. `eval_df` shows fewer values than there are refs if some are equal (two refs, one value), and fails if
they are lists. -/
theorem C79_refuted_sets : ((setValue equalDay [outHid encH (incHid 5) "output_0", rawHid encH (.int 6)]).toOption.map fun vs => Val.beq (.list vs) (.list [.int 6])) = some true ∧
    (match setValue listDay [uptoRef 1, uptoRef 2] with
      | .error e => e == .typeError
      | .ok _ => false) = true := by decide +kernel

end Verif.Props
