import Verif.Model.Storage
/-!
A call in mode "noop".
-/
namespace Verif

/-- `Storage.call` in mode "noop" (storage.py:1175-1184) after `parse_args` (see `Verif.Model.Args.noopBody` for the arguments'
wrappers): every argument is unwrapped and the function is called; pointers are passed on as they are. -/
def callNoop (cfg : Cfg) (op : OpDef) (args : List BArg) : M Val := do
  let vals ← M.mapM' (fun (a : BArg) => do
    let v ← unwrapArg cfg a.arg
    M.pure (a.name, v)) args
  M.lift (op.body vals)

end Verif
