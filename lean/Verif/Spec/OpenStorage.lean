import Verif.Model.OpenStorage
/-!
What someone expects who opens a storage with versions: the options in use are the ones they asked for.
-/
namespace Verif.Opening

/-- The paths are the ones that are meant by `deps_path`. -/
def SameRoots (resolve : String → String) (d : String) (paths : List String) : Prop :=
  (d = "__main__" ∧ paths = []) ∨ (d ≠ "__main__" ∧ paths = [resolve d])

/-- The options of a versioner are the ones given to `Storage(...)`. -/
structure AsAsked (resolve : String → String) (g : Given) (o : Options) : Prop where
  paths : ∃ d, g.depsPath = some d ∧ SameRoots resolve d o.paths
  tracer : ∀ t, g.tracer = some t → o.tracer = t
  strict : o.strict = g.strict
  trackGlobals : o.trackGlobals = g.trackGlobals
  skipUnhashableGlobals : o.skipUnhashableGlobals = g.skipUnhashableGlobals
  skipGlobalsSilently : o.skipGlobalsSilently = g.skipGlobalsSilently
  skipMissingDeps : o.skipMissingDeps = g.skipMissingDeps
  skipMissingSilently : o.skipMissingSilently = g.skipMissingSilently
  package : o.package = g.package

/-- The versioner that is in the database -/
def recorded (w : World) : Option Obj := w.table.get? "versioner"

/-- The command neither ends nor restarts the process. -/
def Cmd.Spares (pid : Nat) : Cmd → Prop
  | .opens q _ => q ≠ pid
  | .ends q => q ≠ pid
  | _ => True

/-- No process opens the database. -/
def Cmd.NoOpen : Cmd → Prop
  | .opens _ _ => False
  | _ => True

end Verif.Opening
