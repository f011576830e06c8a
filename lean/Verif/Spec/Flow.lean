import Verif.Model.CallStorage
import Verif.Basic.Star
/-!
Specification of the data flow recorded in a calls table: a bipartite graph of refs and calls.
-/
namespace Verif

/-- A node of the data-flow graph. -/
inductive Node
  | ref (hid : String)
  | call (hid : String)
  deriving DecidableEq

/-- One step of the data flow recorded in the table: a ref flows into a call that has it as an input, a
call flows into a ref it has as an output. -/
inductive Flow (rows : List Row) : Node → Node → Prop
  | consume {r : Row} : r ∈ rows → r.dir = .in_ → Flow rows (.ref r.refHid) (.call r.callHid)
  | produce {r : Row} : r ∈ rows → r.dir = .out → Flow rows (.call r.callHid) (.ref r.refHid)

/-- `n` depends on one of the given refs and calls (or is one of them). -/
def Dependent (rows : List Row) (refs calls : List String) (n : Node) : Prop :=
  ∃ s, (s ∈ refs.map Node.ref ∨ s ∈ calls.map Node.call) ∧ Star (Flow rows) s n

/-- One of the given refs and calls depends on `n` (or is `n`). -/
def Dependency (rows : List Row) (refs calls : List String) (n : Node) : Prop :=
  ∃ s, (s ∈ refs.map Node.ref ∨ s ∈ calls.map Node.call) ∧ Star (Flow rows) n s

end Verif
