import Verif.Model.Eval
import Verif.Spec.RoundTrip
/-!
Which values a table has to show.
-/
namespace Verif

/-- The cell of the column `c` that held the objects `hs` (`none`: null) is to show this. `load h v`: the value `v` is recorded under
the id `h` of a ref; `refs` are the ids of refs; the columns `skip` are to be left alone. -/
inductive CellEval (load : String → Val → Prop) (refs skip : List String) (c : String) : Option (List String) → Option ECell → Prop
  | null : CellEval load refs skip c none none
  | skipped {hs} : c ∈ skip → CellEval load refs skip c (some hs) (some (.ids hs))
  | calls {hs} : (∀ h ∈ hs, h ∉ refs) → CellEval load refs skip c (some hs) (some (.ids hs))
  | one {h v} : c ∉ skip → h ∈ refs → load h v → CellEval load refs skip c (some [h]) (some (.val v))
  | many {hs vs} : c ∉ skip → 2 ≤ hs.length → (∀ h ∈ hs, h ∈ refs) → All2 load hs vs → CellEval load refs skip c (some hs) (some (.vals vs))

/-- The table `t`, with the columns `cols`, is to show these rows. -/
def TableEval (load : String → Val → Prop) (refs skip cols : List String) (t : Table) (rows : List ERow) : Prop :=
  All2 (fun row erow => All2 (fun c (p : String × Option ECell) => p.1 = c ∧ CellEval load refs skip c (row.get? c) p.2) cols erow) t.rows rows

/-- The ref with this id is an input or output of a call in the storage. -/
def InCalls (s : St) (h : String) : Prop := ∃ r, (r ∈ s.calls.cache.df ∨ r ∈ s.calls.pers) ∧ r.refHid = h

/-- Every cell holds refs only or calls only, and at least one. -/
def Table.Uniform (t : Table) (refs : List String) : Prop :=
  ∀ row ∈ t.rows, ∀ c ∈ t.cols, ∀ hs, row.get? c = some hs → (hs ≠ [] ∧ ∀ h ∈ hs, h ∈ refs) ∨ ∀ h ∈ hs, h ∉ refs

/-- The columns that stay: with `skip_calls`, those whose cell in the first row does not hold calls; otherwise all. -/
def KeptCols (refs : List String) (skipCalls : Bool) (t : Table) (cols : List String) : Prop :=
  cols = t.cols.filter fun c => !(skipCalls && match t.rows with
    | [] => false
    | row :: _ => match row.get? c with
      | some (h :: _) => h ∉ refs
      | _ => false)

end Verif
