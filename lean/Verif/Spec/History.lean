import Verif.Model.Storage
/-!
The recorded history: which calls made which refs from which refs.
-/
namespace Verif

/-- The rows of a storage: cached calls and the database. -/
def St.rows (s : St) : List Row := s.calls.cache.df ++ s.calls.pers

/-- The call of the row `r` is recorded as it was made: its history id was computed from the op and the named history ids `ids` of its inputs;
the row is about one of these inputs or about an output; and every input has a row, except one with the name of an output. -/
def RecordTrue (H : Val → String) (rows : List Row) (r : Row) : Prop :=
  ∃ (ver : Int) (ids : List (String × String)), r.callHid = callId H r.op ver ids ∧ (Dict.keys ids).Nodup ∧
    (r.dir = .in_ → (r.name, r.refHid) ∈ ids) ∧ (r.dir = .out → r.refHid = outHid H r.callHid r.name) ∧
    ∀ p ∈ ids, ∃ r' ∈ rows, r'.callHid = r.callHid ∧ r'.name = p.1 ∧ (r'.dir = .out ∨ r'.dir = .in_ ∧ r'.refHid = p.2)

/-- `h` is an output of a recorded call with input `h'`. -/
def Parent (rows : List Row) (h' h : String) : Prop :=
  ∃ r ∈ rows, ∃ r' ∈ rows, r.callHid = r'.callHid ∧ r.dir = .in_ ∧ r'.dir = .out ∧ r.refHid = h' ∧ r'.refHid = h

/-- An output of the call `c` is an input of the call `c'`. -/
def Feeds (rows : List Row) (c c' : String) : Prop :=
  ∃ r ∈ rows, ∃ r' ∈ rows, r.callHid = c ∧ r'.callHid = c' ∧ r.dir = .out ∧ r'.dir = .in_ ∧ r.refHid = r'.refHid

end Verif
