import Verif.Model.StorageFrame
/-!
What a call object read back from the database is, and how a computation frame sees it.
-/
namespace Verif

/-- A row of the table says that `c` has under `name` (as an input or output) a value with these ids. -/
def RowSays (rows : List Row) (call : String) (dir : Dir) (name hid cid : String) : Prop :=
  ∃ r ∈ rows, r.callHid = call ∧ r.dir = dir ∧ r.name = name ∧ r.refHid = hid ∧ r.refCid = cid

/-- The call object says what the rows of the call in the table say: nothing is missing, nothing added. -/
structure CallOf (rows : List Row) (c : CallObj) : Prop where
  recorded : ∃ r ∈ rows, r.callHid = c.hid
  header : ∀ r ∈ rows, r.callHid = c.hid → r.op = c.op ∧ r.callCid = c.cid
  nodupIn : (Dict.keys c.inputs).Nodup
  nodupOut : (Dict.keys c.outputs).Nodup
  inputs : ∀ n h d, (∃ x, (n, x) ∈ c.inputs ∧ Ref.hid x = h ∧ Ref.cid x = d) ↔ RowSays rows c.hid .in_ n h d
  outputs : ∀ n h d, (∃ x, (n, x) ∈ c.outputs ∧ Ref.hid x = h ∧ Ref.cid x = d) ↔ RowSays rows c.hid .out n h d

/-- The record of a value is complete and nested at most `n` deep. -/
def Ref.fits : Nat → Ref → Bool
  | 0, _ => false
  | _ + 1, .atom .. => true
  | n + 1, .coll _ _ _ m _ es => m && es.all fun e => e.fits n

/-- The recorded values are not nested deeper than python can follow them. -/
def Shallow (cfg : Cfg) (s : St) : Prop := ∀ r ∈ s.calls.pers, ∀ x, (s.shapes.get r.refHid).1 = .ok x → x.fits cfg.fuel = true

/-- `storage.get_creators(refs)` (dir = out) and `storage.get_consumers(refs)` (dir = in) should return this. -/
structure Found (s : St) (dir : Dir) (refs : List String) (cs : List CallObj) : Prop where
  nodup : (cs.map CallObj.hid).Nodup
  exactly : ∀ h, h ∈ cs.map CallObj.hid ↔ ∃ r ∈ s.calls.pers, r.dir = dir ∧ r.refHid ∈ refs ∧ r.callHid = h
  calls : ∀ c ∈ cs, CallOf s.calls.pers c

/-- The calls a frame on the storage `s` can meet: what `storage.mget_call([h])` answers for the calls in the database. -/
def Answered (cfg : Cfg) (s : St) (c : FCall) : Prop :=
  ∃ h obj s', (∃ r ∈ s.calls.pers, r.callHid = h) ∧ mgetCall cfg [h] s = (.ok [obj], s') ∧ obj.toF = c

end Verif
