import Verif.Spec.Meaning
import Verif.Model.Attach
/-!
What it means that a ref, or a structure of refs, is in memory.
-/
namespace Verif

mutual
/-- The value that can be read off a ref without a storage. -/
def Ref.held : Ref → Option Val
  | .atom _ _ o => o
  | .coll k _ _ m keys elts => if m then (Ref.helds elts).map (mkVal k keys) else none
/-- pointwise -/
def Ref.helds : List Ref → Option (List Val)
  | [] => some []
  | r :: rs => match Ref.held r, Ref.helds rs with
    | some v, some vs => some (v :: vs)
    | _, _ => none
end

mutual
/-- likewise for a structure of refs -/
def Att.held : Att → Option Val
  | .ref r => r.held
  | .list xs => (Att.helds xs).map .list
  | .dict keys xs => (Att.helds xs).map (.dict keys)
/-- pointwise -/
def Att.helds : List Att → Option (List Val)
  | [] => some []
  | a :: as => match Att.held a, Att.helds as with
    | some v, some vs => some (v :: vs)
    | _, _ => none
end

mutual
/-- The content and history ids of the atoms inside. -/
def Ref.atomIds : Ref → List (String × String)
  | .atom c h _ => [(c, h)]
  | .coll _ _ _ _ _ elts => Ref.atomIdss elts
/-- pointwise -/
def Ref.atomIdss : List Ref → List (String × String)
  | [] => []
  | r :: rs => Ref.atomIds r ++ Ref.atomIdss rs
end

mutual
/-- likewise for a structure of refs -/
def Att.atomIds : Att → List (String × String)
  | .ref r => r.atomIds
  | .list xs => Att.atomIdss xs
  | .dict _ xs => Att.atomIdss xs
/-- pointwise -/
def Att.atomIdss : List Att → List (String × String)
  | [] => []
  | a :: as => Att.atomIds a ++ Att.atomIdss as
end

/-- The refs are the same up to what they hold in memory. -/
def Ref.SameIds (r r' : Ref) : Prop := r'.cid = r.cid ∧ r'.hid = r.hid ∧ r'.atomIds = r.atomIds

/-- Nothing was written: the tables, what is waiting to be committed, the calls and the log are as before. -/
structure OnlyRead (s s' : St) : Prop where
  atomsPers : s'.atoms.pers = s.atoms.pers
  atomsDirty : s'.atoms.dirty = s.atoms.dirty
  rest : ∃ a, s' = { s with atoms := a }

end Verif
