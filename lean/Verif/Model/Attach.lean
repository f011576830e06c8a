import Verif.Model.Storage
/-!
Model of `Storage.attach` (storage.py:499-512, 525-533) and `ComputationFrame.attach` (cf.py:1377-1378).
Simplified: an object that is reached twice is two objects.
-/
namespace Verif

/-- What `attach` returns for a ref: `recurse_on_ref_collections` (model.py:391-405) turns lists and dicts of refs into plain ones. -/
inductive Att
  | ref (r : Ref)
  | list (xs : List Att)
  | dict (keys : List String) (xs : List Att)

/-- The value put in the ref by `_attach_atom` (storage.py:499-512): what is there already, or `self.atoms[ref.cid]`. -/
def attachedObj (c : String) : Option Val → M Val
  | some v => M.pure v
  | none => atomsGet c

mutual
/-- `attach` with `inplace=False` (storage.py:525-533) -/
def attachRef : Ref → M Att
  | .atom c h o => do
    let v ← attachedObj c o
    M.pure (.ref (.atom c h (some v)))
  | .coll k _ _ inMem keys elts =>
    if inMem then do
      let xs ← attachRefs elts
      match k with
      | .list => M.pure (.list xs)
      | .dict => M.pure (.dict keys xs)
    else M.raise (iterErr k)
/-- pointwise -/
def attachRefs : List Ref → M (List Att)
  | [] => M.pure []
  | r :: rs => do
    let a ← attachRef r
    let as ← attachRefs rs
    M.pure (a :: as)
end

mutual
/-- `attach` with `inplace=True` (storage.py:525-533): the ref afterwards. What is returned has `None` for every atom. -/
def attachIn : Ref → M Ref
  | .atom c h o => do
    let v ← attachedObj c o
    M.pure (.atom c h (some v))
  | .coll k c h inMem keys elts =>
    if inMem then do
      let es ← attachIns elts
      M.pure (.coll k c h inMem keys es)
    else M.raise (iterErr k)
/-- pointwise -/
def attachIns : List Ref → M (List Ref)
  | [] => M.pure []
  | r :: rs => do
    let r' ← attachIn r
    let rs' ← attachIns rs
    M.pure (r' :: rs')
end

/-- `ComputationFrame.attach` (cf.py:1377-1378): the refs of the frame afterwards. `attach` is called with the default `inplace=False`, and the answer is
thrown away. -/
def frameAttach (refs : List Ref) : M (List Ref) := do
  let _ ← attachRefs refs
  M.pure refs

end Verif
