import Verif.Model.CFrameTable
import Verif.Model.Storage
/-!
cf.py: `eval_df`, which replaces the refs in a table by the values they stand for; model.py: `RefCollection` and `ValueCollection`.

* The refs of a frame are loaded when the frame is made (`loadObjs`); `eval_df` unwraps the refs in the table.
* A cell is given by the ids of its objects, as in `Table`. A null is not a ref, and `unwrap` leaves it alone (model.py:391-405).
* Left out: what pandas makes of columns of values (`[1, None]` becomes a column of floats with a `NaN`).
-/
namespace Verif

/-- What is in a cell of the table that `eval_df` returns: a value, a `ValueCollection` (model.py:539-547), or the refs or calls
that were there. -/
inductive ECell
  | val (v : Val)
  | vals (vs : List Val)
  | ids (hs : List String)
  deriving Inhabited, Repr

instance : BEq ECell where
  beq
    | .val a, .val b => Val.beq a b
    | .vals a, .vals b => Val.beq (.list a) (.list b)
    | .ids a, .ids b => a == b
    | _, _ => false

/-- A row of this table: for each column the cell; `none` is null -/
abbrev ERow := List (String × Option ECell)

/-- The refs with these ids: `load_ref` (storage.py:382-391) for each -/
def loadObjs (cfg : Cfg) (inMemory : Bool) (hs : List String) : M (Dict String Ref) :=
  M.mapM' (fun h => do
    let r ← loadRef cfg.fuel h inMemory
    M.pure (h, r)) hs

/-- `storage.unwrap` of a cell (storage.py:514-523, model.py:391-405): a ref is replaced by its value, a `RefCollection` (model.py:525-533) by
the `ValueCollection` of the values, anything else stays. -/
def evalIds (cfg : Cfg) (objs : Dict String Ref) : List String → M ECell
  | [h] => match objs.get? h with
    | some r => do
      let v ← unwrapRef cfg r
      M.pure (.val v)
    | none => M.pure (.ids [h])
  | hs => match hs with
    | h :: _ => match objs.get? h with
      | some _ => do
        let vs ← M.mapM' (fun h => do
          let r ← M.lift (getE objs h)
          unwrapRef cfg r) hs
        M.pure (.vals vs)
      | none => M.pure (.ids hs)
    | [] => M.pure (.ids [])

/-- the cell of this row in this column -/
def evalAt (cfg : Cfg) (objs : Dict String Ref) (c : String) (row : TRow) : M (Option ECell) :=
  match row.get? c with
  | none => M.pure none
  | some hs => do
    let e ← evalIds cfg objs hs
    M.pure (some e)

/-- cf.py line 1403, `self.storage.unwrap(df.values.tolist())`: row by row -/
def evalRows (cfg : Cfg) (objs : Dict String Ref) (t : Table) : M (List ERow) :=
  M.mapM' (fun row => M.mapM' (fun c => do
    let e ← evalAt cfg objs c row
    M.pure (c, e)) t.cols) t.rows

/-- the columns of a table, as rows -/
def rowsOfCols (n : Nat) (cs : List (String × List (Option ECell))) : List ERow :=
  (List.range n).map fun i => cs.map fun p => (p.1, (p.2[i]?).join)

/-- cf.py lines 1406-1407: column by column, `col in skip_cols` being asked once per column, in order -/
def evalCols (cfg : Cfg) (objs : Dict String Ref) (skip : List String) (t : Table) : M (List ERow) := do
  let cs ← M.mapM' (fun c => do
    let l ← (if c ∈ skip then M.pure (t.rows.map fun row => (row.get? c).map ECell.ids)
      else M.mapM' (evalAt cfg objs c) t.rows)
    M.pure (c, l)) t.cols
  M.pure (rowsOfCols t.rows.length cs)

/-- cf.py lines 1390-1400: with `skip_calls` the columns go whose cell in the first row is a call or a `CallCollection` -/
def withoutCalls (objs : Dict String Ref) (t : Table) : List String :=
  match t.rows with
  | [] => t.cols
  | row :: _ => t.cols.filter fun c => match row.get? c with
    | some (h :: _) => h ∈ objs.keys
    | _ => true

/-- cf.py lines 1380-1407 `eval_df` -/
def evalDf (cfg : Cfg) (objs : Dict String Ref) (skip : Option (List String)) (skipCalls : Bool) (t : Table) : M (List String × List ERow) :=
  if t.rows = [] then M.pure (t.cols, [])
  else do
    let t := if skipCalls then { t with cols := withoutCalls objs t } else t
    let rows ← (match skip with
      | none => evalRows cfg objs t
      | some sk => evalCols cfg objs sk t)
    M.pure (t.cols, rows)

/-- The same on a table made with the frame: load the refs, then `eval_df` -/
def evalFrame (cfg : Cfg) (f : CFrame) (inMemory : Bool) (skip : Option (List String)) (skipCalls : Bool) (t : Table) : M (List String × List ERow) := do
  let objs ← loadObjs cfg inMemory f.refs.keys
  evalDf cfg objs skip skipCalls t

/-- `col in skip_cols` for the columns in order, where `skip_cols` is a generator: each question takes from it up to the answer
(cf.py line 1406). The columns that are skipped. -/
def skipOnce : List String → List String → List String
  | _, [] => []
  | gen, c :: cols => if c ∈ gen then c :: skipOnce (gen.drop (gen.idxOf c + 1)) cols else skipOnce [] cols

mutual
/-- python's `hash` accepts it; an arbitrary object has a hash -/
def Val.hashable : Val → Bool
  | .list _ => false
  | .dict _ _ => false
  | .tuple xs => Val.hashables xs
  | _ => true
/-- pointwise -/
def Val.hashables : List Val → Bool
  | [] => true
  | v :: vs => v.hashable && Val.hashables vs
end

/-- The values of a set of refs, as a set: `unwrap` of a python set of refs (model.py:398-399) -/
def evalSet (cfg : Cfg) (objs : Dict String Ref) (hs : List String) : M (List Val) := do
  let vs ← M.mapM' (fun h => do
    let r ← M.lift (getE objs h)
    unwrapRef cfg r) hs
  if vs.all Val.hashable then M.pure (vs.foldl (fun acc v => if acc.any (Val.beq v) then acc else acc ++ [v]) []) else M.raise .typeError

end Verif
