import Verif.Model.Versioner
import Verif.Basic.PySet
/-!
Printing a code history: `DAG.show` (mandala/deps/shallow_versions.py lines 433-471) and `Storage.source_history` (mandala/storage.py lines 1039-1061).

What is printed is a list of entries instead of lines of text; the tree of `rich` (lines 392-426) has the same entries. An entry has the contents, not yet as text. The order
in which python iterates over a set of commits is a parameter.
-/
namespace Verif

/-- What is printed of the content of a commit: the content, or the lines in which it differs from that of the parent. -/
inductive ShownBody (C : Type)
  | code (c : C)
  | diff (old new : C)
  deriving DecidableEq

/-- What `show` prints of a commit: its indentation, the header lines of lines 349-359, the content. -/
structure ShownCommit (K C : Type) where
  commit : K
  depth : Nat
  head : Bool
  ids : Option (K × K)
  body : ShownBody C
  deriving DecidableEq

namespace Dag

variable {K C : Type} [DecidableEq K]

/-- `_get_tree_neighbors_representation`, lines 309-319 -/
def treeNeighbors (d : Dag K C) : Dict K (List K) :=
  d.commits.foldl (fun acc p =>
    match p.2.parents.head? with
    | none => acc
    | some q => acc.set q (PySet.add ((acc.get? q).getD []) p.2.contentHash)) []

/-- `get_commit_presentation`, lines 321-360; `ids` stands for the argument `include_metadata` -/
def presentation (d : Dag K C) (k : K) (diffOnly ids : Bool) (depth : Nat) : Except Err (ShownCommit K C) := do
  let body ← (if diffOnly then
    if d.head = none then .error .assertionError
    else if some k = d.initialCommit then do
      let c ← d.getContent (d.commits.length + 1) k
      pure (.code c)
    else
      match d.commits.get? k with
      | none => .error .keyError
      | some o =>
        match o.parents.head? with
        | none => .error .indexError
        | some p => do
          let pc ← d.getContent (d.commits.length + 1) p
          match o.diffs.head? with
          | none => .error .indexError
          | some df => pure (.diff pc (applyDiff pc df))
  else do
    let c ← d.getContent (d.commits.length + 1) k
    pure (.code c))
  match d.commits.get? k with
  | none => .error .keyError
  | some o => pure ⟨k, depth, d.head = some k, if ids then some (k, o.semanticHash) else none, body⟩

/-- `visit`, lines 456-468; recursion with fuel -/
def showUnder (d : Dag K C) (ord : List K → List K) (diffOnly ids : Bool) : Nat → K → Nat → Except Err (List (ShownCommit K C))
  | 0, _, _ => .error .recursionError
  | f + 1, k, depth =>
    match d.treeNeighbors.get? k with
    | none => .ok []
    | some cs => (ord cs).foldlM (fun acc c => do
        let e ← d.presentation c diffOnly ids (depth + 1)
        let rest ← showUnder d ord diffOnly ids f c (depth + 1)
        pure (acc ++ e :: rest)) []

/-- `show`, lines 433-471. Without head nothing is printed. -/
def showAll (d : Dag K C) (ord : List K → List K) (diffOnly ids : Bool) : Except Err (List (ShownCommit K C)) :=
  if d.head = none then .ok []
  else
    match d.initialCommit with
    | none => .error .valueError
    | some r => do
      let e ← d.presentation r diffOnly ids 0
      let rest ← d.showUnder ord diffOnly ids (d.commits.length + 1) r 0
      pure (e :: rest)

end Dag

/-- `Storage.source_history`, mandala/storage.py lines 1052-1061, after the title -/
def Versioner.sourceHistory (s : Versioner) (component : DepKey) (ord : List String → List String) (compact ids : Bool) : Except Err (List (ShownCommit String Content)) :=
  match s.dags.get? component with
  | none => .error .keyError
  | some d => d.showAll ord compact ids

end Verif
