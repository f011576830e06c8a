import Verif.Basic.Dict
import Verif.Basic.Err
/-!
The shallow code history of one dependency: mandala/deps/shallow_versions.py, classes `Commit` and `DAG`.

The content type `C` (source text, or hash and repr of a global variable) and its hash are parameters: the two content
adapters (lines 88-137) differ only in these. Both adapters take the pair `(new, old)` as the diff and apply it by
returning the first component. Printing and the diff shown to the user are left out; the user's answer is an input.
-/
namespace Verif

/-- The answer to the question "Does this change require recomputation of dependent calls?" (lines 256-259). `ask_user`
repeats the question until it gets one of the three. -/
inductive Answer
  | yes
  | no
  | abort
  deriving DecidableEq, Repr

/-- `class Commit`, lines 31-60 -/
structure Commit (K C : Type) where
  parents : List K
  diffs : List (C × C)
  contentHash : K
  semanticHash : K
  content : Option C
  deriving DecidableEq

/-- `class DAG`, lines 139-157: the fields `head`, `commits`, `_initial_commit` -/
structure Dag (K C : Type) where
  head : Option K
  commits : Dict K (Commit K C)
  initialCommit : Option K
  deriving DecidableEq

namespace Dag

variable {K C : Type} [DecidableEq K]

/-- `DAG.__init__`, lines 144-157 -/
def new : Dag K C := ⟨none, [], none⟩

/-- `get_diff`, lines 17-21, 115-119 -/
def getDiff (a b : C) : C × C := (a, b)

/-- `apply_diff`, lines 24-28, 121-125 -/
def applyDiff (_b : C) (diff : C × C) : C := diff.1

/-- `DAG.get_content`, lines 181-190. Recursion along the first parent, with fuel; a commit without content has a parent
by the assertion in `Commit.check_invariants`. -/
def getContent (d : Dag K C) : Nat → K → Except Err C
  | 0, _ => .error .recursionError
  | f + 1, k =>
    match d.commits.get? k with
    | none => .error .valueError
    | some o =>
      match o.content with
      | some c => .ok c
      | none =>
        match o.parents.head? with
        | none => .error .indexError
        | some p =>
          match getContent d f p with
          | .error e => .error e
          | .ok pc =>
            match o.diffs.head? with
            | none => .error .indexError
            | some df => .ok (applyDiff pc df)

/-- `DAG.init`, lines 192-211 -/
def init (hash : C → K) (d : Dag K C) (c : C) : Except Err (Dag K C × K) :=
  if d.head ≠ none then .error .assertionError
  else
    let k := hash c
    .ok (⟨some k, d.commits.set k ⟨[], [], k, k, some c⟩, some k⟩, k)

/-- `DAG.checkout`, lines 213-223 (`implicit_merge` is not implemented there) -/
def checkout (d : Dag K C) (k : K) : Except Err (Dag K C) :=
  if d.commits.has k then .ok { d with head := some k } else .error .valueError

/-- Lines 234-262: whether the change counts as semantic; `none` when the user aborts. -/
def declared (isSemanticChange : Option Bool) (answer : Answer) : Option Bool :=
  match isSemanticChange with
  | some b => some b
  | none => match answer with | .yes => some true | .no => some false | .abort => none

/-- `DAG.commit`, lines 225-283. Showing the diff reads the content of the head (line 237), which the diff at line 267
does again. -/
def commit (hash : C → K) (d : Dag K C) (c : C) (isSemanticChange : Option Bool) (answer : Answer) : Except Err (Dag K C × K) :=
  match d.head with
  | none => .error .assertionError
  | some h =>
    let k := hash c
    if d.commits.has k then .error .assertionError
    else
      match d.commits.get? h with
      | none => .error .keyError
      | some ho =>
        match declared isSemanticChange answer with
        | none => .error .valueError
        | some b =>
          let sem := if b then k else ho.semanticHash
          match getContent d (d.commits.length + 1) h with
          | .error e => .error e
          | .ok hc => .ok (⟨some k, d.commits.set k ⟨[h], [getDiff c hc], k, sem, none⟩, d.initialCommit⟩, k)

/-- `DAG.sync`, lines 285-304 -/
def sync (hash : C → K) (d : Dag K C) (c : C) (isSemanticChange : Option Bool) (answer : Answer) : Except Err (Dag K C × K) :=
  match d.head with
  | none => .error .assertionError
  | some h =>
    let k := hash c
    if h = k then .ok (d, h)
    else if d.commits.has k then
      match d.checkout k with
      | .error e => .error e
      | .ok d' => .ok (d', k)
    else d.commit hash c isSemanticChange answer

/-- `DAG.check_invariants`, lines 164-171 with `Commit.check_invariants`, lines 55-57 -/
def checkInvariants (d : Dag K C) : Bool :=
  (match d.head with | none => true | some h => d.commits.has h) &&
  d.commits.all fun p =>
    (p.2.parents.length == p.2.diffs.length) && (decide (0 < p.2.parents.length) || p.2.content.isSome) &&
    p.2.parents.all (fun q => d.commits.has q) && decide (p.2.contentHash = p.1) && d.commits.has p.2.semanticHash

/-- A use of the history of one dependency. -/
inductive Step (K C : Type)
  | init (c : C)
  | checkout (k : K)
  | commit (c : C) (isSemanticChange : Option Bool) (answer : Answer)
  | sync (c : C) (isSemanticChange : Option Bool) (answer : Answer)

/-- One use; an exception leaves the object as it was, since nothing is assigned before the last exception. -/
def step (hash : C → K) (d : Dag K C) : Step K C → Dag K C
  | .init c => match d.init hash c with | .ok r => r.1 | .error _ => d
  | .checkout k => match d.checkout k with | .ok r => r | .error _ => d
  | .commit c b a => match d.commit hash c b a with | .ok r => r.1 | .error _ => d
  | .sync c b a => match d.sync hash c b a with | .ok r => r.1 | .error _ => d

/-- Any sequence of uses. -/
def run (hash : C → K) (d : Dag K C) (ops : List (Step K C)) : Dag K C := ops.foldl (step hash) d

end Dag
end Verif
