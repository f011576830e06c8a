import Verif.Model.Versioner
/-!
Looking at recorded versions: `Versioner.present_dependencies`, `get_canonical_groups`, `get_flat_versions`, `show_versions` (versioner.py lines
463-627) and `Storage.get_code` (storage.py lines 1072-1099).

What is printed is a list of items instead of lines of text. `parts` takes a dependency key apart into module and name. A component stays a
function or stays a global variable (otherwise `get_presentable_content` would be that of the other kind).
-/
namespace Verif

/-- `get_presentable_content` of the two adapters, shallow_versions.py lines 101-105 and 127-128 -/
def Content.presentable : Content → String
  | .code s => s
  | .gv _ r => r

/-- `list.sort` -/
def insertBy {α : Type} (le : α → α → Bool) (x : α) : List α → List α
  | [] => [x]
  | y :: l => if le x y then x :: y :: l else y :: insertBy le x l

def sortBy {α : Type} (le : α → α → Bool) : List α → List α
  | [] => []
  | x :: l => insertBy le x (sortBy le l)

/-- A piece of the output of `present_dependencies`. -/
inductive PItem
  /-- lines 496-498 -/
  | inModule (name : String)
  /-- lines 507-510 -/
  | info (k : DepKey) (contentCommit semanticCommit : String)
  /-- lines 514-517 -/
  | globalVar (k : DepKey) (text : String)
  /-- lines 541-543 -/
  | inClass (name : String)
  /-- lines 546-550 -/
  | code (k : DepKey) (text : String)
  | blank
  deriving DecidableEq

namespace Versioner

/-- `component in keys` sorted by module and name -/
def keyLe (parts : DepKey → String × String) (a b : DepKey) : Bool :=
  decide ((parts a).1 < (parts b).1) || (decide ((parts a).1 = (parts b).1) && decide ((parts a).2 ≤ (parts b).2))

/-- `get_canonical_groups`, lines 614-619: the components of each module -/
def groupByModule (parts : DepKey → String × String) (ks : List DepKey) : Dict String (List DepKey) :=
  ks.foldl (fun acc k => acc.set (parts k).1 (((acc.get? (parts k).1).getD []) ++ [k])) []

/-- Whether the component is a function, `isinstance(self.nodes[x], CallableNode)` -/
def isFunction (s : Versioner) (k : DepKey) : Except Err Bool :=
  match s.nodes.get? k with
  | none => .error .keyError
  | some (.callable _ _) => .ok true
  | some _ => .ok false

/-- order of lines 621-624 -/
def groupLe (s : Versioner) (parts : DepKey → String × String) (a b : DepKey) : Bool :=
  let c k := match isFunction s k with | .ok true => true | _ => false
  (!c a && c b) || ((c a == c b) && keyLe parts a b)

/-- `get_canonical_groups`, lines 608-627 -/
def canonicalGroups (s : Versioner) (parts : DepKey → String × String) (ks : List DepKey) : Except Err (Dict String (List DepKey)) :=
  if ks.any fun k => !s.nodes.has k then .error .keyError
  else
    let g := (groupByModule parts ks).map fun p => (p.1, sortBy (groupLe s parts) p.2)
    .ok (sortBy (fun a b => decide (a.1 ≤ b.1)) g)

/-- the class of a method, `rsplit(".", 1)[0]`; `none` for a name without a dot -/
def classOf (name : String) : Option String :=
  match name.toList.reverse.dropWhile (· ≠ '.') with
  | [] => none
  | _ :: r => some (String.ofList r.reverse)

/-- `is_class_start`, lines 521-539, given the function before -/
def isClassStart (prev : Option String) (name : String) : Bool :=
  match classOf name, prev with
  | none, _ => false
  | some _, none => true
  | some c, some p => match classOf p with | none => true | some c' => decide (c' ≠ c)

/-- lines 500-510: the commits of the components of the module, all of which must be there -/
def moduleCommits (s : Versioner) (commits : Dict DepKey String) : List DepKey → Except Err (List (DepKey × TNode × String × String))
  | [] => .ok []
  | k :: ks =>
    match commits.get? k, s.nodes.get? k, s.dags.get? k with
    | some h, some n, some dag =>
      match dag.commits.get? h with
      | none => .error .keyError
      | some c =>
        match moduleCommits s commits ks with
        | .error e => .error e
        | .ok l => .ok ((k, n, h, c.semanticHash) :: l)
    | _, _, _ => .error .keyError

/-- `get_presentable_content` of the history of the component, with the depth of recursion that is left -/
def presentable (fuel : Nat) (s : Versioner) (k : DepKey) (h : String) : Except Err String :=
  match s.dags.get? k with
  | none => .error .keyError
  | some dag => match dag.getContent fuel h with | .error e => .error e | .ok c => .ok c.presentable

/-- lines 511-517 -/
def presentGlobals (fuel : Nat) (s : Versioner) (info : Bool) : List (DepKey × TNode × String × String) → Except Err (List PItem)
  | [] => .ok []
  | (k, _, h, sem) :: rest =>
    match presentable fuel s k h with
    | .error e => .error e
    | .ok t =>
      match presentGlobals fuel s info rest with
      | .error e => .error e
      | .ok l => .ok ((if info then [.info k h sem] else []) ++ .globalVar k t :: l)

/-- lines 540-551 -/
def presentFunctions (parts : DepKey → String × String) (fuel : Nat) (s : Versioner) (info : Bool) :
    Option String → List (DepKey × TNode × String × String) → Except Err (List PItem)
  | _, [] => .ok []
  | prev, (k, _, h, sem) :: rest =>
    match presentable fuel s k h with
    | .error e => .error e
    | .ok t =>
      match presentFunctions parts fuel s info (some (parts k).2) rest with
      | .error e => .error e
      | .ok l =>
        .ok ((if isClassStart prev (parts k).2 then [.inClass ((classOf (parts k).2).getD "")] else []) ++ (if info then [.info k h sem] else []) ++
          .code k t :: .blank :: l)

/-- The components of one module, lines 496-551 -/
def presentModule (parts : DepKey → String × String) (fuel : Nat) (s : Versioner) (info : Bool) (commits : Dict DepKey String) (m : String)
    (ks : List DepKey) : Except Err (List PItem) :=
  match moduleCommits s commits ks with
  | .error e => .error e
  | .ok l =>
    let sorted := sortBy fun (a b : DepKey × TNode × String × String) => keyLe parts a.1 b.1
    match presentGlobals fuel s info (sorted (l.filter fun p => match p.2.1 with | .globalVar _ _ => true | _ => false)) with
    | .error e => .error e
    | .ok gs =>
      match presentFunctions parts fuel s info none (sorted (l.filter fun p => match p.2.1 with | .callable _ _ => true | _ => false)) with
      | .error e => .error e
      | .ok fs => .ok (.inModule m :: gs ++ .blank :: fs)

/-- The loop over the modules -/
def presentModules (parts : DepKey → String × String) (fuel : Nat) (s : Versioner) (info : Bool) (commits : Dict DepKey String) :
    List (String × List DepKey) → Except Err (List PItem)
  | [] => .ok []
  | (m, ks) :: rest =>
    match presentModule parts fuel s info commits m ks with
    | .error e => .error e
    | .ok a =>
      match presentModules parts fuel s info commits rest with
      | .error e => .error e
      | .ok b => .ok (a ++ b)

/-- `Versioner.present_dependencies`, versioner.py lines 482-552 -/
def presentDependencies (parts : DepKey → String × String) (fuel : Nat) (s : Versioner) (info : Bool) (commits : Dict DepKey String) : Except Err (List PItem) :=
  match canonicalGroups s parts commits.keys with
  | .error e => .error e
  | .ok g => presentModules parts fuel s info commits g

/-- `get_flat_versions`, versioner.py lines 463-468 -/
def flatVersions (s : Versioner) : Dict String Version :=
  s.versions.foldl (fun acc p => p.2.foldl (fun acc q => acc.set q.1 q.2) acc) []

/-- `show_versions` (versioner.py lines 554-606) without `only_semantic`: for each recorded version of the component its ids and dependencies -/
def showVersions (parts : DepKey → String × String) (fuel : Nat) (s : Versioner) (info : Bool) (component : DepKey) :
    Except Err (List (String × String × List PItem)) :=
  match s.versions.get? component with
  | none => .error .keyError
  | some vs => vs.foldr (fun p acc =>
      match presentDependencies parts fuel s info p.2.semanticExpansion, acc with
      | .error e, _ => .error e
      | .ok _, .error e => .error e
      | .ok t, .ok l => .ok ((p.2.contentVersion, p.2.semanticVersion, t) :: l)) (.ok [])

/-- What `get_code` returns: the content of a commit, or a listing -/
inductive Shown
  | content (c : Content)
  | listing (l : List PItem)
  deriving DecidableEq

/-- `Storage.get_code`, storage.py lines 1072-1099 -/
def getCode (parts : DepKey → String × String) (fuel : Nat) (s : Versioner) (versionId : String) (info : Bool) : Except Err Shown :=
  match s.dags.find? fun p => p.2.commits.has versionId with
  | some p => match p.2.getContent fuel versionId with | .error e => .error e | .ok c => .ok (.content c)
  | none =>
    match s.flatVersions.get? versionId with
    | some v => match presentDependencies parts fuel s info v.semanticExpansion with | .error e => .error e | .ok l => .ok (.listing l)
    | none => .error .valueError

/-- `.splitlines()` in `_get_colorized_diff` (viz.py lines 93-95): the content of a global variable is a tuple -/
def Shown.hasLines : Shown → Bool
  | .content (.gv _ _) => false
  | _ => true

/-- `Storage.diff`, storage.py lines 1101-1114: the two texts that are compared line by line -/
def diffTexts (parts : DepKey → String × String) (fuel : Nat) (s : Versioner) (id1 id2 : String) : Except Err (Shown × Shown) :=
  match getCode parts fuel s id1 false with
  | .error e => .error e
  | .ok a =>
    match getCode parts fuel s id2 false with
    | .error e => .error e
    | .ok b => if a.hasLines && b.hasLines then .ok (a, b) else .error .attributeError

end Versioner
end Verif
