import Verif.Model.Inspect
/-!
What is printed on entering a context when code has changed, before the user is asked what the change is: `Versioner.sync_codebase`
(deps/versioner.py lines 274-295) with `get_dependent_versions` (lines 470-480) and `Version.presentation`
(deps/deep_versions.py lines 47-49).

Simplified: a line is kept as its parts (component, content version, semantic version), the texts around them and the indentation are left
out; the diff shown afterwards is C88.
-/
namespace Verif

namespace Versioner

/-- `get_dependent_versions`, versioner.py lines 470-480 -/
def dependentVersions (s : Versioner) (k : DepKey) (commit : String) : Except Err (List Version) :=
  match s.dags.get? k with
  | none => .error .keyError
  | some d =>
    match d.commits.get? commit with
    | none => .error .keyError
    | some c => .ok ((s.flatVersions.map (·.2)).filter fun v => decide (v.semanticExpansion.get? k = some c.semanticHash))

/-- `Version.presentation`, deep_versions.py lines 47-49: component, content version and semantic version -/
def presentation (v : Version) : DepKey × String × String := (v.component, v.contentVersion, v.semanticVersion)

/-- versioner.py lines 289-291: "CHANGE DETECTED in …" and the lines under "Dependent components" -/
structure Notice where
  component : DepKey
  dependents : List (DepKey × String × String)
  deriving DecidableEq

variable (H : Val → String)

/-- `Versioner.sync_codebase`, lines 279-293: what is printed in the loop over the histories, up to where it fails -/
def notices (s : Versioner) (cs : CodeState) (answer : DepKey → Answer) : List (DepKey × Dag String Content) → List Notice
  | [] => []
  | (k, dag) :: rest =>
    match cs.get? k with
    | none => []
    | some n =>
      match n.content with
      | none => []
      | some c =>
        let go : List Notice := match dag.sync (Content.hash H) c none (answer k) with
          | .error _ => []
          | .ok _ => notices s cs answer rest
        if dag.commits.has (c.hash H) then go
        else
          match dag.head with
          | none => go
          | some h =>
            match s.dependentVersions k h with
            | .error _ => []
            | .ok vs => ⟨k, vs.map presentation⟩ :: go

end Versioner
end Verif
