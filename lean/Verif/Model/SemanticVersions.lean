import Verif.Model.Inspect
/-!
`Versioner.show_versions` with `only_semantic` (deps/versioner.py lines 554-606): one version for each meaning.
-/
namespace Verif

namespace Versioner

/-- `{v.semantic_version: v for v in versions_dict.values()}`, versioner.py line 565 -/
def representatives (vs : Dict String Version) : Dict String Version := vs.foldl (fun acc p => acc.set p.2.semanticVersion p.2) []

/-- `show_versions(component, only_semantic=True)`, versioner.py lines 554-606, simplified as `showVersions` is -/
def showSemantic (parts : DepKey → String × String) (fuel : Nat) (s : Versioner) (info : Bool) (component : DepKey) :
    Except Err (List (String × String × List PItem)) :=
  match s.versions.get? component with
  | none => .error .keyError
  | some vs => (representatives vs).foldr (fun p acc =>
      match presentDependencies parts fuel s info p.2.semanticExpansion, acc with
      | .error e, _ => .error e
      | .ok _, .error e => .error e
      | .ok t, .ok l => .ok ((p.2.contentVersion, p.2.semanticVersion, t) :: l)) (.ok [])

end Versioner
end Verif
