import Verif.Model.Versioner
import Verif.Model.SetDict
/-!
The versions of an op that are good for given code: `Versioner.get_current_versions` and `get_semantically_compatible_versions`
(deps/versioner.py lines 313-340).
-/
namespace Verif

namespace Versioner

variable (H : Val → String)

/-- `Versioner.get_current_versions`, versioner.py lines 313-323 -/
def currentVersions (s : Versioner) (component : DepKey) (cs : CodeState) : Except Err (List Version) :=
  match codestateSemanticHashes H s cs with
  | .error e => .error e
  | .ok none => .ok []
  | .ok (some hashes) =>
    match s.versions.get? component with
    | none => .error .keyError
    | some vs => .ok ((vs.map (·.2)).filter fun v => isSubdict v.semanticExpansion hashes)

/-- versioner.py lines 333-338: the list of comparisons of one version, over the keys of its semantic expansion -/
def comparisons (expansion hashes : Dict DepKey String) : List DepKey → Except Err (List Bool)
  | [] => .ok []
  | k :: ks =>
    match expansion.get? k, hashes.get? k with
    | some x, some y =>
      match comparisons expansion hashes ks with
      | .error e => .error e
      | .ok bs => .ok (decide (x = y) :: bs)
    | _, _ => .error .keyError

/-- versioner.py lines 331-340: the loop over the versions -/
def compatibleLoop (hashes : Dict DepKey String) : List Version → Except Err (List Version)
  | [] => .ok []
  | v :: rest =>
    match comparisons v.semanticExpansion hashes v.semanticExpansion.keys with
    | .error e => .error e
    | .ok bs =>
      match compatibleLoop hashes rest with
      | .error e => .error e
      | .ok l => .ok (if bs.all id then v :: l else l)

/-- `Versioner.get_semantically_compatible_versions`, versioner.py lines 325-340 -/
def compatibleVersions (s : Versioner) (component : DepKey) (cs : CodeState) : Except Err (List Version) :=
  match codestateSemanticHashes H s cs with
  | .error e => .error e
  | .ok none => .ok []
  | .ok (some hashes) =>
    match s.versions.get? component with
    | none => .error .keyError
    | some vs => compatibleLoop hashes (vs.map (·.2))

end Versioner
end Verif
