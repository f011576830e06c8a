import Verif.Basic.PySet
/-!
The helpers on set-valued dictionaries and on adjacency dictionaries, /repo/mandala/utils.py lines 103-174 and 291-308.
-/
namespace Verif

abbrev SetDict := Dict String (List String)
abbrev Adj := Dict String SetDict

/-- `a.keys() | b.keys()` -/
def keysOr {V W : Type} (a : Dict String V) (b : Dict String W) : List String := PySet.union (PySet.ofList a.keys) b.keys

/-- `a.keys() & b.keys()` -/
def keysAnd {V W : Type} (a : Dict String V) (b : Dict String W) : List String := PySet.inter (PySet.ofList a.keys) b.keys

/-- `d.get(k, {})`, `d.get(k, set())` -/
def getOr {V : Type} (d : Dict String (List V)) (k : String) : List V := (d.get? k).getD []

/-- utils.py lines 103-106 `get_setdict_union` -/
def setdictUnion (a b : SetDict) : SetDict := (keysOr a b).map fun k => (k, PySet.union (getOr a k) (getOr b k))

/-- utils.py lines 109-112 `get_setdict_intersection` (the keys are common, so `a[k]` and `b[k]` exist) -/
def setdictInter (a b : SetDict) : SetDict := (keysAnd a b).map fun k => (k, PySet.inter (getOr a k) (getOr b k))

/-- utils.py lines 115-116 `get_dict_union_over_keys`: values of `a` win -/
def dictUnion {V : Type} (a b : Dict String V) : Dict String V :=
  (keysOr a b).filterMap fun k => ((a.get? k).or (b.get? k)).map fun v => (k, v)

/-- utils.py lines 119-122 `get_dict_intersection_over_keys`: values of `a` -/
def dictInter {V : Type} (a b : Dict String V) : Dict String V :=
  (keysAnd a b).filterMap fun k => (a.get? k).map fun v => (k, v)

/-- utils.py lines 125-130 `get_adjacency_union` -/
def adjUnion (a b : Adj) : Adj := (keysOr a b).map fun k => (k, setdictUnion (getOr a k) (getOr b k))

/-- utils.py lines 133-136 `get_adjacency_intersection` -/
def adjInter (a b : Adj) : Adj := (keysAnd a b).map fun k => (k, setdictInter (getOr a k) (getOr b k))

/-- utils.py lines 139-140 `get_nullable_union` -/
def nullableUnion : List (List String) → List String
  | [] => []
  | s :: ss => ss.foldl PySet.union s

/-- utils.py lines 143-144 `get_nullable_intersection` -/
def nullableInter : List (List String) → List String
  | [] => []
  | s :: ss => ss.foldl PySet.inter s

/-- One round of the loop of `get_adj_from_edges` for one of the two dictionaries (utils.py lines 157-161, 162-166): make
sure `d[n]` and `d[n][label]` exist and add `m` to `d[n][label]`. -/
def adjAdd (d : Adj) (n label m : String) : Adj :=
  d.set n (Dict.set (getOr d n) label (PySet.add (getOr (getOr d n) label) m))

/-- utils.py lines 167-172: make sure the node has an entry. -/
def adjSupport (d : Adj) (n : String) : Adj := if d.has n then d else d.set n []

/-- utils.py lines 147-173 `get_adj_from_edges`; edges are (source, destination, label) -/
def adjFromEdges (edges : List (String × String × String)) (support : Option (List String)) : Adj × Adj :=
  let out := edges.foldl (fun d e => adjAdd d e.1 e.2.2 e.2.1) []
  let inp := edges.foldl (fun d e => adjAdd d e.2.1 e.2.2 e.1) []
  match support with
  | none => (out, inp)
  | some ns => (ns.foldl adjSupport out, ns.foldl adjSupport inp)

/-- utils.py lines 291-295 `is_subdict` -/
def isSubdict {V : Type} [DecidableEq V] (a b : Dict String V) : Bool :=
  a.keys.all fun k => b.get? k ≠ none && a.get? k = b.get? k

/-- utils.py lines 298-307 `invert_dict` -/
def invertDict {K V : Type} [DecidableEq V] (d : Dict K V) : Dict V (List K) :=
  d.foldl (fun out p => out.set p.2 ((out.get? p.2).getD [] ++ [p.1])) []

end Verif
