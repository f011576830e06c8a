import Verif.Model.Outputs
/-!
Type annotations of parameters and results, as read by `Type.from_annotation` (tps.py:34-73) and `parse_returns` (utils.py:251-274).
-/
namespace Verif

/-- What may stand in a signature as an annotation, as far as the code tells them apart:
nothing (`inspect._empty`), `None`, `Any`, `Tuple` of `typing` by itself, `Tuple[A1, ..., An]`, `Tuple[A, ...]`, `MList[A]`, `MDict[K, A]`, `MSet[A]`, `MTuple[...]`,
an instance of `Type`, and everything else (classes such as `int` or `tuple`, strings, `Optional[...]`, `List[...]`, `MList` by itself). -/
inductive Ann
  | absent
  | none_
  | any
  | bareTuple
  | tuple (args : List Ann)
  | tupleVar (a : Ann)
  | mlist (a : Ann)
  | mdict (key a : Ann)
  | mset (a : Ann)
  | mtuple (args : List Ann)
  | type_ (t : Ty)
  | other (name : String)

/-- `Type.from_annotation` (tps.py:34-73). Simplified: the key type of a dictionary is not kept. -/
def fromAnn : Ann → Ty
  | .mlist a => .coll .list (fromAnn a)
  | .mdict _ a => .coll .dict (fromAnn a)
  | .mset _ => .unsupported
  | .mtuple _ => .unsupported
  | .type_ t => t
  | _ => .atom

/-- The annotation of the result, as `parse_returns` sees it (utils.py:251-274); `from_annotation` is applied to the parts (storage.py:904-907). -/
def Ann.ret : Ann → RetAnn
  | .absent => .none
  | .bareTuple => .bareTuple
  | .tuple as => .tuple (as.map fromAnn)
  | .tupleVar a => .tupleVar (fromAnn a)
  | a => .single (fromAnn a)

end Verif
