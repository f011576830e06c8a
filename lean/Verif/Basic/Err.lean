/-!
Python exceptions as values.
-/
namespace Verif

/-- The exception classes that the modelled code raises or lets through. -/
inductive Err
  | keyError
  | valueError
  | assertionError
  | typeError
  | runtimeError
  | attributeError
  | indexError
  | notImplemented
  | fileNotFound
  | integrityError
  | operationalError
  | userError (tag : Nat)
  | recursionError
  | unmodelled
  deriving DecidableEq, Repr

/-- Result of a python statement on a mutable object: the value or exception, and the object
afterwards (mutations made before an exception stay). -/
abbrev Res (σ α : Type) := Except Err α × σ

deriving instance DecidableEq for Except

end Verif
