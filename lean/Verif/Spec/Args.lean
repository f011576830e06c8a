import Verif.Model.Args
import Verif.Basic.ListRel
/-!
What passing arguments to an op should mean.
-/
namespace Verif
namespace Args

variable {A : Type}

/-- The object inside all `Ignore` and `NewArgDefault` wrappers. -/
def PV.bare : PV A → PV A
  | .ignore v => v.bare
  | .newArg v => v.bare
  | v => v

/-- The number of wrappers. -/
def PV.layers : PV A → Nat
  | .ignore v => v.layers + 1
  | .newArg v => v.layers + 1
  | _ => 0

/-- Parameter `n`, bound to `v` in the caller's expression, is bound to `w` in the body of the function: to `v` itself without
wrappers; or to the value inside its `NewArgDefault` default if `v` compares equal to that. For `*args` and `**kwargs` this is
meant element by element, and the order of `**kwargs` is left open. -/
def Received (sig : Sig A) (eqd : PV A → PV A → Bool) (n : String) (v w : PV A) : Prop :=
  (∃ q, sig.varPos = some q ∧ q.1 = n ∧ ∃ vs, v = .tup vs ∧ w = .tup (vs.map PV.bare)) ∨
  (∃ q, sig.varKw = some q ∧ q.1 = n ∧ ∃ d d', v = .dct d ∧ w = .dct d' ∧ ∀ k, Dict.get? d' k = (Dict.get? d k).map PV.bare) ∨
  (∃ p ∈ sig.posOnly ++ sig.posOrKw ++ sig.kwOnly, p.name = n ∧
    (w = v.bare ∨ ∃ d, p.default = some (.newArg d) ∧ eqd d v = true ∧ w = d))

/-- All parameters of the body are bound as in the caller's expression. -/
def SameCall (sig : Sig A) (eqd : PV A → PV A → Bool) (b b' : Dict String (PV A)) : Prop :=
  b'.keys = b.keys ∧ ∀ n v, b.get? n = some v → ∃ w, b'.get? n = some w ∧ Received sig eqd n v w

/-- At most `L` wrappers around any argument, counting the op's own `ignore_args` as one. -/
def Shallow (L : Nat) (ig : List String) (b : Dict String (PV A)) : Prop :=
  ∀ n v, b.get? n = some v → v.layers + (if n ∈ ig then 1 else 0) ≤ L ∧ (∀ x ∈ v.elems, x.layers ≤ L) ∧
    ∀ x ∈ v.entries, x.2.layers ≤ L

/-- The default inside a `NewArgDefault` is not itself wrapped. -/
def DefaultsOK (sig : Sig A) : Prop := ∀ p ∈ sig.posOnly ++ sig.posOrKw ++ sig.kwOnly, ∀ d, p.default = some (.newArg d) → d.layers = 0

/-- Two arguments that differ at most by what is inside `Ignore(...)`. -/
def SameButMarked (v w : PV A) : Prop := v = w ∨ (v.isIgnore = true ∧ w.isIgnore = true)

/-- Two bindings of the same op that differ at most in ignored arguments: those the op names in `ignore_args`, and those
wrapped in `Ignore`. -/
def SameButIgnored (sig : Sig A) (ig : List String) (p q : String × PV A) : Prop :=
  p.1 = q.1 ∧
    ((sig.varPos.map (·.1) = some p.1 ∧ ∃ vs ws, p.2 = .tup vs ∧ q.2 = .tup ws ∧ All2 SameButMarked vs ws) ∨
    (sig.varKw.map (·.1) = some p.1 ∧ ∃ d e, p.2 = .dct d ∧ q.2 = .dct e ∧ All2 (fun x y => x.1 = y.1 ∧ SameButMarked x.2 y.2) d e) ∨
    (sig.varPos.map (·.1) ≠ some p.1 ∧ sig.varKw.map (·.1) ≠ some p.1 ∧ (p.1 ∈ ig ∨ SameButMarked p.2 q.2)))

/-- Where an argument ends up: a parameter, a position in `*args`, a key of `**kwargs`. -/
inductive Slot
  | par (n : String)
  | star (i : Nat)
  | kw (n : String)

/-- The non-ignored bound arguments. -/
def visible (sig : Sig A) (ig : List String) (eqd : PV A → PV A → Bool) (b : Dict String (PV A)) : Slot → Option (PV A)
  | .par n =>
    match (sig.posOnly ++ sig.posOrKw ++ sig.kwOnly).find? (fun p => p.name = n), b.get? n with
    | some p, some v =>
      if n ∈ ig ∨ v.isIgnore = true then none
      else match p.default with
        | some (.newArg d) => if eqd d v then none else some v
        | _ => some v
    | _, _ => none
  | .star i =>
    match sig.varPos with
    | none => none
    | some q =>
      match b.get? q.1 with
      | some (.tup vs) => (vs[i]?).bind fun v => if v.isIgnore then none else some v
      | _ => none
  | .kw n =>
    match sig.varKw with
    | none => none
    | some q =>
      match b.get? q.1 with
      | some (.dct d) => (Dict.get? d n).bind fun v => if v.isIgnore then none else some v
      | _ => none

/-- The annotation that applies to a slot. -/
def slotTy (sig : Sig A) : Slot → Ty
  | .par n => match (sig.posOnly ++ sig.posOrKw ++ sig.kwOnly).find? (fun p => p.name = n) with | some p => p.ty | none => .atom
  | .star _ => (sig.varPos.map (·.2)).getD .atom
  | .kw _ => (sig.varKw.map (·.2)).getD .atom

/-- The names that the elements of `*args` get are used for nothing else, and no key of `**kwargs` is the name of a parameter. -/
def NoClash (sig : Sig A) (b : Dict String (PV A)) : Prop :=
  (∀ q, sig.varPos = some q → ∀ i, ∀ p ∈ sig.posOnly ++ sig.posOrKw ++ sig.kwOnly, p.name ≠ idxName q.1 i) ∧
  (∀ q, sig.varKw = some q → ∀ d, b.get? q.1 = some (.dct d) → ∀ k ∈ Dict.keys d,
    (∀ p ∈ sig.posOnly ++ sig.posOrKw ++ sig.kwOnly, p.name ≠ k) ∧ ∀ r, sig.varPos = some r → ∀ i, k ≠ idxName r.1 i)

/-- A new version of a function: parameter `q` is added among the keyword-only parameters, or after the last ordinary one. -/
def AddsParam (q : Param A) (sig sig' : Sig A) : Prop :=
  (∃ as bs, sig.kwOnly = as ++ bs ∧ sig' = { sig with kwOnly := as ++ q :: bs }) ∨ sig' = { sig with posOrKw := sig.posOrKw ++ [q] }

/-- `b'` binds the parameters as `b` does, and `n` to `v`. -/
def Extends (b b' : Dict String (PV A)) (n : String) (v : PV A) : Prop :=
  (∀ k, k ≠ n → b'.get? k = b.get? k) ∧ b'.get? n = some v

end Args
end Verif
