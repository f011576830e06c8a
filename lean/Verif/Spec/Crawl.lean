import Verif.Model.Crawl
/-!
What the names of a program stand for.
-/
namespace Verif.Props

open Verif

/-- Following `__wrapped__` from `a` ends at `c`. -/
inductive Wraps (w : PyProc) : Addr → Addr → Prop
  | last {a : Addr} (hf : ∀ m q s rt b, w.obj a ≠ .func m q s rt (some b)) (hw : ∀ k b, w.obj a ≠ .wrapping k b) : Wraps w a a
  | func {a b c : Addr} {m q : String} {s : Option String} {rt : String} (h : w.obj a = .func m q s rt (some b)) (hb : Wraps w b c) : Wraps w a c
  | wrapping {a b c : Addr} {k : Wrapping} (h : w.obj a = .wrapping k b) (hb : Wraps w b c) : Wraps w a c

/-- Calling the object executes the function with this source and this bytecode, possibly inside decorators. -/
def FunctionAt (w : PyProc) (a : Addr) (s rt : String) : Prop :=
  ∃ b c m q o, (w.obj a = .op b ∨ (∀ f, w.obj a ≠ .op f) ∧ b = a) ∧ Wraps w b c ∧ w.obj c = .func m q (some s) rt o

/-- In the module, the dotted name stands for the object. -/
inductive Denotes (w : PyProc) (m : String) : List String → Addr → Prop
  | top {d : Dict String Addr} {x : String} {a : Addr} (hm : w.modules.get? m = some d) (hx : d.get? x = some a) : Denotes w m [x] a
  | attr {p : List String} {a b : Addr} {c x : String} {own inh : Dict String Addr} (hp : Denotes w m p a) (ha : w.obj a = .cls c own inh)
      (hb : own.get? x = some b ∨ own.get? x = none ∧ inh.get? x = some b) : Denotes w m (p ++ [x]) (w.bound b)

/-- A part of the module: in its dictionary, or in a class of the module that is part of it. -/
inductive Part (w : PyProc) (m : String) : Addr → Prop
  | top {d : Dict String Addr} {x : String} {a : Addr} (hm : w.modules.get? m = some d) (hx : (x, a) ∈ d) : Part w m a
  | attr {a b : Addr} {x : String} {own inh : Dict String Addr} (hp : Part w m a) (ha : w.obj a = .cls m own inh) (hb : (x, b) ∈ own) : Part w m b

/-- The function object that stands behind: of an op, inside of decorators, or the constructor of a class. -/
inductive Behind (w : PyProc) : Addr → Addr → Prop
  | op {a f : Addr} (h : w.obj a = .op f) : Behind w a f
  | func {a c : Addr} (h : ∀ f, w.obj a ≠ .op f) (hc : Wraps w a c) {m q s rt o} (hf : w.obj c = .func m q s rt o) : Behind w a c
  | cls {a c i : Addr} {m : String} {own inh : Dict String Addr} (hc : Wraps w a c) (h : w.obj c = .cls m own inh)
      (hi : own.get? "__init__" = some i ∨ own.get? "__init__" = none ∧ inh.get? "__init__" = some i) : Behind w a i

/-- What names itself as function `q` of the module. -/
def Named (w : PyProc) (m q : String) (v : Addr) : Prop := ∃ s rt o, w.obj v = .func m q s rt o

/-- Functions of the module sit where their names say: whatever is part of the module and names itself a function of it has the code of what
this name stands for. -/
def Tidy (w : PyProc) (m : String) : Prop :=
  ∀ a v q, Part w m a → Behind w a v → Named w m q v → ∀ s rt, FunctionAt w v s rt → ∃ a', Denotes w m (splitDots q) a' ∧ FunctionAt w a' s rt

/-- The constructor that the class has or inherits. -/
def InitOf (own inh : Dict String Addr) (i : Addr) : Prop := own.get? "__init__" = some i ∨ own.get? "__init__" = none ∧ inh.get? "__init__" = some i

/-- Parts of the module, except those in classes that inherit a constructor written in another module. Of these nothing is found unless the
storage is strict. -/
inductive Searched (w : PyProc) (strict : Bool) (m : String) : Addr → Prop
  | top {d : Dict String Addr} {x : String} {a : Addr} (hm : w.modules.get? m = some d) (hx : (x, a) ∈ d) : Searched w strict m a
  | attr {a b : Addr} {x : String} {own inh : Dict String Addr} (hp : Searched w strict m a) (ha : w.obj a = .cls m own inh) (hb : (x, b) ∈ own)
      (hi : strict = true ∨ ∀ i m' q s rt o, InitOf own inh i → w.obj i = .func m' q s rt o → m' = m) : Searched w strict m b

/-- The kinds of objects that are recognised as functions. -/
def Recognised (w : PyProc) (strict : Bool) (a : Addr) : Prop :=
  (∃ f, w.obj a = .op f) ∨ (∃ m q s rt o, w.obj a = .func m q s rt o) ∨
    strict = false ∧ ∃ k f, w.obj a = .wrapping k f ∧ k ≠ .clsmethod

/-- `b` is inside of `a`: wrapped by it, or in the dictionary of the class `a` of the module. -/
def Inside (w : PyProc) (m : String) (a b : Addr) : Prop :=
  (∃ mo q s rt, w.obj a = .func mo q s rt (some b)) ∨ (∃ k, w.obj a = .wrapping k b) ∨ ∃ own inh x, w.obj a = .cls m own inh ∧ (x, b) ∈ own

/-- A module whose functions can be read. -/
structure Readable (w : PyProc) (fuel : Nat) (strict : Bool) (m : String) : Prop where
  /-- wrapping and nesting of classes is not deeper than the limit -/
  depth : ∃ rank : Addr → Nat, (∀ a, rank a < fuel) ∧ ∀ a b, Inside w m a b → rank b < rank a
  /-- its functions have sources -/
  source : ∀ a v q, Part w m a → Behind w a v → Named w m q v → ∃ s rt, FunctionAt w v s rt
  /-- ops are made of functions -/
  ops : ∀ a f, Part w m a → w.obj a = .op f → ∃ mo q s rt o, w.obj f = .func mo q s rt o
  /-- if the storage is strict, decorators are applied to functions -/
  wrapped : strict = true → ∀ a mo q s rt o, Part w m a → w.obj a = .func mo q s rt o → ∃ v mo' q' s' rt' o', Wraps w a v ∧ w.obj v = .func mo' q' s' rt' o'

/-- The component is still there, as a function with a source or a value that can be hashed. -/
def Present (w : PyProc) (k : DKey) : TNode → Prop
  | .callable _ _ => ∃ a s rt, Denotes w k.1 (splitDots k.2) a ∧ FunctionAt w a s rt
  | .globalVar _ _ => ∃ a h, Denotes w k.1 (splitDots k.2) a ∧ w.hash a = some h
  | .terminal _ _ => False

/-- As a function the component is now a function with a source, as a variable it is now a value that can be hashed, and no function. -/
def Kept (w : PyProc) (k : DKey) : TNode → Prop
  | .callable _ _ => ∃ a s rt, Denotes w k.1 (splitDots k.2) a ∧ FunctionAt w a s rt
  | .globalVar _ _ => ∃ a h, Denotes w k.1 (splitDots k.2) a ∧ w.hash a = some h ∧ ∀ s rt, ¬ FunctionAt w a s rt
  | .terminal _ _ => False

/-- The module has a function that names itself so. -/
def Own (w : PyProc) (k : DKey) : Prop := ∃ a v, Part w k.1 a ∧ Behind w a v ∧ Named w k.1 k.2 v

/-- The module has a function that names itself so, in a place that is searched. -/
def InPlace (w : PyProc) (strict : Bool) (k : DKey) : Prop := ∃ a v, Searched w strict k.1 a ∧ Recognised w strict a ∧ Behind w a v ∧ Named w k.1 k.2 v

/-- `src` says what the names in `S` stand for. -/
structure CodeOf (w : PyProc) (enc : DKey → DepKey) (S : DKey → Prop) (src : DepKey → Option TNode) : Prop where
  fn : ∀ d a s rt, S d → Denotes w d.1 (splitDots d.2) a → FunctionAt w a s rt → src (enc d) = some (.callable (some s) rt)
  glob : ∀ d a h, S d → Denotes w d.1 (splitDots d.2) a → (∀ s rt, ¬ FunctionAt w a s rt) → w.hash a = some h → src (enc d) = some (.globalVar h (w.repr a))
  only : ∀ k s rt, src k = some (.callable (some s) rt) → ∃ d a, S d ∧ k = enc d ∧ Denotes w d.1 (splitDots d.2) a ∧ FunctionAt w a s rt

end Verif.Props
