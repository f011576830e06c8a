import Verif.Model.SysTracer
/-!
What a trace made with `sys.settrace` has to contain.
-/
namespace Verif

/-- The names python gives to the code of comprehensions and of `lambda`. -/
def anonymous : List String := ["<listcomp>", "<dictcomp>", "<setcomp>", "<genexpr>", "<lambda>"]

namespace SysFrame

/-- A function (or method) of the user -/
def Tracked (c : SysFrame) : Prop := c.place = .user ∧ c.name ≠ "leaf_signal" ∧ c.name ∉ anonymous

/-- A comprehension or `lambda` of the user: part of the function that runs it -/
def Anonymous (c : SysFrame) : Prop := c.place = .user ∧ c.name ∈ anonymous

/-- The signal that the call of an op ends -/
def Signal (c : SysFrame) (d : String × TNode) : Prop := c.place ≠ .outside ∧ c.name = "leaf_signal" ∧ c.data = some d

instance (c : SysFrame) : Decidable c.Tracked := inferInstanceAs (Decidable (_ ∧ _))
instance (c : SysFrame) : Decidable c.Anonymous := inferInstanceAs (Decidable (_ ∧ _))

/-- the function that runs what the frame runs -/
def under (c : SysFrame) (p : Option SysFrame) : Option SysFrame := if c.Tracked then some c else p

end SysFrame

/-- While the function `p` runs the frames `rs`, `a` uses `b`: `a` is the function that calls the function `b` of the user, be it through library code, or the function in which
a global variable `b` is used (if not in itself, in a comprehension or `lambda` it runs), or the one that calls an op. -/
inductive SysUses : Option SysFrame → List SysRun → DKey → DKey → Prop
  | call {p rs c body} : SysRun.frame c body ∈ rs → c.Tracked → SysUses (some p) rs p.key c.key
  | glob {p rs c body g} : SysRun.frame c body ∈ rs → c.Tracked → g ∈ c.globals → SysUses p rs c.key (c.modul, g.name)
  | anon {p rs c body g} : SysRun.frame c body ∈ rs → c.Anonymous → g ∈ c.globals → SysUses (some p) rs p.key (c.modul, g.name)
  | signal {p rs c body d} : SysRun.frame c body ∈ rs → c.Signal d → SysUses (some p) rs p.key (c.modul, d.1)
  | inner {p rs c body a b} : SysRun.frame c body ∈ rs → SysUses (c.under p) body a b → SysUses p rs a b

/-- What is seen of the dependency `k`: the code of a function, the value of a global variable, the call of an op. -/
inductive SysSeen : Option SysFrame → List SysRun → DKey → TNode → Prop
  | call {p rs c body} : SysRun.frame c body ∈ rs → c.Tracked → SysSeen p rs c.key (.callable none c.runtime)
  | glob {p rs c body g h} : SysRun.frame c body ∈ rs → c.Tracked → g ∈ c.globals → g.hash = some h → SysSeen p rs (c.modul, g.name) (.globalVar h g.repr)
  | anon {p rs c body g h} : SysRun.frame c body ∈ rs → c.Anonymous → g ∈ c.globals → g.hash = some h → SysSeen (some p) rs (c.modul, g.name) (.globalVar h g.repr)
  | signal {p rs c body d} : SysRun.frame c body ∈ rs → c.Signal d → SysSeen (some p) rs (c.modul, d.1) d.2
  | inner {p rs c body k n} : SysRun.frame c body ∈ rs → SysSeen (c.under p) body k n → SysSeen p rs k n

/-- The functions of the user that no other function of the user has called. -/
inductive SysRoot : List SysRun → DKey → Prop
  | call {rs c body} : SysRun.frame c body ∈ rs → c.Tracked → SysRoot rs c.key
  | inner {rs c body k} : SysRun.frame c body ∈ rs → ¬ c.Tracked → SysRoot body k → SysRoot rs k

/-- The frame is of a kind the tracer supports, when run from `p`: methods and local functions only if they are allowed, no closures (if `strict`), all
global variables can be hashed, `lambda`s and comprehensions only inside of functions. -/
def SysFrame.Supported (strict allowMethods : Bool) (p : Option SysFrame) (c : SysFrame) : Prop :=
  c.place = .outside ∨
  (c.name = "leaf_signal" ∧ c.data ≠ none) ∨
  (c.name ≠ "leaf_signal" ∧ c.place = .mandala) ∨
  (c.name ≠ "leaf_signal" ∧ c.place = .user ∧ ('.' ∈ c.qual.toList → allowMethods = true) ∧ (∀ g ∈ c.globals, g.hash ≠ none) ∧
    (c.name ∈ anonymous → p ≠ none) ∧ (c.name ∉ anonymous → strict = true → c.closure = false))

mutual
/-- every frame is supported -/
def SysRun.Supported (strict allowMethods : Bool) (p : Option SysFrame) : SysRun → Prop
  | .frame c body => c.Supported strict allowMethods p ∧ SysRun.AllSupported strict allowMethods (c.under p) body
/-- pointwise -/
def SysRun.AllSupported (strict allowMethods : Bool) (p : Option SysFrame) : List SysRun → Prop
  | [] => True
  | r :: rs => r.Supported strict allowMethods p ∧ SysRun.AllSupported strict allowMethods p rs
end

mutual
/-- The qualified name of a function ends with its name. -/
def SysRun.Named : SysRun → Prop
  | .frame c body => (c.Tracked → SysTracer.lastPart c.qual = c.name) ∧ SysRun.AllNamed body
/-- pointwise -/
def SysRun.AllNamed : List SysRun → Prop
  | [] => True
  | r :: rs => r.Named ∧ SysRun.AllNamed rs
end

mutual
/-- No code on the way catches an exception of the tracer. -/
def SysRun.NoCatch : SysRun → Prop
  | .frame c body => c.catches = false ∧ SysRun.AllNoCatch body
/-- pointwise -/
def SysRun.AllNoCatch : List SysRun → Prop
  | [] => True
  | r :: rs => r.NoCatch ∧ SysRun.AllNoCatch rs
end

/-- The graph of the trace is what was run. -/
structure TraceOf (rs : List SysRun) (t : SysTracer) : Prop where
  edges : ∀ a b, (a, b) ∈ t.edges ↔ SysUses none rs a b
  nodes : ∀ k, k ∈ t.nodes.keys ↔ ∃ n, SysSeen none rs k n
  values : ∀ k n, t.nodes.get? k = some n → SysSeen none rs k n
  roots : ∀ k, k ∈ t.roots ↔ SysRoot rs k

end Verif
