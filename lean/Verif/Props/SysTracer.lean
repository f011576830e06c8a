import Verif.Proofs.SysTracer
/-!
C80: the tracer based on `sys.settrace` records what was run.
-/
namespace Verif.Props
open Verif SysTracer

theorem traceOf_run (strict allowMethods : Bool) (rs : List SysRun) (hn : SysRun.AllNamed rs) (hs : SysRun.AllSupported strict allowMethods none rs) :
    (trace strict allowMethods rs).1 = none ∧ (trace strict allowMethods rs).2.active = true ∧ (trace strict allowMethods rs).2.stack = [] ∧
      TraceOf rs (trace strict allowMethods rs).2 := by
  have hin : In strict allowMethods none (new strict allowMethods) := ⟨rfl, rfl, rfl, rfl, ⟨fun _ => rfl, fun _ => rfl⟩, fun c h => nomatch h⟩
  obtain ⟨t', hr, g⟩ := (runFrames_spec strict allowMethods rs none _ hin hn).1 hs
  unfold trace
  rw [hr]
  refine ⟨rfl, g.act, g.stk, ⟨fun a b => ?_, fun k => ?_, fun k n h => ?_, fun k => ?_⟩⟩
  · rw [g.edg]
    exact ⟨fun h => h.elim (fun h => nomatch h) id, .inr⟩
  · rw [g.nod]
    exact ⟨fun h => h.elim (fun h => nomatch h) id, .inr⟩
  · exact (g.val k n h).elim (fun h => nomatch h) id
  · rw [g.roo]
    exact ⟨fun h => h.elim (fun h => nomatch h) And.right, fun h => .inr ⟨rfl, h⟩⟩

/-- C80. A block of code is traced, whatever functions it runs, nested and repeated in whatever way, in code of the user, of mandala or of libraries. If nothing in the
way catches exceptions of the tracer and the block ends without an exception of the tracer, then every frame was of a supported kind, and the graph is exactly what
was run: there is an edge from a function of the user to another just if the one has called the other (at once or through libraries and
comprehensions), to the global variables and ops it uses, and the nodes hold the code and values seen; the roots are the functions called from outside.
The other way around, a frame of a kind that is not supported, wherever it is run, makes the block end with an exception.
Missing: the claim without the condition that nobody catches exceptions (see `C80_refuted_swallowed`), `lambda`s (`C80_refuted_lambda`), functions
called `leaf_signal` (`C80_refuted_name`), the use of the tracer in a storage (`C80_refuted_storage`). -/
theorem C80_sys_tracer_partial (strict allowMethods : Bool) (rs : List SysRun) (hn : SysRun.AllNamed rs) (hc : SysRun.AllNoCatch rs) :
    ((trace strict allowMethods rs).1 = none ↔ SysRun.AllSupported strict allowMethods none rs) ∧
    ((trace strict allowMethods rs).1 = none → (trace strict allowMethods rs).2.stack = [] ∧ TraceOf rs (trace strict allowMethods rs).2) := by
  have hin : In strict allowMethods none (new strict allowMethods) := ⟨rfl, rfl, rfl, rfl, ⟨fun _ => rfl, fun _ => rfl⟩, fun c h => nomatch h⟩
  have key : (trace strict allowMethods rs).1 = none → SysRun.AllSupported strict allowMethods none rs := by
    intro h
    have ha := runFrames_silent rs (new strict allowMethods) rfl hc h
    by_cases hs : SysRun.AllSupported strict allowMethods none rs
    · exact hs
    · have := (runFrames_spec strict allowMethods rs none _ hin hn).2 hs
      rw [this] at ha
      exact nomatch ha
  exact ⟨⟨key, fun hs => (traceOf_run strict allowMethods rs hn hs).1⟩, fun h => (traceOf_run strict allowMethods rs hn (key h)).2.2⟩

/-- C80, with code that catches exceptions: whether the tracer is still active at the end tells whether the graph is complete. -/
theorem C80_active (strict allowMethods : Bool) (rs : List SysRun) (hn : SysRun.AllNamed rs) :
    ((trace strict allowMethods rs).2.active = true ↔ SysRun.AllSupported strict allowMethods none rs) ∧
    ((trace strict allowMethods rs).2.active = true → (trace strict allowMethods rs).1 = none ∧ TraceOf rs (trace strict allowMethods rs).2) := by
  have hin : In strict allowMethods none (new strict allowMethods) := ⟨rfl, rfl, rfl, rfl, ⟨fun _ => rfl, fun _ => rfl⟩, fun c h => nomatch h⟩
  have key : (trace strict allowMethods rs).2.active = true → SysRun.AllSupported strict allowMethods none rs := by
    intro ha
    by_cases hs : SysRun.AllSupported strict allowMethods none rs
    · exact hs
    · have := (runFrames_spec strict allowMethods rs none _ hin hn).2 hs
      unfold trace at ha
      rw [this] at ha
      exact nomatch ha
  exact ⟨⟨key, fun hs => (traceOf_run strict allowMethods rs hn hs).2.1⟩, fun h => ⟨(traceOf_run strict allowMethods rs hn (key h)).1, (traceOf_run strict allowMethods rs hn (key h)).2.2.2⟩⟩

/-! ### cases -/

namespace SysEx

/-- `def f(x): ys = [y + a for y in x]; return pool.map(g, ys)` -/
def f : SysFrame := ⟨.user, "m", "f", "f", "code of f", false, [], none, false⟩
def comp : SysFrame := ⟨.user, "m", "<listcomp>", "<listcomp>", "", false, [⟨"a", some "h", "1"⟩], none, false⟩
def library : SysFrame := ⟨.outside, "pool", "map", "map", "", false, [], none, false⟩
/-- `def g(y): return op(y) + b` -/
def g : SysFrame := ⟨.user, "m", "g", "g", "code of g", false, [⟨"b", some "h'", "2"⟩], none, false⟩
def signal : SysFrame := ⟨.mandala, "mandala", "leaf_signal", "leaf_signal", "", false, [], some ("op_0_c_s", .terminal "m.op" "c"), false⟩

def prog : List SysRun := [.frame f [.frame comp [], .frame library [.frame g [.frame signal []], .frame g [.frame signal []]]]]

theorem named : SysRun.AllNamed prog := by
  have h1 : lastPart f.qual = f.name := by decide +kernel
  have h2 : lastPart g.qual = g.name := by decide +kernel
  have h3 : ¬ comp.Tracked := by decide
  have h4 : ¬ library.Tracked := by decide
  have h5 : ¬ signal.Tracked := by decide
  simp [prog, SysRun.AllNamed, SysRun.Named, h1, h2, h3, h4, h5]

theorem noCatch : SysRun.AllNoCatch prog := by
  simp [prog, SysRun.AllNoCatch, SysRun.NoCatch, f, comp, library, g, signal]

end SysEx

/-- the run of the theorem: `g`, called through a library, is found to be called by `f`, and so on -/
example : (trace true false SysEx.prog).1 = none ∧ (trace true false SysEx.prog).2.edges =
    [(("m", "f"), ("m", "a")), (("m", "g"), ("m", "b")), (("m", "f"), ("m", "g")), (("m", "g"), ("mandala", "op_0_c_s"))] ∧
    (trace true false SysEx.prog).2.roots = [("m", "f")] := by decide +kernel

example : TraceOf SysEx.prog (trace true false SysEx.prog).2 :=
  ((C80_sys_tracer_partial true false SysEx.prog SysEx.named SysEx.noCatch).2 (by decide +kernel)).2

/-- a closure in the place of `g` -/
example : (trace true false [.frame SysEx.f [.frame SysEx.library [.frame { SysEx.g with closure := true } []]]]).1 = some .runtimeError := by decide +kernel

/-- C80 does not hold in a storage: with `tracer_impl=SysTracer` every call of an op that is not structural ends with a `TypeError`, also if it is in the storage, since the
constructor does not have the parameters `make_tracer` gives it; with `DecTracer` it has. -/
theorem C80_refuted_storage : tracerOption params true false = .error .typeError ∧ tracerOption decParams true false = .ok (some ()) := by
  decide +kernel

/-- C80 does not hold for `lambda`s: the code of a `lambda` of the module, called by a function, is not in the graph, so that edits of it make no difference. -/
theorem C80_refuted_lambda (strict allowMethods : Bool) (c c' : String) :
    trace strict allowMethods [.frame SysEx.f [.frame ⟨.user, "m", "<lambda>", "<lambda>", c, false, [], none, false⟩ []]] =
      trace strict allowMethods [.frame SysEx.f [.frame ⟨.user, "m", "<lambda>", "<lambda>", c', false, [], none, false⟩ []]] := by
  cases strict <;> cases allowMethods <;> rfl

/-- C80 does not hold if a function catches exceptions: `f` calls a method and catches the exception of the tracer; then it calls `g`, which the trace, without
any error, does not have. -/
theorem C80_refuted_swallowed :
    (trace true false [.frame SysEx.f [.frame { SysEx.library with catches := true } [.frame ⟨.user, "m", "h", "C.h", "", false, [], none, false⟩ []], .frame SysEx.g []]]).1 = none ∧
    SysEx.g.key ∉ (trace true false [.frame SysEx.f [.frame { SysEx.library with catches := true } [.frame ⟨.user, "m", "h", "C.h", "", false, [], none, false⟩ []], .frame SysEx.g []]]).2.nodes.keys := by
  decide +kernel

/-- C80 does not hold for functions of the user that are called `leaf_signal`: with a parameter or variable that is called `data` this may be what comes into the graph in
the place of the function, else there is a `KeyError`. -/
theorem C80_refuted_name (c : SysFrame) (hp : c.place = .user) (hn : c.name = "leaf_signal") (hd : c.data = none) (strict allowMethods : Bool) :
    (trace strict allowMethods [.frame c []]).1 = some .keyError := by
  have h : (new strict allowMethods).onCall c = .error .keyError := by
    unfold onCall
    rw [if_neg (by rw [hp]; exact fun h => nomatch h), if_pos (show c.name = leafSignal from hn), hd]
  unfold trace
  rw [runFrames, runFrame, if_pos (show (new strict allowMethods).active = true from rfl), h]

end Verif.Props
