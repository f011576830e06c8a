import Verif.Proofs.Identity
import Verif.Proofs.Mixed
import Verif.Proofs.ArgsInputs
import Verif.Examples.World
/-!
What identifies a call to the storage: ignored arguments (C22), value pointers (C24); and calls in "noop" mode (C20).
-/
namespace Verif.Props

open Verif

/-! ### C22 -/

/-- **C22**: a call that is answered from the records is answered by the same refs, and leaves the same storage behind, whatever the
ignored arguments are (here with any storage, reachable or not). `parse_args` (see `C22_ignored_arguments_not_seen`) passes the
ignored arguments on with `ignored = true`. -/
theorem C22_answer_ignores_ignored (cfg : Cfg) (op : OpDef) (args args' : List BArg) (s s' : St) (r : List Ref)
    (hsame : args.filter (fun a => !a.ignored) = args'.filter (fun a => !a.ignored))
    (hcall : call cfg op args s = (.ok r, s')) (hlog : s'.log = s.log) : call cfg op args' s = (.ok r, s') :=
  answered_same cfg (show SameKey args args' by unfold SameKey; rw [hsame]) hcall hlog

/-- and a call that runs the body with some ignored arguments does not find an answer with others -/
theorem C22_run_ignores_ignored (cfg : Cfg) (op : OpDef) (args args' : List BArg) (s : St) (r : List Ref) (s' : St)
    (hsame : args.filter (fun a => !a.ignored) = args'.filter (fun a => !a.ignored))
    (hrun : (call cfg op args s).2.log ≠ s.log) (hcall : call cfg op args' s = (.ok r, s')) : s'.log ≠ s.log := by
  intro hl
  refine hrun ?_
  rw [C22_answer_ignores_ignored cfg op args' args s s' r hsame.symm hcall hl]
  exact hl

/-- **C22**, second half: when the body runs, it runs once, with all arguments, ignored or not: plain values as they are, pointers as
their objects (for refs see C01). -/
theorem C22_body_receives_ignored (cfg : Cfg) (op : OpDef) (args : List BArg) (s : St) (hrun : (call cfg op args s).2.log ≠ s.log) :
    ∃ vs, (call cfg op args s).2.log = (op.name, vs) :: s.log ∧
      All2 (fun (a : BArg) (p : String × Val) => p.1 = a.name ∧ (∀ v, a.arg = .val v → p.2 = v) ∧
        (∀ id o, a.arg = .ptr id o → p.2 = o)) args vs := body_receives cfg hrun

namespace Ex22
/-- `both(5, verbose=b)`, `verbose` ignored -/
def args (b : Int) : List BArg := [⟨"x", .atom, false, .val (.int 5)⟩, ⟨"verbose", .atom, true, .val (.int b)⟩]
/-- the storage after `both(5, verbose=1)` -/
def s1 : St := (call Ex.W.cfg Ex.both (args 1) Ex.s0).2
end Ex22

/-- A second call is answered without running the body, also with another `verbose`; the first one ran it. -/
example : Ex22.s1.log = [("both", [("x", .int 5), ("verbose", .int 1)])] ∧
    (call Ex.W.cfg Ex.both (Ex22.args 0) Ex22.s1).2.log = Ex22.s1.log ∧
    (call Ex.W.cfg Ex.both (Ex22.args 0) Ex22.s1).1.isOk = true := by decide +kernel

/-! ### C24 -/

/-- **C24**, first part: calls whose arguments agree up to the objects behind pointers are answered from the records alike. -/
theorem C24_identified_by_id (cfg : Cfg) (op : OpDef) (args args' : List BArg) (s s' : St) (r : List Ref)
    (hsame : SameButObj args args') (hcall : call cfg op args s = (.ok r, s')) (hlog : s'.log = s.log) :
    call cfg op args' s = (.ok r, s') := answered_same cfg hsame.key hcall hlog

/-- **C24**, second part: the object behind a pointer leaves no trace in the storage: if the function treats two objects
alike, then calls with pointers to the one and to the other object return the same refs and leave the same storage behind (calls,
values, caches), whether or not the body runs. -/
theorem C24_object_not_stored (cfg : Cfg) (op : OpDef) (args args' : List BArg) (hsame : SameButObj args args')
    (hbody : ∀ vs vs', PtrVals args args' vs vs' → op.body vs = op.body vs') (s : St) :
    (call cfg op args s).1 = (call cfg op args' s).1 ∧
      (call cfg op args s).2.withLog [] = (call cfg op args' s).2.withLog [] := object_not_stored cfg hsame hbody s

/-- **C24**, third part, as far as it holds: if two calls have the same content identity, and one passes a pointer for a parameter,
then the other passes for this parameter a pointer with the same id or the *id string* itself; different ids are never confused.

Missing: "never confused with an ordinary value": the id string is (`C24_refuted`). -/
theorem C24_distinct_partial (H : Val → String) (hH : Function.Injective H) (op op' : String) (ver ver' : Int)
    (ins ins' : List (String × Ref)) (hn : (Dict.keys ins).Nodup) (hn' : (Dict.keys ins').Nodup)
    (hid : callId H op ver (idsOf Ref.cid ins) = callId H op' ver' (idsOf Ref.cid ins')) (n id : String)
    (hp : Dict.get? ins n = some (wrapPtr H id)) :
    (∀ id', Dict.get? ins' n = some (wrapPtr H id') → id' = id) ∧
    (∀ v hid, Dict.get? ins' n = some (wrapVal H v hid) → v = .str id) ∧ Dict.get? ins' n ≠ none := by
  have hk : ∀ l : List (String × Ref), Dict.keys (idsOf Ref.cid l) = Dict.keys l := fun l => by
    simp [idsOf, Dict.keys, Function.comp_def]
  obtain ⟨_, _, hg⟩ := callId_inj_args hH (by rw [hk]; exact hn) (by rw [hk]; exact hn') hid
  have hm : ∀ l : List (String × Ref), Dict.get? (idsOf Ref.cid l) n = (Dict.get? l n).map Ref.cid := fun l => by
    unfold idsOf
    induction l with
    | nil => rfl
    | cons p l ih =>
      obtain ⟨k, r⟩ := p
      rw [List.map_cons, Dict.get?_cons, Dict.get?_cons, ih]
      split <;> rfl
  have h := hg n
  rw [hm, hm, hp] at h
  refine ⟨fun id' h' => ?_, fun v hid h' => ?_, fun h' => ?_⟩
  · rw [h'] at h
    have := hH (Option.some.inj h)
    injection this with this
    exact this.symm
  · rw [h'] at h
    exact (hH (Option.some.inj h)).symm
  · rw [h'] at h; cases h

namespace Ex24

/-- `def size(x)`: a string has size 1, an integer its value -/
def size : OpDef where
  name := "size"
  version := 0
  nout := .auto
  outNames := none
  ann := .none
  body := fun vals => match Dict.get? vals "x" with
    | some (.str _) => .ok (.int 1)
    | some (.int n) => .ok (.int (if n < 0 then 0 else n))
    | _ => .error (.userError 0)

/-- `size(x)` -/
def arg (a : Arg) : List BArg := [⟨"x", .atom, false, a⟩]

/-- call, then unwrap the result -/
def run (a : Arg) : M Val := do
  let rs ← call Ex.W.cfg size (arg a)
  match rs with
  | [r] => unwrapRef Ex.W.cfg r
  | _ => M.raise .unmodelled

end Ex24
open Ex24

/-- A pointer is passed to the body as its object. -/
example : (run (.ptr "X" (.int 7)) Ex.s0).1 = .ok (.int 7) := by decide +kernel

/-- A second call, with another object, is answered from the records. -/
example : (run (.ptr "X" (.int 8)) (run (.ptr "X" (.int 7)) Ex.s0).2).1 = .ok (.int 7) ∧
    (run (.ptr "X" (.int 8)) (run (.ptr "X" (.int 7)) Ex.s0).2).2.log = (run (.ptr "X" (.int 7)) Ex.s0).2.log := by
  decide +kernel

example : SameButObj (arg (.ptr "X" (.int 7))) (arg (.ptr "X" (.int 8))) := .cons ⟨rfl, rfl, rfl, rfl⟩ .nil

/-- `size` treats `-1` and `-2` alike; the two calls run the body with different objects and leave the same storage behind. -/
example : (call Ex.W.cfg size (arg (.ptr "X" (.int (-1)))) Ex.s0).1 = (call Ex.W.cfg size (arg (.ptr "X" (.int (-2)))) Ex.s0).1 ∧
    (call Ex.W.cfg size (arg (.ptr "X" (.int (-1)))) Ex.s0).2.withLog [] =
      (call Ex.W.cfg size (arg (.ptr "X" (.int (-2)))) Ex.s0).2.withLog [] := by
  refine C24_object_not_stored Ex.W.cfg size (arg (.ptr "X" (.int (-1)))) (arg (.ptr "X" (.int (-2)))) (.cons ⟨rfl, rfl, rfl, rfl⟩ .nil) ?_ Ex.s0
  intro vs vs' h
  obtain ⟨h1, h2, h3⟩ := h
  match vs, vs', h1, h2, h3 with
  | [(k, v)], [(k', v')], h1, h2, h3 =>
    have e1 : k = "x" := by simpa [arg] using h1
    have e2 : k' = "x" := by simpa [arg] using h2
    subst e1; subst e2
    cases h3 with
    | cons h _ =>
      rcases h with h | ⟨id, o, o', h1, h2, h3, h4⟩
      · rw [show v = v' from h]
      · injection h1 with _ h1; injection h2 with _ h2
        rw [show v = o from h3, show v' = o' from h4, ← h1, ← h2]
        rfl

/-- **C24** fails: a pointer is confused with the string that is its id. After `size("X")`, the call `size(ValuePointer("X", 7))` is
answered with 1, the size of the string, without running the body; in a fresh storage it gives 7. -/
theorem C24_refuted : (run (.val (.str "X")) Ex.s0).1 = .ok (.int 1) ∧
    (run (.ptr "X" (.int 7)) (run (.val (.str "X")) Ex.s0).2).1 = .ok (.int 1) ∧
    (run (.ptr "X" (.int 7)) (run (.val (.str "X")) Ex.s0).2).2.log = (run (.val (.str "X")) Ex.s0).2.log ∧
    (run (.ptr "X" (.int 7)) Ex.s0).1 = .ok (.int 7) := by decide +kernel

/-- Two different calls for `C24_distinct_partial`: same content identity, pointer against id string. -/
example : callId encH "size" 0 (idsOf Ref.cid [("x", wrapPtr encH "X")]) =
    callId encH "size" 0 (idsOf Ref.cid [("x", wrapVal encH (.str "X") none)]) := by decide +kernel

/-! ### C20 -/

/-- **C20** in "noop" mode, as far as it holds: a program that runs statements with the storage and calls in "noop" mode in any order shows
what it shows without a storage (a statement may also fail with an exception of the storage, see C07), where a call in "noop" mode is
a call of the plain function on the values of its arguments. In "noop" mode functions may return anything and may depend on
ignored arguments.

Missing: arguments that are value pointers (refuted in `C20_refuted_pointer`). -/
theorem C20_noop_partial (W : World) (hW : W.Good) (prog : List MCmd) (hok : ∀ c ∈ prog, MCmdOK W c) (thr : Nat) :
    MAgrees [] prog (runMixed W.cfg [] (.fresh none thr) prog).1 :=
  mixed_ok hW prog hok .nil (inv_fresh _ _ nofun)

/-- **C20**: a call in "noop" mode records nothing, whatever the storage and the arguments: calls, tables of the database and the log of
executed bodies stay as they are. -/
theorem C20_noop_records_nothing (cfg : Cfg) (d : OpDef) (args : List BArg) (s : St) :
    (callNoop cfg d args s).2.calls = s.calls ∧ (callNoop cfg d args s).2.log = s.log ∧
      (callNoop cfg d args s).2.atoms.pers = s.atoms.pers ∧ (callNoop cfg d args s).2.shapes.pers = s.shapes.pers ∧
      (callNoop cfg d args s).2.ops.pers = s.ops.pers :=
  have h := quiet_callNoop cfg d args s
  ⟨h.calls, h.log, h.atoms, h.shapes, h.ops⟩

namespace Ex20
/-- a function that returns a list, although it is declared to return one value per call, and uses its ignored argument -/
def odd : OpDef := { Ex.both with body := fun vals => .ok (.list (vals.map (·.2))) }
/-- `a = inc(5); with noop: odd(a, verbose=1); b = inc(a); commit; reopen; with noop: odd(b, verbose=0); with noop: inc(-1)` -/
def prog : List MCmd :=
  [.run (.call Ex.inc (Ex.arg1 (.raw (.int 5)))), .noop odd (Ex.bothArgs (.var 0) 1), .run (.call Ex.inc (Ex.arg1 (.var 0))),
   .run .commit, .run .reopen, .noop odd (Ex.bothArgs (.var 1) 0), .noop Ex.inc (Ex.arg1 (.raw (.int (-1))))]
end Ex20

example : ∀ c ∈ Ex20.prog, MCmdOK Ex.W c := by
  have hv : ∀ i, PExprOK Ex.W .atom (.var i) := fun i => by simp only [PExprOK]
  have hb : ∀ i b, ∀ a ∈ Ex.bothArgs (.var i) b, PExprOK Ex.W a.ty a.expr := by
    intro i b a ha
    simp only [Ex.bothArgs, List.mem_cons, List.not_mem_nil, or_false] at ha
    rcases ha with rfl | rfl
    · exact hv _
    · exact Ex.wf_raw_int b
  intro c hc
  simp only [Ex20.prog, List.mem_cons, List.not_mem_nil, or_false] at hc
  rcases hc with rfl | rfl | rfl | rfl | rfl | rfl | rfl
  · exact Ex.call1_ok Ex.inc_ok (Ex.wf_raw_int _)
  · exact hb _ _
  · exact Ex.call1_ok Ex.inc_ok (hv _)
  · trivial
  · trivial
  · exact hb _ _
  · intro a ha
    simp only [Ex.arg1, List.mem_singleton] at ha
    subst ha
    exact Ex.wf_raw_int _

/-- What it shows. -/
example : (runMixed Ex.W.cfg [] Ex.s0 Ex20.prog).1 = [.returned 1, .value (.list [.int 6, .int 1]), .returned 1, .done, .done,
    .value (.list [.int 7, .int 0]), .raised (.userError 1)] := by decide +kernel

/-- **C20** fails for value pointers: in "noop" mode the body receives the pointer itself, where the plain function (and the function in run
mode) receives its object. -/
theorem C20_refuted_pointer : (callNoop Ex.W.cfg size (arg (.ptr "X" (.int 7))) Ex.s0).1 = .error (.userError 0) ∧
    (run (.ptr "X" (.int 7)) Ex.s0).1 = .ok (.int 7) ∧ size.body [("x", .int 7)] = .ok (.int 7) := by decide +kernel

end Verif.Props
