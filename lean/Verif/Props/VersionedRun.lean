import Verif.Examples.DevSession
/-!
C70: a versioned storage may be used while the code is being changed, and its answers are those of the present code.
-/
namespace Verif.Props

open Verif Tracer Versioner

variable {V M : Type} {H : Val → String} {enc : DKey → DepKey} {ops : Ops V} {sem : DepKey → String → M}

theorem vrun_append (s : VRun V) (a b : List VRun.Cmd) : VRun.run H enc ops s (a ++ b) = VRun.run H enc ops (VRun.run H enc ops s a) b :=
  List.foldl_append ..

theorem properAll_append : ∀ (a : List VRun.Cmd) {b : List VRun.Cmd} {s : VRun V}, ProperAll H enc ops sem s (a ++ b) →
    ProperAll H enc ops sem s a ∧ ProperAll H enc ops sem (VRun.run H enc ops s a) b
  | [], _, _, h => ⟨trivial, h⟩
  | _ :: a, _, _, h => let ⟨h1, h2⟩ := properAll_append a h.2; ⟨⟨h.1, h1⟩, h2⟩

/-- C70 (partial: ops that call no other op and catch no exception, code not changed in a context, no context that could not be entered,
honest answers; without these it is false, see below): whatever was done before, a call that returns gives what the present code computes. -/
theorem C70_never_stale_partial (hH : Function.Injective H) (henc : Function.Injective enc) (hdet : Determined H enc ops sem)
    (strict : Bool) (src : Source) (cmds : List VRun.Cmd) (hp : ProperAll H enc ops sem (VRun.new strict src) cmds)
    (uid : String) (hv : Visible enc ops (VRun.run H enc ops (VRun.new strict src) cmds).src uid) (r : V)
    (h : (VRun.call H enc ops (VRun.run H enc ops (VRun.new strict src) cmds) uid).1 = .ok r) :
    r = ops.value (VRun.run H enc ops (VRun.new strict src) cmds).src uid :=
  (call_spec hH henc hdet (RunInv.run hH henc hdet cmds (.new H enc ops sem strict src) hp) hv rfl).2.1 r h

/-- C70 (partial: as above, and recorded calls are dropped only with their version): no call fails, all give what the present code computes. -/
theorem C70_transparent_partial (hH : Function.Injective H) (henc : Function.Injective enc) (hdet : Determined H enc ops sem)
    (strict : Bool) (src : Source) (cmds : List VRun.Cmd) (hp : ProperAll H enc ops sem (VRun.new strict src) cmds) (ho : OnlyVersions cmds)
    (uid : String) (hv : Visible enc ops (VRun.run H enc ops (VRun.new strict src) cmds).src uid) :
    (VRun.call H enc ops (VRun.run H enc ops (VRun.new strict src) cmds) uid).1 =
      .ok (ops.value (VRun.run H enc ops (VRun.new strict src) cmds).src uid) := by
  have hI := RunInv.run hH henc hdet cmds (.new H enc ops sem strict src) hp
  obtain ⟨r, s', h⟩ := call_total hH henc hdet hI (Full.run hH henc hdet cmds (.new H enc ops sem strict src) (fun _ h => by cases h) hp ho) hv
  rw [h]
  dsimp only
  rw [(call_spec hH henc hdet hI hv h).2.1 r rfl]

/-- C70 (partial: as above): a call made again in a context, with nothing in between, gives the same and leaves all as it is: nothing is
executed or recorded. -/
theorem C70_second_call_partial (hH : Function.Injective H) (henc : Function.Injective enc) (hdet : Determined H enc ops sem)
    (strict : Bool) (src : Source) (cmds : List VRun.Cmd) (hp : ProperAll H enc ops sem (VRun.new strict src) cmds)
    (hd : 0 < (VRun.run H enc ops (VRun.new strict src) cmds).depth)
    (uid : String) (hv : Visible enc ops (VRun.run H enc ops (VRun.new strict src) cmds).src uid) (r : V) (s' : VRun V)
    (h : VRun.call H enc ops (VRun.run H enc ops (VRun.new strict src) cmds) uid = (.ok r, s')) : VRun.call H enc ops s' uid = (.ok r, s') :=
  call_again hH henc hdet (RunInv.run hH henc hdet cmds (.new H enc ops sem strict src) hp) hd hv h

/-- C70 (partial: as above, and nothing is dropped in between): a call that was made in a context is not executed again as long as, or as soon
as again, all that it uses is as it was; whatever was changed and run in between. -/
theorem C70_no_recompute_partial (hH : Function.Injective H) (henc : Function.Injective enc) (hdet : Determined H enc ops sem)
    (strict : Bool) (src : Source) (before after : List VRun.Cmd) (uid : String)
    (hp : ProperAll H enc ops sem (VRun.new strict src) (before ++ .call uid :: after)) (hn : NoDrops after)
    (hin : 0 < (VRun.run H enc ops (VRun.new strict src) before).depth)
    (hok : ∃ r, (VRun.call H enc ops (VRun.run H enc ops (VRun.new strict src) before) uid).1 = .ok r)
    (hin' : 0 < (VRun.run H enc ops (VRun.new strict src) (before ++ .call uid :: after)).depth)
    (hu : Unchanged H enc ops (VRun.run H enc ops (VRun.new strict src) before).src
      (VRun.run H enc ops (VRun.new strict src) (before ++ .call uid :: after)).src uid) :
    ∃ r, VRun.call H enc ops (VRun.run H enc ops (VRun.new strict src) (before ++ .call uid :: after)) uid =
      (.ok r, VRun.run H enc ops (VRun.new strict src) (before ++ .call uid :: after)) := by
  obtain ⟨hp1, hp2, hp3⟩ := properAll_append before hp
  have hI := RunInv.run hH henc hdet before (.new H enc ops sem strict src) hp1
  have hI' := RunInv.run hH henc hdet _ (.new H enc ops sem strict src) hp
  refine known_hit hH hI' hin' ?_ hu
  rw [vrun_append] at hI' hin' hu ⊢
  obtain ⟨r, hr⟩ := hok
  exact Known.run hH henc hdet after (hI.step hH henc hdet hp2) hp3 hn (call_known hH henc hdet hI hin hp2 (Prod.ext hr rfl))

/-! ### a concrete session -/

def encD (k : DKey) : DepKey := encH (.list [.str k.1, .str k.2])

theorem encD_inj : Function.Injective encD := by
  rintro ⟨a, b⟩ ⟨c, d⟩ h
  have := encH_inj _ _ h
  simpa using this

/-- A change of a comment does not matter. -/
def semD (_ : DepKey) (h : String) : String := if h = encH (.str "def g # same") then encH (.str "def g") else h

/-- Op `f` calls `g`; the first version of `g` is all there is to it, later `f` also reads `G`. -/
def progD (_ : String) (_ : Option String) : Prog String String :=
  .call ("m", "g") (fun mg => if mg = some (encH (.str "def g")) then .ret "old" else .ret "new") fun v =>
    if v = "old" then .ret "f: old" else .glob "G" fun c => .ret ("f: new, " ++ c.getD "")

def opsD : Ops String := progOps encH encD semD (fun _ => ("m", "f")) progD

def codeD (g : String) (G : String) : CodeState :=
  [(encD ("m", "f"), .callable (some "def f") "bf"), (encD ("m", "g"), .callable (some g) ("code of " ++ g)), (encD ("m", "G"), .globalVar G G)]

/-- Run; change a comment; rewrite `g`, now `G` is read; change `G`; go back to the first version. -/
def sessionD : List Do :=
  [.enter (fun _ => .yes), .call "f(1)", .exit, .code (codeD "def g # same" "0"), .enter (fun _ => .no), .call "f(1)", .exit,
   .code (codeD "def g2" "0"), .enter (fun _ => .yes), .call "f(1)", .exit, .code (codeD "def g2" "1"), .enter (fun _ => .yes), .call "f(1)", .exit,
   .code (codeD "def g" "1"), .enter (fun _ => .abort)]

def runD (l : List Do) : VRun String :=
  VRun.run encH encD opsD (VRun.new true (Dict.get? (codeD "def g" "0"))) (Do.cmds (codeD "def g" "0") l)

set_option maxRecDepth 20000 in
theorem sessionD_proper : Do.proper encH encD semD (fun _ => ("m", "f")) progD (codeD "def g" "0") (VRun.new true (Dict.get? (codeD "def g" "0"))) sessionD = true := by
  decide +kernel

/-- The hypotheses of the theorems hold for this session. -/
example : Determined encH encD opsD semD ∧ ProperAll encH encD opsD semD (VRun.new true (Dict.get? (codeD "def g" "0"))) (Do.cmds (codeD "def g" "0") sessionD) ∧
    OnlyVersions (Do.cmds (codeD "def g" "0") sessionD) ∧ Visible encD opsD (Dict.get? (codeD "def g" "1")) "f(1)" :=
  ⟨progOps_determined _ _, Do.proper_spec _ _ _ rfl sessionD_proper, Do.onlyVersions _ _, visible_of (by decide +kernel)⟩

set_option maxRecDepth 20000 in
/-- It records three versions of the call; the comment and the way back cost nothing. -/
example : (runD sessionD).depth = 1 ∧ (runD (sessionD ++ [.call "f(1)"])).log.length = 3 ∧ (runD sessionD).st.versioner.df.length = 3 ∧ (runD sessionD).calls.map (·.2) = ["f: old", "f: new, 0", "f: new, 1"] := by
  decide +kernel

set_option maxRecDepth 20000 in
/-- The way back: the first call of this session and its end meet the hypotheses of `C70_no_recompute_partial`. -/
example : NoDrops ((Do.cmds (codeD "def g" "0") sessionD).drop 2) ∧
    Do.cmds (codeD "def g" "0") sessionD = (Do.cmds (codeD "def g" "0") sessionD).take 1 ++ .call "f(1)" :: (Do.cmds (codeD "def g" "0") sessionD).drop 2 ∧
    Unchanged encH encD opsD (Dict.get? (codeD "def g" "0")) (Dict.get? (codeD "def g" "1")) "f(1)" := by
  refine ⟨trivial, rfl, ?_⟩
  rintro k (rfl | ⟨x, d, hu, rfl⟩)
  · decide +kernel
  · have hacts : opsD.acts (Dict.get? (codeD "def g" "0")) "f(1)" = [.call ⟨"m", "g", "code of def g"⟩ [] false] := by
      have h1 : meaningOf encH semD (Dict.get? (codeD "def g" "0")) (encD ("m", "g")) = some (encH (.str "def g")) := by decide +kernel
      have h2 : Source.runtime (Dict.get? (codeD "def g" "0")) (encD ("m", "g")) = "code of def g" := by decide +kernel
      show (Prog.exec encH encD semD _ "m" (progD "" none)).1 = _
      unfold progD
      simp only [Prog.exec, h1, h2]
      simp [Prog.exec]
    rw [hacts, Prog.uses_call] at hu
    rcases hu with ⟨_, rfl⟩ | hu | hu
    · show Option.map _ ((Dict.get? _ (encD ("m", "g"))).bind _) = Option.map _ ((Dict.get? _ (encD ("m", "g"))).bind _)
      decide +kernel
    · exact absurd hu Prog.uses_nil
    · exact absurd hu Prog.uses_nil

/-! ### what is false without the restrictions -/

/-- the source of `g` -/
def textG (src : Source) : String := match src (encD ("m", "g")) with
  | some (.callable (some t) _) => t
  | _ => ""

/-- Op `f` returns what `g` says; `before` is what it does before it calls `g`, `exc` whether `g` is left with an exception (which `f` catches). -/
def opsR (before : List Act) (exc : Bool) : Ops String where
  key _ := ("m", "f")
  acts src _ := before ++ [.call ⟨"m", "g", src.runtime (encD ("m", "g"))⟩ [] exc]
  value src _ := textG src

def runR (before : List Act) (exc : Bool) (l : List VRun.Cmd) : VRun String :=
  VRun.run encH encD (opsR before exc) (VRun.new true (Dict.get? (codeD "def g" "0"))) l

def enterD (g : String) (a : Answer) : VRun.Cmd := .enter (codeD g "0") fun _ => a
def changeD (g : String) : VRun.Cmd := .change (Dict.get? (codeD g "0"))

/-- C70 is false for ops that call other ops: what is used after that is not traced, and the result stays the same when it changes. -/
theorem C70_refuted_nested :
    let before := [Act.op ⟨"m", "h", "bh"⟩ true [] false]
    let s := runR before false [enterD "def g" .yes, .call "f(1)", .exit, changeD "def g2", enterD "def g2" .yes]
    (VRun.call encH encD (opsR before false) s "f(1)").1 = .ok "def g" ∧ (opsR before false).value s.src "f(1)" = "def g2" := by
  decide +kernel

/-- Without the nested op the change is noticed. -/
example :
    let s := runR [] false [enterD "def g" .yes, .call "f(1)", .exit, changeD "def g2", enterD "def g2" .yes]
    (VRun.call encH encD (opsR [] false) s "f(1)").1 = .ok "def g2" := by
  decide +kernel

/-- C70 is false if the code changes in a context. -/
theorem C70_refuted_change_inside :
    let s := runR [] false [enterD "def g" .yes, .call "f(1)", changeD "def g2"]
    (VRun.call encH encD (opsR [] false) s "f(1)").1 = .ok "def g" ∧ (opsR [] false).value s.src "f(1)" = "def g2" := by
  decide +kernel

/-- C70 is false for ops that catch exceptions of the functions they call: the call fails although the op itself returns. -/
theorem C70_refuted_exception :
    let s := runR [] true [enterD "def g" .yes]
    (VRun.call encH encD (opsR [] true) s "f(1)").1 = .error .assertionError ∧ (opsR [] true).value s.src "f(1)" = "def g" := by
  decide +kernel

/-- C70 is false after a context that could not be entered, here because the user gave no answer: although no context is left open in the
program, calls fail, and once a context was entered and left, they return results of old code. -/
theorem C70_refuted_failed_enter :
    let l := [enterD "def g" .yes, .call "f(1)", .exit, changeD "def g2", enterD "def g2" .abort]
    let s := runR [] false l
    let s' := runR [] false (l ++ [changeD "def g", enterD "def g" .yes, .exit, changeD "def g2"])
    (VRun.enter encH (runR [] false (l.take 4)) (codeD "def g2" "0") fun _ => .abort).1 ≠ .ok () ∧
      (VRun.call encH encD (opsR [] false) s "f(1)").1 = .error .attributeError ∧
      (VRun.call encH encD (opsR [] false) s' "f(1)").1 = .ok "def g" ∧ (opsR [] false).value s'.src "f(1)" = "def g2" := by
  decide +kernel

/-- C70 is false after recorded calls were dropped: the call can never be made again, neither with `drop_calls` nor with the dependents of a
version that was dropped. -/
theorem C70_refuted_dropped :
    let s := runR [] false [enterD "def g" .yes, .call "f(1)", .exit]
    let l := s.calls.map (·.1)
    let s1 := VRun.step encH encD (opsR [] false) (VRun.step encH encD (opsR [] false) s (.dropCalls l)) (enterD "def g" .yes)
    let s2 := VRun.step encH encD (opsR [] false) (VRun.step encH encD (opsR [] false) s (.dropVersion "another" l)) (enterD "def g" .yes)
    l.length = 1 ∧ (VRun.call encH encD (opsR [] false) s1 "f(1)").1 = .error .valueError ∧
      (VRun.call encH encD (opsR [] false) s2 "f(1)").1 = .error .valueError := by
  decide +kernel

end Verif.Props
