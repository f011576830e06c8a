import Verif.Examples.DevProcs
import Verif.Props.VersionedRun
/-!
C71: several processes may use one versioned database, and the answers are those of the present code of the process that asks.
-/
namespace Verif.Props

open Verif Tracer Versioner VWorld

variable {V M : Type} {H : Val → String} {enc : DKey → DepKey} {ops : Ops V} {sem : DepKey → String → M}

theorem wrun_append (w : VWorld V) (a b : List VWorld.Cmd) : VWorld.run H enc ops w (a ++ b) = VWorld.run H enc ops (VWorld.run H enc ops w a) b :=
  List.foldl_append ..

theorem wproperAll_append : ∀ (a : List VWorld.Cmd) {b : List VWorld.Cmd} {w : VWorld V}, WProperAll H enc ops sem w (a ++ b) →
    WProperAll H enc ops sem w a ∧ WProperAll H enc ops sem (VWorld.run H enc ops w a) b
  | [], _, _, h => ⟨trivial, h⟩
  | _ :: a, _, _, h => let ⟨h1, h2⟩ := wproperAll_append a h.2; ⟨⟨h.1, h1⟩, h2⟩

theorem soloAll_append : ∀ (a : List VWorld.Cmd) {b : List VWorld.Cmd} {w : VWorld V}, SoloAll H enc ops w (a ++ b) →
    SoloAll H enc ops w a ∧ SoloAll H enc ops (VWorld.run H enc ops w a) b
  | [], _, _, h => ⟨trivial, h⟩
  | _ :: a, _, _, h => let ⟨h1, h2⟩ := soloAll_append a h.2; ⟨⟨h.1, h1⟩, h2⟩

/-- C71 (partial: each process uses its storage as in C70): whatever any number of processes with any code have done to the database, in any
order, killed or not, with commits that failed and versions that were lost or dropped: a call that returns gives what the code of the process
that makes it computes. -/
theorem C71_never_stale_partial (hH : Function.Injective H) (henc : Function.Injective enc) (hdet : Determined H enc ops sem)
    (cmds : List VWorld.Cmd) (hp : WProperAll H enc ops sem VWorld.new cmds) (pid : Nat) (p : VProc V)
    (hpid : (VWorld.run H enc ops VWorld.new cmds).procs pid = some p) (uid : String) (hv : Visible enc ops p.run.src uid) (r : V)
    (h : (VWorld.call H enc ops (VWorld.run H enc ops VWorld.new cmds).disk p uid).1 = .ok r) : r = ops.value p.run.src uid :=
  (wcall_spec hH henc hdet (WInv.run hH henc hdet cmds (.new H enc ops sem) hp) hpid hv).2 r h

/-- C71 (partial: as above, and a version is dropped only by a process that is alone, has written all, and with nothing depending on it): no
call fails, all give what the code of the process computes. -/
theorem C71_transparent_partial (hH : Function.Injective H) (henc : Function.Injective enc) (hdet : Determined H enc ops sem)
    (cmds : List VWorld.Cmd) (hp : WProperAll H enc ops sem VWorld.new cmds) (hc : CarefulAll H enc ops VWorld.new cmds) (pid : Nat) (p : VProc V)
    (hpid : (VWorld.run H enc ops VWorld.new cmds).procs pid = some p) (uid : String) (hv : Visible enc ops p.run.src uid) :
    (VWorld.call H enc ops (VWorld.run H enc ops VWorld.new cmds).disk p uid).1 = .ok (ops.value p.run.src uid) := by
  have hI := WInv.run hH henc hdet cmds (.new H enc ops sem) hp
  have hF := WFull.run hH henc hdet cmds (.new H enc ops sem) .new hp hc
  obtain ⟨r, s', h⟩ := call_total hH henc hdet (hI.view hpid) (hF.view hpid) (s := VWorld.view _ p) hv
  have hr : (VWorld.call H enc ops (VWorld.run H enc ops VWorld.new cmds).disk p uid).1 = .ok r := by
    unfold VWorld.call
    rw [h]
  rw [hr, (wcall_spec hH henc hdet hI hpid hv).2 r hr]

/-- C71 (partial: as above, one process at a time and nothing dropped): leaving the outermost block never fails, and then all recorded calls
of the process are in the database. -/
theorem C71_commits_partial (hH : Function.Injective H) (henc : Function.Injective enc) (hdet : Determined H enc ops sem)
    (cmds : List VWorld.Cmd) (hp : WProperAll H enc ops sem VWorld.new cmds) (hs : SoloAll H enc ops VWorld.new cmds) (pid : Nat) (p : VProc V)
    (hpid : (VWorld.run H enc ops VWorld.new cmds).procs pid = some p) (hd : p.run.depth = 1) :
    (VWorld.exit (VWorld.run H enc ops VWorld.new cmds).disk p).1 = .ok () ∧
      ∀ k, k ∈ p.run.calls.keys → k ∈ (VWorld.exit (VWorld.run H enc ops VWorld.new cmds).disk p).2.1.calls.keys := by
  obtain ⟨_, hF, hS⟩ := solo_run hH henc hdet cmds (.new H enc ops sem) .new .new hp hs
  rw [hS.commits hpid hd]
  refine ⟨rfl, fun k hk => ?_⟩
  show k ∈ Dict.keys (_ ++ p.run.calls.filter fun q => decide (q.1 ∈ p.dirty))
  rw [keys_append, List.mem_append, keys_filter_mem (f := fun k => decide (k ∈ p.dirty))]
  rcases hF.cache pid p hpid k hk with h | h
  · exact .inr ⟨hk, by simpa using h⟩
  · exact .inl h

/-- C71 (partial: as above, nothing dropped after the call): a call is not executed again in the same process while, or when again, all that it
uses is as it was; whatever any other process does meanwhile. -/
theorem C71_same_process_partial (hH : Function.Injective H) (henc : Function.Injective enc) (hdet : Determined H enc ops sem)
    (before after : List VWorld.Cmd) (pid : Nat) (uid : String) (hp : WProperAll H enc ops sem VWorld.new (before ++ .call pid uid :: after))
    (hg : ∀ cmd ∈ after, GoesOn pid cmd) (p : VProc V) (hpid : (VWorld.run H enc ops VWorld.new before).procs pid = some p) (hin : 0 < p.run.depth)
    (hok : ∃ r, (VWorld.call H enc ops (VWorld.run H enc ops VWorld.new before).disk p uid).1 = .ok r)
    (p' : VProc V) (hpid' : (VWorld.run H enc ops VWorld.new (before ++ .call pid uid :: after)).procs pid = some p') (hin' : 0 < p'.run.depth)
    (hu : Unchanged H enc ops p.run.src p'.run.src uid) :
    ∃ r, VWorld.call H enc ops (VWorld.run H enc ops VWorld.new (before ++ .call pid uid :: after)).disk p' uid = (.ok r, p') := by
  obtain ⟨hp1, hp2, hp3⟩ := wproperAll_append before hp
  have hI := WInv.run hH henc hdet before (.new H enc ops sem) hp1
  have hI' := WInv.run hH henc hdet _ (.new H enc ops sem) hp
  refine wknown_hit hH hI' hpid' hin' ?_ hu
  rw [wrun_append] at hpid' ⊢
  obtain ⟨r, hr⟩ := hok
  have hstep : VWorld.step H enc ops (VWorld.run H enc ops VWorld.new before) (.call pid uid) =
      (VWorld.run H enc ops VWorld.new before).setProc pid (some (VWorld.call H enc ops (VWorld.run H enc ops VWorld.new before).disk p uid).2) := by
    unfold VWorld.step
    dsimp only
    rw [hpid]
  obtain ⟨p'', h1, h2⟩ := wknown_run hH henc hdet after (hI.step hH henc hdet hp2) hp3 hg (src := p.run.src) (uid := uid)
    ⟨_, by rw [hstep]; exact setProc_self _ _ _, by rw [hstep]; exact wcall_known hH henc hdet hI hpid hin (hp2 p hpid) hr⟩
  have h1 := h1.symm.trans hpid'
  cases h1
  exact h2

/-- C71 (partial: as above, one process at a time, nothing dropped): a call that was made by a process before it left its outermost block is not
executed again by that process or a later one as long as all that it uses is as it was; whatever was changed and run in between, however the
process ended. -/
theorem C71_no_recompute_partial (hH : Function.Injective H) (henc : Function.Injective enc) (hdet : Determined H enc ops sem)
    (before mid after : List VWorld.Cmd) (pid : Nat) (uid : String)
    (hp : WProperAll H enc ops sem VWorld.new (before ++ .call pid uid :: (mid ++ .exit pid :: after)))
    (hs : SoloAll H enc ops VWorld.new (before ++ .call pid uid :: (mid ++ .exit pid :: after)))
    (hg : ∀ cmd ∈ mid, GoesOn pid cmd) (p : VProc V) (hpid : (VWorld.run H enc ops VWorld.new before).procs pid = some p) (hin : 0 < p.run.depth)
    (hok : ∃ r, (VWorld.call H enc ops (VWorld.run H enc ops VWorld.new before).disk p uid).1 = .ok r)
    (hout : ∀ q, (VWorld.run H enc ops VWorld.new (before ++ .call pid uid :: mid)).procs pid = some q → q.run.depth = 1)
    (pid' : Nat) (p' : VProc V) (hpid' : (VWorld.run H enc ops VWorld.new (before ++ .call pid uid :: (mid ++ .exit pid :: after))).procs pid' = some p')
    (hin' : 0 < p'.run.depth) (hu : Unchanged H enc ops p.run.src p'.run.src uid) :
    ∃ r, VWorld.call H enc ops (VWorld.run H enc ops VWorld.new (before ++ .call pid uid :: (mid ++ .exit pid :: after))).disk p' uid = (.ok r, p') := by
  obtain ⟨hI', _, hS'⟩ := solo_run hH henc hdet _ (.new H enc ops sem) .new .new hp hs
  refine wknown_hit hH hI' hpid' hin' (KnownD.view hS' hpid' ?_) hu
  clear hI' hS' hpid'
  obtain ⟨hp1, hp2, hp3⟩ := wproperAll_append before hp
  obtain ⟨hs1, hs2, hs3⟩ := soloAll_append before hs
  obtain ⟨hI, hF, hS⟩ := solo_run hH henc hdet before (.new H enc ops sem) .new .new hp1 hs1
  have hI1 := hI.step hH henc hdet hp2
  have hF1 := hF.step hH henc hdet hI hp2 hs2.careful
  have hS1 := hS.step hH henc hI hp2 hs2
  obtain ⟨hp4, hp5, hp6⟩ := wproperAll_append mid hp3
  obtain ⟨hs4, hs5, hs6⟩ := soloAll_append mid hs3
  obtain ⟨hI2, hF2, hS2⟩ := solo_run hH henc hdet mid hI1 hF1 hS1 hp4 hs4
  obtain ⟨r, hr⟩ := hok
  have hstep : VWorld.step H enc ops (VWorld.run H enc ops VWorld.new before) (.call pid uid) =
      (VWorld.run H enc ops VWorld.new before).setProc pid (some (VWorld.call H enc ops (VWorld.run H enc ops VWorld.new before).disk p uid).2) := by
    unfold VWorld.step
    dsimp only
    rw [hpid]
  obtain ⟨q, h1, h2⟩ := wknown_run hH henc hdet mid hI1 hp4 hg (src := p.run.src) (uid := uid)
    ⟨_, by rw [hstep]; exact setProc_self _ _ _, by rw [hstep]; exact wcall_known hH henc hdet hI hpid hin (hp2 p hpid) hr⟩
  have hd := hout q (by rw [wrun_append]; exact h1)
  have hk := exit_known hF2 hS2 h1 hd h2
  have := KnownD.run hH henc hdet after (hI2.step hH henc hdet hp5) (hS2.step hH henc hI2 hp5 hs5) hp6 hs6 hk
  rw [wrun_append]
  show KnownD H enc ops p.run.src uid (VWorld.run H enc ops (VWorld.step H enc ops (VWorld.run H enc ops VWorld.new before) (.call pid uid)) (mid ++ .exit pid :: after)).disk
  rw [wrun_append]
  exact this

/-! ### concrete sessions -/

/-- Process 1 runs and ends; process 2 has other code, runs, is killed while it runs; process 3 has the first code again. -/
def sessionP : List WDo :=
  [.opens 1 (codeD "def g" "0"), .act 1 (.enter fun _ => .yes), .act 1 (.call "f(1)"), .act 1 .exit, .ends 1,
   .opens 2 (codeD "def g2" "0"), .act 2 (.enter fun _ => .yes), .act 2 (.call "f(1)"), .act 2 .exit, .act 2 (.enter fun _ => .yes), .act 2 (.call "f(2)"), .ends 2,
   .opens 3 (codeD "def g" "1"), .act 3 (.enter fun _ => .yes)]

/-- Two processes at the same time. -/
def sessionP2 : List WDo :=
  [.opens 1 (codeD "def g" "0"), .opens 2 (codeD "def g2" "0"), .act 1 (.enter fun _ => .yes), .act 2 (.enter fun _ => .yes), .act 1 (.call "f(1)"),
   .act 2 (.call "f(2)"), .act 2 .exit, .act 1 .exit, .act 2 (.code (codeD "def g" "0")), .act 2 (.enter fun _ => .yes)]

def runP (l : List WDo) : VWorld String := VWorld.run encH encD opsD .new (WDo.cmds (fun _ => []) l)

/-- The calls the process has executed, and the result of a call. -/
def logP (w : VWorld String) (pid : Nat) : List String := ((w.procs pid).map (·.run.log)).getD []
def callP (w : VWorld String) (pid : Nat) (uid : String) : Option (Except Err String × List String) :=
  (w.procs pid).map fun p => let r := VWorld.call encH encD opsD w.disk p uid; (r.1, r.2.run.log)
def exitP (w : VWorld String) (pid : Nat) : Option (Except Err Unit) := (w.procs pid).map fun p => (VWorld.exit w.disk p).1

set_option maxRecDepth 20000 in
theorem sessionP_proper : WDo.proper encH encD semD (fun _ => ("m", "f")) progD (fun _ => []) .new sessionP = true := by
  decide +kernel

set_option maxRecDepth 20000 in
theorem sessionP2_proper : WDo.proper encH encD semD (fun _ => ("m", "f")) progD (fun _ => []) .new sessionP2 = true := by
  decide +kernel

/-- The hypotheses of the theorems hold for these sessions. -/
example : Determined encH encD opsD semD ∧ WProperAll encH encD opsD semD .new (WDo.cmds (fun _ => []) sessionP) ∧
    SoloAll encH encD opsD .new (WDo.cmds (fun _ => []) sessionP) ∧ WProperAll encH encD opsD semD .new (WDo.cmds (fun _ => []) sessionP2) :=
  ⟨progOps_determined _ _, WDo.proper_spec _ _ _ (fun _ _ h => by cases h) sessionP_proper, WDo.solo_spec opsD sessionP _ [] _ (fun _ _ => rfl) (by decide +kernel),
   WDo.proper_spec _ _ _ (fun _ _ h => by cases h) sessionP2_proper⟩

set_option maxRecDepth 20000 in
/-- Process 3 finds what process 1 has done; the unfinished work of process 2 is not there. -/
example : callP (runP sessionP) 3 "f(1)" = some (.ok "f: old", []) ∧ callP (runP sessionP) 3 "f(2)" = some (.ok "f: old", ["f(2)"]) := by
  decide +kernel

set_option maxRecDepth 20000 in
/-- Its call of `f(1)` meets the hypotheses of `C71_no_recompute_partial` (that nothing it uses has changed is shown in C70). -/
example : WDo.cmds (fun _ => []) sessionP = (WDo.cmds (fun _ => []) sessionP).take 2 ++ .call 1 "f(1)" :: ([] ++ .exit 1 :: (WDo.cmds (fun _ => []) sessionP).drop 4) ∧
    ((runP (sessionP.take 2)).procs 1).map (·.run.depth) = some 1 ∧ (callP (runP (sessionP.take 2)) 1 "f(1)").map (·.1) = some (.ok "f: old") ∧
    ((runP (sessionP.take 3)).procs 1).map (·.run.depth) = some 1 ∧ ((runP sessionP).procs 3).map (·.run.depth) = some 1 :=
  ⟨rfl, by decide +kernel, by decide +kernel, by decide +kernel, by decide +kernel⟩

/-! ### what is false without the restrictions -/

set_option maxRecDepth 20000 in
/-- C71 is false for processes at the same time: the versioner that is written last is the only one that stays, so that recorded calls of the
other process are executed again by a third. (Process 2 has run `f(2)` and left its block, process 1 left its block later.) -/
theorem C71_refuted_lost_update :
    let l := sessionP2.take 8 ++ [.opens 3 (codeD "def g2" "0"), .act 3 (.enter fun _ => .yes)]
    exitP (runP (sessionP2.take 6)) 2 = some (.ok ()) ∧ exitP (runP (sessionP2.take 7)) 1 = some (.ok ()) ∧
      ("f(2)" ∈ (runP l).disk.calls.keys.map (·.1)) ∧ callP (runP l) 3 "f(2)" = some (.ok "f: new, 0", ["f(2)"]) := by
  decide +kernel

set_option maxRecDepth 20000 in
/-- C71 is false for processes at the same time: if both have made the same call, the second cannot write anything any more, now or later. -/
theorem C71_refuted_same_call :
    let l : List WDo := [.opens 1 (codeD "def g" "0"), .opens 2 (codeD "def g" "0"), .act 1 (.enter fun _ => .yes), .act 2 (.enter fun _ => .yes),
      .act 1 (.call "f(1)"), .act 2 (.call "f(1)"), .act 1 .exit]
    exitP (runP (l.take 6)) 1 = some (.ok ()) ∧ exitP (runP l) 2 = some (.error .integrityError) ∧
      exitP (runP (l ++ [.act 2 .exit, .act 2 (.enter fun _ => .yes), .act 2 (.call "f(2)")])) 2 = some (.error .integrityError) := by
  decide +kernel

/-- the version of the call that was written last -/
def versionP (w : VWorld String) : String := (w.disk.calls.map (·.1.2)).getLast?.getD ""

set_option maxRecDepth 20000 in
/-- C71 is false if a process drops a version while another is running: the other can no longer make the call. -/
theorem C71_refuted_dropped :
    let l : List WDo := [.opens 1 (codeD "def g" "0"), .act 1 (.enter fun _ => .yes), .act 1 (.call "f(1)"), .act 1 .exit, .opens 2 (codeD "def g" "0")]
    let sv := versionP (runP l)
    let l' := l ++ [.act 1 (.dropVersion sv), .act 2 (.enter fun _ => .yes)]
    (callP (runP l') 2 "f(1)").map (·.1) = some (.error .valueError) := by
  decide +kernel

set_option maxRecDepth 20000 in
/-- C71 is false if a process drops a version while it has calls of another that are not written yet, and is killed: no later process can make
these calls. -/
theorem C71_refuted_dropped_early :
    let l : List WDo := [.opens 1 (codeD "def g" "0"), .act 1 (.enter fun _ => .yes), .act 1 (.call "f(1)"), .act 1 .exit,
      .act 1 (.code (codeD "def g2" "0")), .act 1 (.enter fun _ => .yes), .act 1 (.call "f(1)")]
    let sv := versionP (runP l)
    let l' := l ++ [.act 1 (.dropVersion sv), .ends 1, .opens 2 (codeD "def g2" "0"), .act 2 (.enter fun _ => .yes)]
    (callP (runP l) 1 "f(1)").map (·.1) = some (.ok "f: new, 0") ∧ (callP (runP l') 2 "f(1)").map (·.1) = some (.error .valueError) := by
  decide +kernel

end Verif.Props
