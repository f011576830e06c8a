import Verif.Examples.DevSession
import Verif.Proofs.VersionedProcs
/-!
Sessions of developers with one versioned database, given by the code at each time. Whether such a session is proper can be computed.
-/
namespace Verif.Props

open Verif Tracer Versioner VWorld

/-- What happens: a process is started with some code, ends, or does something. -/
inductive WDo
  | opens (pid : Nat) (cs : CodeState)
  | ends (pid : Nat)
  | act (pid : Nat) (d : Do)

def Do.wcmd (pid : Nat) (cs : CodeState) : Do → VWorld.Cmd
  | .code cs' => .change pid (Dict.get? cs')
  | .enter a => .enter pid cs a
  | .exit => .exit pid
  | .call uid => .call pid uid
  | .dropVersion sv => .dropVersion pid sv []

def Do.wcode (cs : CodeState) : Do → CodeState
  | .code cs' => cs'
  | _ => cs

/-- The events, given the code of each process. -/
def WDo.cmds (codes : Nat → CodeState) : List WDo → List VWorld.Cmd
  | [] => []
  | .opens pid cs :: l => .opens pid true (Dict.get? cs) :: cmds (fun q => if q = pid then cs else codes q) l
  | .ends pid :: l => .ends pid :: cmds codes l
  | .act pid d :: l => d.wcmd pid (codes pid) :: cmds (fun q => if q = pid then d.wcode (codes pid) else codes q) l

section
variable {M V : Type} [DecidableEq M] (H : Val → String) (enc : DKey → DepKey) (sem : DepKey → String → M) (key : String → DKey)
  (prog : String → Option M → Prog M V)

/-- `WProper`, computed -/
def Do.wproper (cs : CodeState) (p : VProc V) : Do → Bool
  | .code _ => decide (p.run.depth = 0)
  | .enter a => decide cs.keys.Nodup && honestB H sem p.run cs a && (match (VRun.enter H p.run cs a).1 with | .ok _ => true | .error _ => false)
  | .exit => decide (0 < p.run.depth)
  | .call uid => visibleB H enc sem key prog cs uid
  | .dropVersion _ => true

/-- `WProperAll`, computed -/
def WDo.proper (codes : Nat → CodeState) (w : VWorld V) : List WDo → Bool
  | [] => true
  | .opens pid cs :: l => proper (fun q => if q = pid then cs else codes q) (VWorld.step H enc (progOps H enc sem key prog) w (.opens pid true (Dict.get? cs))) l
  | .ends pid :: l => proper codes (VWorld.step H enc (progOps H enc sem key prog) w (.ends pid)) l
  | .act pid d :: l => (match w.procs pid with | none => true | some p => d.wproper H enc sem key prog (codes pid) p) &&
      proper (fun q => if q = pid then d.wcode (codes pid) else codes q) (VWorld.step H enc (progOps H enc sem key prog) w (d.wcmd pid (codes pid))) l
end

variable {M V : Type} [DecidableEq M] {H : Val → String} {enc : DKey → DepKey} {sem : DepKey → String → M} {key : String → DKey}
  {prog : String → Option M → Prog M V}

/-- Each process has its code. -/
def HasCode (codes : Nat → CodeState) (w : VWorld V) : Prop := ∀ pid p, w.procs pid = some p → p.run.src = Dict.get? (codes pid)

theorem HasCode.set {codes : Nat → CodeState} {w w' : VWorld V} (h : HasCode codes w) {pid : Nat} {cs : CodeState}
    (h1 : ∀ q, q ≠ pid → w'.procs q = w.procs q) (h2 : ∀ p, w'.procs pid = some p → p.run.src = Dict.get? cs) :
    HasCode (fun q => if q = pid then cs else codes q) w' := by
  intro q p hq
  dsimp only
  split
  · rename_i he; subst he; exact h2 p hq
  · rename_i he; rw [h1 q he] at hq; exact h q p hq

theorem wcmd_procs (ops : Ops V) (w : VWorld V) (pid : Nat) (cs : CodeState) (d : Do) (q : Nat) (h : q ≠ pid) :
    (VWorld.step H enc ops w (d.wcmd pid cs)).procs q = w.procs q := by
  cases d <;> (unfold Do.wcmd VWorld.step; dsimp only; cases hq : w.procs pid <;> first | rfl | exact setProc_ne _ _ h)

theorem wcmd_code (ops : Ops V) (w : VWorld V) (pid : Nat) (cs : CodeState) (d : Do) (p : VProc V)
    (hw : ∀ p, w.procs pid = some p → p.run.src = Dict.get? cs)
    (h : (VWorld.step H enc ops w (d.wcmd pid cs)).procs pid = some p) : p.run.src = Dict.get? (d.wcode cs) := by
  cases hq : w.procs pid with
  | none =>
    have : VWorld.step H enc ops w (d.wcmd pid cs) = w := by cases d <;> (unfold Do.wcmd VWorld.step; dsimp only; rw [hq])
    rw [this, hq] at h
    cases h
  | some p0 =>
    have h0 := hw p0 hq
    cases d with
    | code cs' =>
      unfold Do.wcmd VWorld.step at h
      simp only [hq, setProc_self, Option.some.injEq] at h
      subst h; rfl
    | enter a =>
      unfold Do.wcmd VWorld.step at h
      simp only [hq, setProc_self, Option.some.injEq] at h
      subst h
      exact (step_src (H := H) (enc := enc) ops p0.run (.enter cs a)).trans h0
    | exit =>
      unfold Do.wcmd VWorld.step at h
      simp only [hq, setProc_self, Option.some.injEq] at h
      subst h
      rcases exit_cases w.disk p0 with ⟨_, h, _⟩ | ⟨_, _, h⟩ <;> (rw [h]; exact h0)
    | call uid =>
      unfold Do.wcmd VWorld.step at h
      simp only [hq, setProc_self, Option.some.injEq] at h
      subst h
      refine Eq.trans ?_ h0
      exact step_src (H := H) (enc := enc) ops (VWorld.view w.disk p0) (.call uid)
    | dropVersion sv =>
      unfold Do.wcmd VWorld.step at h
      simp only [hq, setProc_self, Option.some.injEq] at h
      subst h
      exact h0

theorem Do.wproper_spec {cs : CodeState} {w : VWorld V} {pid : Nat} {d : Do} (hc : ∀ p, w.procs pid = some p → p.run.src = Dict.get? cs)
    (h : ∀ p, w.procs pid = some p → d.wproper H enc sem key prog cs p = true) : WProper H enc (progOps H enc sem key prog) sem w (d.wcmd pid cs) := by
  cases d with
  | code cs' => exact fun p hp => by simpa [Do.wproper] using h p hp
  | enter a =>
    intro p hp
    have := h p hp
    simp only [Do.wproper, Bool.and_eq_true, decide_eq_true_eq] at this
    obtain ⟨⟨h1, h2⟩, h3⟩ := this
    refine ⟨hc p hp ▸ crawled_self h1, honest_of h2, ?_⟩
    cases hr : (VRun.enter H p.run cs a).1 with
    | ok u => rfl
    | error e => rw [hr] at h3; cases h3
  | exit => exact fun p hp => by simpa [Do.wproper] using h p hp
  | call uid =>
    intro p hp
    rw [hc p hp]
    exact visible_of (h p hp)
  | dropVersion sv => trivial

theorem WDo.proper_spec : ∀ (l : List WDo) (codes : Nat → CodeState) (w : VWorld V), HasCode codes w → WDo.proper H enc sem key prog codes w l = true →
    WProperAll H enc (progOps H enc sem key prog) sem w (WDo.cmds codes l)
  | [], _, _, _, _ => trivial
  | .opens pid cs :: l, codes, w, hc, h => by
    refine ⟨trivial, proper_spec l _ _ (hc.set (fun q hq => setProc_ne _ _ hq) fun p hp => ?_) h⟩
    have hp := (setProc_self w pid _).symm.trans hp
    cases hp
    rfl
  | .ends pid :: l, codes, w, hc, h => by
    refine ⟨trivial, proper_spec l _ _ (fun q p hq => ?_) h⟩
    rcases setProc_some hq with ⟨_, h⟩ | ⟨_, h⟩
    · cases h
    · exact hc q p h
  | .act pid d :: l, codes, w, hc, h => by
    unfold WDo.proper at h
    rw [Bool.and_eq_true] at h
    refine ⟨Do.wproper_spec (hc pid) fun p hp => ?_, proper_spec l _ _ (hc.set (fun q hq => wcmd_procs _ w pid _ d q hq) fun p hp => wcmd_code _ w pid _ d p (hc pid) hp) h.2⟩
    have := h.1
    rw [hp] at this
    exact this

/-- `SoloAll`, computed, given the processes that may be there -/
def WDo.solo : List Nat → List WDo → Bool
  | _, [] => true
  | alive, .opens pid _ :: l => alive.isEmpty && solo [pid] l
  | alive, .ends pid :: l => solo (alive.filter (· ≠ pid)) l
  | _, .act _ (.dropVersion _) :: _ => false
  | alive, .act _ _ :: l => solo alive l

theorem wcmd_none (ops : Ops V) (w : VWorld V) (pid : Nat) (cs : CodeState) (d : Do) {q : Nat} (h : w.procs q = none) :
    (VWorld.step H enc ops w (d.wcmd pid cs)).procs q = none := by
  by_cases he : q = pid
  · subst he
    have : VWorld.step H enc ops w (d.wcmd q cs) = w := by cases d <;> (unfold Do.wcmd VWorld.step; dsimp only; rw [h])
    rw [this, h]
  · rw [wcmd_procs _ _ _ _ _ _ he, h]

theorem WDo.solo_spec (ops : Ops V) : ∀ (l : List WDo) (codes : Nat → CodeState) (alive : List Nat) (w : VWorld V), (∀ q, q ∉ alive → w.procs q = none) →
    WDo.solo alive l = true → SoloAll H enc ops w (WDo.cmds codes l)
  | [], _, _, _, _, _ => trivial
  | .opens pid cs :: l, codes, alive, w, hw, h => by
    unfold WDo.solo at h
    rw [Bool.and_eq_true, List.isEmpty_iff] at h
    obtain ⟨rfl, h⟩ := h
    refine ⟨fun q => hw q (by simp), solo_spec ops l _ _ _ (fun q hq => ?_) h⟩
    exact (setProc_ne _ _ (by simpa using hq)).trans (hw q (by simp))
  | .ends pid :: l, codes, alive, w, hw, h => by
    refine ⟨trivial, solo_spec ops l _ _ _ (fun q hq => ?_) h⟩
    by_cases he : q = pid
    · subst he; exact setProc_self _ _ _
    · refine (setProc_ne _ _ he).trans (hw q fun hm => hq ?_)
      simp [hm, he]
  | .act pid d :: l, codes, alive, w, hw, h => by
    cases d with
    | dropVersion sv => cases h
    | code cs => exact ⟨trivial, solo_spec ops l _ _ _ (fun q hq => wcmd_none ops w pid (codes pid) (.code cs) (hw q hq)) h⟩
    | enter a => exact ⟨trivial, solo_spec ops l _ _ _ (fun q hq => wcmd_none ops w pid (codes pid) (.enter a) (hw q hq)) h⟩
    | exit => exact ⟨trivial, solo_spec ops l _ _ _ (fun q hq => wcmd_none ops w pid (codes pid) .exit (hw q hq)) h⟩
    | call uid => exact ⟨trivial, solo_spec ops l _ _ _ (fun q hq => wcmd_none ops w pid (codes pid) (.call uid) (hw q hq)) h⟩

end Verif.Props
