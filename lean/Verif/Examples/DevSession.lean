import Verif.Examples.Programs
/-!
Sessions of a developer with a versioned storage, given by the code at each time. Whether such a session is proper can be computed.
-/
namespace Verif.Props

open Verif Tracer Versioner

/-- What the developer does: change the code, enter and leave contexts, call, drop. -/
inductive Do
  | code (cs : CodeState)
  | enter (answer : DepKey → Answer)
  | exit
  | call (uid : String)
  | dropVersion (sv : String)

/-- The session, starting from the given code: contexts are entered with the code as it is. -/
def Do.cmds : CodeState → List Do → List VRun.Cmd
  | _, [] => []
  | _, .code cs :: l => .change (Dict.get? cs) :: cmds cs l
  | cs, .enter a :: l => .enter cs a :: cmds cs l
  | cs, .exit :: l => .exit :: cmds cs l
  | cs, .call uid :: l => .call uid :: cmds cs l
  | cs, .dropVersion sv :: l => .dropVersion sv [] :: cmds cs l

theorem Do.onlyVersions : ∀ (l : List Do) (cs : CodeState), OnlyVersions (Do.cmds cs l)
  | [], _ => trivial
  | .code cs :: l, _ => onlyVersions l cs
  | .enter _ :: l, cs => onlyVersions l cs
  | .exit :: l, cs => onlyVersions l cs
  | .call _ :: l, cs => onlyVersions l cs
  | .dropVersion _ :: l, cs => ⟨rfl, onlyVersions l cs⟩

/-- The session so far, with the present code -/
def Do.present : CodeState → List Do → CodeState
  | cs, [] => cs
  | _, .code cs :: l => present cs l
  | cs, _ :: l => present cs l

section
variable {M V : Type} [DecidableEq M] (H : Val → String) (enc : DKey → DepKey) (sem : DepKey → String → M) (key : String → DKey)
  (prog : String → Option M → Prog M V)

/-- `Honest`, computed -/
def honestB (s : VRun V) (cs : CodeState) (answer : DepKey → Answer) : Bool :=
  s.st.versioner.dags.all fun p =>
    match p.2.head, (cs.get? p.1).bind TNode.content with
    | some h, some c => (match answer p.1 with | .no => false | _ => true) || decide (sem p.1 h = sem p.1 (c.hash H))
    | _, _ => true

def visibleB (cs : CodeState) (uid : String) : Bool :=
  (match Dict.get? cs (enc (key uid)) with | some (.callable (some _) _) => true | _ => false) &&
    (prog uid (meaningOf H sem (Dict.get? cs) (enc (key uid)))).present H enc sem (Dict.get? cs) (key uid).1

/-- `ProperAll`, computed -/
def Do.proper : CodeState → VRun V → List Do → Bool
  | _, _, [] => true
  | cs, s, d :: l =>
    match d with
    | .code cs' => decide (s.depth = 0) && proper cs' (VRun.step H enc (progOps H enc sem key prog) s (.change (Dict.get? cs'))) l
    | .enter a => decide cs.keys.Nodup && honestB H sem s cs a && (match (VRun.enter H s cs a).1 with | .ok _ => true | .error _ => false) &&
        proper cs (VRun.step H enc (progOps H enc sem key prog) s (.enter cs a)) l
    | .exit => decide (0 < s.depth) && proper cs (VRun.step H enc (progOps H enc sem key prog) s .exit) l
    | .call uid => visibleB H enc sem key prog cs uid && proper cs (VRun.step H enc (progOps H enc sem key prog) s (.call uid)) l
    | .dropVersion sv => proper cs (VRun.step H enc (progOps H enc sem key prog) s (.dropVersion sv [])) l
end

variable {M V : Type} [DecidableEq M] {H : Val → String} {enc : DKey → DepKey} {sem : DepKey → String → M} {key : String → DKey}
  {prog : String → Option M → Prog M V}

theorem step_src (ops : Ops V) (s : VRun V) (c : VRun.Cmd) : (VRun.step H enc ops s c).src = match c with | .change src => src | _ => s.src := by
  have hex : ∀ uid, (VRun.execute H enc ops s uid).2.src = s.src := by
    intro uid
    unfold VRun.execute
    split
    · rfl
    · split <;> rfl
  cases c with
  | change src => rfl
  | enter cs a =>
    show (VRun.enter H s cs a).2.src = s.src
    unfold VRun.enter
    split <;> rfl
  | exit => rfl
  | call uid =>
    show (VRun.call H enc ops s uid).2.src = s.src
    unfold VRun.call
    split
    · rfl
    · split
      · rfl
      · split
        · rfl
        · exact hex uid
        · split
          · rfl
          · exact hex uid
  | dropCalls l => rfl
  | dropVersion sv l => rfl

theorem honest_of {s : VRun V} {cs : CodeState} {answer : DepKey → Answer} (h : honestB H sem s cs answer = true) : Honest H sem s cs answer := by
  intro k d hd n c h1 h2 h3 h4 h5
  have := (List.all_eq_true.1 h) (k, d) (mem_of_get? h1)
  simp only [h2, h3, Option.bind_some, h4, h5, Bool.false_or, decide_eq_true_eq] at this
  exact this

theorem visible_of {cs : CodeState} {uid : String} (h : visibleB H enc sem key prog cs uid = true) :
    Visible enc (progOps H enc sem key prog) (Dict.get? cs) uid := by
  unfold visibleB at h
  rw [Bool.and_eq_true] at h
  refine progOps_visible key prog _ uid ?_ h.2
  have h1 := h.1
  split at h1
  · rename_i hs; exact ⟨_, _, hs⟩
  · cases h1

theorem crawled_self {cs : CodeState} (h : cs.keys.Nodup) : Crawled (Dict.get? cs) cs :=
  ⟨h, fun _ _ h => h, fun _ _ _ h => Dict.mem_keys.2 ⟨_, h⟩⟩

theorem Do.proper_spec : ∀ (l : List Do) (cs : CodeState) (s : VRun V), s.src = Dict.get? cs → Do.proper H enc sem key prog cs s l = true →
    ProperAll H enc (progOps H enc sem key prog) sem s (Do.cmds cs l)
  | [], _, _, _, _ => trivial
  | d :: l, cs, s, hs, h => by
    unfold Do.proper at h
    cases d with
    | code cs' =>
      dsimp only at h
      rw [Bool.and_eq_true, decide_eq_true_eq] at h
      exact ⟨h.1, proper_spec l cs' _ (by rw [step_src]) h.2⟩
    | enter a =>
      dsimp only at h
      simp only [Bool.and_eq_true, decide_eq_true_eq] at h
      obtain ⟨⟨⟨h1, h2⟩, h3⟩, h4⟩ := h
      refine ⟨⟨hs ▸ crawled_self h1, honest_of h2, ?_⟩, proper_spec l cs _ (by rw [step_src]; exact hs) h4⟩
      cases hr : (VRun.enter H s cs a).1 with
      | ok u => rfl
      | error e => rw [hr] at h3; cases h3
    | exit =>
      dsimp only at h
      rw [Bool.and_eq_true, decide_eq_true_eq] at h
      exact ⟨h.1, proper_spec l cs _ (by rw [step_src]; exact hs) h.2⟩
    | call uid =>
      dsimp only at h
      rw [Bool.and_eq_true] at h
      exact ⟨show Visible _ _ _ _ from hs ▸ visible_of h.1, proper_spec l cs _ (by rw [step_src]; exact hs) h.2⟩
    | dropVersion sv => exact ⟨trivial, proper_spec l cs _ (by rw [step_src]; exact hs) h⟩

end Verif.Props
