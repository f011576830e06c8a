import Verif.Proofs.Crawl
/-!
Python processes given by a list of objects, and ways to compute what the specification says about them.
-/
namespace Verif.Props

open Verif PyProc

variable {w : PyProc} {fuel : Nat}

/-- A process, given by its objects. The first is `unknown_function`, the second `UNKNOWN_GLOBAL_VAR`. -/
def mkWorld (l : List PyObj) (unhashable : List Addr) (modules : Dict String (Dict String Addr)) : PyProc where
  obj a := l.getD a (.other false)
  hash a := if a ∈ unhashable then none else some (toString a)
  repr _ := "value"
  modules := modules
  unknown := 0
  unknownGlobal := 1

/-- what is inside of the object -/
def insideB (w : PyProc) (m : String) (a : Addr) : List Addr :=
  match w.obj a with
  | .func _ _ _ _ (some b) => [b]
  | .wrapping _ b => [b]
  | .cls m' own _ => if m' = m then own.map (·.2) else []
  | _ => []

theorem mem_insideB {m : String} {a b : Addr} (h : Inside w m a b) : b ∈ insideB w m a := by
  unfold insideB
  rcases h with ⟨_, _, _, _, h⟩ | ⟨_, h⟩ | ⟨_, _, x, h, hx⟩
  · rw [h]; exact List.mem_singleton.2 rfl
  · rw [h]; exact List.mem_singleton.2 rfl
  · rw [h]
    dsimp only
    rw [if_pos rfl]
    exact List.mem_map.2 ⟨_, hx, rfl⟩

theorem insideB_none {l : List PyObj} {u : List Addr} {ms : Dict String (Dict String Addr)} {m : String} {a : Addr} (h : l.length ≤ a) :
    insideB (mkWorld l u ms) m a = [] := by
  unfold insideB mkWorld
  dsimp only
  rw [List.getD_eq_getElem?_getD, List.getElem?_eq_none h]
  rfl

/-- what is in the dictionary of a class of the module -/
def attrsB (w : PyProc) (m : String) (a : Addr) : List Addr :=
  match w.obj a with
  | .cls m' own _ => if m' = m then own.map (·.2) else []
  | _ => []

/-- the parts of a module, if `l` is closed -/
theorem part_mem {m : String} {l : List Addr} (h1 : ∀ d, w.modules.get? m = some d → ∀ p ∈ d, p.2 ∈ l) (h2 : ∀ a ∈ l, ∀ b ∈ attrsB w m a, b ∈ l)
    {a : Addr} (h : Part w m a) : a ∈ l := by
  induction h with
  | top hm hx => exact h1 _ hm _ hx
  | @attr a b x own inh _ ha hb ih =>
    refine h2 _ ih _ ?_
    unfold attrsB
    rw [ha]
    dsimp only
    rw [if_pos rfl]
    exact List.mem_map.2 ⟨_, hb, rfl⟩

/-- the functions behind the object -/
def behindB (w : PyProc) (fuel : Nat) (a : Addr) : List Addr :=
  match w.obj a with
  | .op f => [f]
  | _ =>
    match w.unwrap fuel a with
    | .error _ => []
    | .ok c =>
      match w.obj c with
      | .func .. => [c]
      | .cls _ own inh => (attr own inh "__init__").toList
      | _ => []

theorem mem_behindB {a v : Addr} (hw : ∃ c, w.unwrap fuel a = .ok c) (h : Behind w a v) : v ∈ behindB w fuel a := by
  obtain ⟨c, hc⟩ := hw
  have hwr := unwrap_wraps _ _ _ hc
  unfold behindB
  cases h with
  | op h => rw [h]; exact List.mem_singleton.2 rfl
  | func hop hc' hf =>
    split
    · next hf => exact absurd hf (hop _)
    · have := hwr.unique hc'
      subst this
      rw [hc]
      dsimp only
      rw [hf]
      exact List.mem_singleton.2 rfl
  | cls hc' ho hi =>
    have := hwr.unique hc'
    subst this
    split
    · next hf =>
      cases hc' with
      | last => rw [hf] at ho; cases ho
      | func h => rw [hf] at h; cases h
      | wrapping h => rw [hf] at h; cases h
    · rw [hc]
      dsimp only
      rw [ho]
      dsimp only
      rw [attr_init.2 hi]
      exact Option.mem_toList.2 rfl

/-- each function of the module is what its name says -/
def tidyB (w : PyProc) (fuel : Nat) (m : String) (l : List Addr) : Bool :=
  l.all fun a => (match w.unwrap fuel a with | .ok _ => true | .error _ => false) && (behindB w fuel a).all fun v =>
    match w.obj v with
    | .func m' q _ _ _ => m' ≠ m || match w.loadObj (m, q), w.callableNode fuel v with
      | .ok (some a'), .ok n => (match w.callableNode fuel a' with | .ok n' => n = n' | .error _ => false)
      | _, _ => false
    | _ => true

theorem tidy_of {m : String} {l : List Addr} (hl : ∀ a, Part w m a → a ∈ l) (h : tidyB w fuel m l = true) : Tidy w m := by
  intro a v q ha hv ⟨s0, rt0, o, ho⟩ s rt hf
  have := List.all_eq_true.1 h a (hl a ha)
  rw [Bool.and_eq_true] at this
  obtain ⟨h1, h2⟩ := this
  have hw : ∃ c, w.unwrap fuel a = .ok c := by
    cases hu : w.unwrap fuel a with
    | ok c => exact ⟨c, rfl⟩
    | error e => rw [hu] at h1; cases h1
  have h3 := List.all_eq_true.1 h2 v (mem_behindB hw hv)
  rw [ho] at h3
  simp only [ne_eq, not_true_eq_false, decide_false, Bool.false_or] at h3
  split at h3
  · next a' n h4 h5 =>
    cases h6 : w.callableNode fuel a' with
    | error e => rw [h6] at h3; cases h3
    | ok n' =>
      rw [h6] at h3
      have : n = n' := of_decide_eq_true h3
      subst this
      obtain ⟨s', rt', hn, hf'⟩ := callableNode_sound h6
      have := callableNode_eq h5 hf
      rw [hn] at this
      cases this
      exact ⟨a', loadObj_denotes.1 h4, hf'⟩
  · cases h3

theorem Denotes.unique {k : DKey} {a b : Addr} (h : Denotes w k.1 (splitDots k.2) a) (g : Denotes w k.1 (splitDots k.2) b) : a = b := by
  have h' := loadObj_denotes.2 h
  rw [loadObj_denotes.2 g] at h'
  cases h'
  rfl

/-- There is always a description of the code. -/
theorem codeOf_exists (w : PyProc) {enc : DKey → DepKey} (henc : Function.Injective enc) (S : DKey → Prop) : ∃ src, CodeOf w enc S src := by
  classical
  have : ∀ k, ∃ n : Option TNode, (∀ d a s rt, S d → k = enc d → Denotes w d.1 (splitDots d.2) a → FunctionAt w a s rt → n = some (.callable (some s) rt)) ∧
      (∀ d a h, S d → k = enc d → Denotes w d.1 (splitDots d.2) a → (∀ s rt, ¬ FunctionAt w a s rt) → w.hash a = some h → n = some (.globalVar h (w.repr a))) ∧
      ∀ s rt, n = some (.callable (some s) rt) → ∃ d a, S d ∧ k = enc d ∧ Denotes w d.1 (splitDots d.2) a ∧ FunctionAt w a s rt := by
    intro k
    by_cases h1 : ∃ d a, S d ∧ k = enc d ∧ Denotes w d.1 (splitDots d.2) a
    · obtain ⟨d, a, hS, rfl, hd⟩ := h1
      by_cases h2 : ∃ s rt, FunctionAt w a s rt
      · obtain ⟨s, rt, hf⟩ := h2
        refine ⟨some (.callable (some s) rt), ?_, ?_, ?_⟩
        · intro d' a' s' rt' _ he hd' hf'
          have := henc he
          subst this
          have := hd.unique hd'
          subst this
          obtain ⟨rfl, rfl⟩ := hf.unique hf'
          rfl
        · intro d' a' h _ he hd' hn _
          have := henc he
          subst this
          have := hd.unique hd'
          subst this
          exact absurd hf (hn s rt)
        · intro s' rt' he
          cases he
          exact ⟨d, a, hS, rfl, hd, hf⟩
      · refine ⟨match w.hash a with | some h => some (.globalVar h (w.repr a)) | none => none, ?_, ?_, ?_⟩
        · intro d' a' s' rt' _ he hd' hf'
          have := henc he
          subst this
          have := hd.unique hd'
          subst this
          exact absurd ⟨_, _, hf'⟩ h2
        · intro d' a' h _ he hd' _ hh
          have := henc he
          subst this
          have := hd.unique hd'
          subst this
          rw [hh]
        · intro s' rt' he
          split at he <;> cases he
    · exact ⟨none, fun d a s rt hS he hd _ => absurd ⟨d, a, hS, he, hd⟩ h1, fun d a h hS he hd _ _ => absurd ⟨d, a, hS, he, hd⟩ h1, fun _ _ h => by cases h⟩
  obtain ⟨src, h⟩ := Classical.axiomOfChoice this
  exact ⟨src, fun d a s rt hS => (h _).1 d a s rt hS rfl, fun d a g hS => (h _).2.1 d a g hS rfl, fun k => (h k).2.2⟩

theorem FunctionAt.plain {a : Addr} {m q s rt : String} (h : w.obj a = .func m q (some s) rt none) : FunctionAt w a s rt :=
  ⟨a, a, m, q, none, .inr ⟨fun f hf => (by rw [h] at hf; cases hf), rfl⟩,
    .last (fun _ _ _ _ _ hf => by rw [h] at hf; cases hf) (fun _ _ hf => by rw [h] at hf; cases hf), h⟩

end Verif.Props
