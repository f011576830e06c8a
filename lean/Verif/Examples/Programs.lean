import Verif.Proofs.VersionedRun
import Verif.Basic.Encode
/-!
Programs of a small language, to show that what `Verif.Spec.Versioned` asks of the code can be had: a function reads global variables of its
module and calls other functions, and what it does next and what it returns depends on what it has found. These programs are `Determined`.
-/
namespace Verif.Props

open Verif Tracer Versioner

/-- What a function does, given what it means: return, read a global variable, call a function (which then does what its meaning says). -/
inductive Prog (M V : Type)
  | ret (v : V)
  | glob (name : String) (next : Option M → Prog M V)
  | call (g : DKey) (body : Option M → Prog M V) (next : V → Prog M V)

namespace Prog

variable {M V : Type} (H : Val → String) (enc : DKey → DepKey) (sem : DepKey → String → M)

/-- Run the program in a module: what the tracer sees, and the result. What is missing is seen as something that is not there. -/
def exec (src : Source) : String → Prog M V → List Act × V
  | _, .ret v => ([], v)
  | m, .glob name next =>
    let a := match src (enc (m, name)) with
      | some (.globalVar h r) => Act.glob name h r
      | _ => Act.glob name "" ""
    let p := exec src m (next (meaningOf H sem src (enc (m, name))))
    (a :: p.1, p.2)
  | m, .call g body next =>
    let b := exec src g.1 (body (meaningOf H sem src (enc g)))
    let p := exec src m (next b.2)
    (.call ⟨g.1, g.2, src.runtime (enc g)⟩ b.1 false :: p.1, p.2)

/-- All that is used is there. -/
def present (src : Source) : String → Prog M V → Bool
  | _, .ret _ => true
  | m, .glob name next =>
    (match src (enc (m, name)) with
      | some (.globalVar _ _) => true
      | _ => false) && present src m (next (meaningOf H sem src (enc (m, name))))
  | m, .call g body next =>
    (match src (enc g) with
      | some (.callable (some _) _) => true
      | _ => false) && present src g.1 (body (meaningOf H sem src (enc g))) &&
        present src m (next (exec H enc sem src g.1 (body (meaningOf H sem src (enc g)))).2)

end Prog

/-- The ops given by programs: the op of a call, and what its code does with the inputs of this call. -/
def progOps {M V : Type} (H : Val → String) (enc : DKey → DepKey) (sem : DepKey → String → M) (key : String → DKey)
    (prog : String → Option M → Prog M V) : Ops V where
  key := key
  acts src uid := (Prog.exec H enc sem src (key uid).1 (prog uid (meaningOf H sem src (enc (key uid))))).1
  value src uid := (Prog.exec H enc sem src (key uid).1 (prog uid (meaningOf H sem src (enc (key uid))))).2

variable {M V : Type} {H : Val → String} {enc : DKey → DepKey} {sem : DepKey → String → M}

theorem Prog.calm (src : Source) (p : Prog M V) : ∀ m, calmAll (p.exec H enc sem src m).1 = true ∧ plainAll (p.exec H enc sem src m).1 = true := by
  induction p with
  | ret v => intro m; exact ⟨rfl, rfl⟩
  | glob name next ih =>
    intro m
    obtain ⟨h1, h2⟩ := ih (meaningOf H sem src (enc (m, name))) m
    unfold Prog.exec
    dsimp only
    split <;> simp [calmAll, calmAct, plainAll, plainAct, h1, h2]
  | call g body next ih1 ih2 =>
    intro m
    obtain ⟨h1, h2⟩ := ih1 (meaningOf H sem src (enc g)) g.1
    obtain ⟨h3, h4⟩ := ih2 (exec H enc sem src g.1 (body (meaningOf H sem src (enc g)))).2 m
    unfold Prog.exec
    simp [calmAll, calmAct, plainAll, plainAct, h1, h2, h3, h4]

theorem Prog.uses_nil {f : Fn} {x d : DKey} : ¬ Uses f [] x d := by
  intro h
  cases h with
  | call h => cases h
  | glob h => cases h
  | inner h _ => cases h

theorem Prog.uses_glob {f : Fn} {name h r : String} {acts : List Act} {x d : DKey} :
    Uses f (.glob name h r :: acts) x d ↔ (x = f.key ∧ d = (f.modul, name)) ∨ Uses f acts x d := by
  constructor
  · intro hu
    cases hu with
    | call hm =>
      rcases List.mem_cons.1 hm with he | hm
      · cases he
      · exact .inr (.call hm)
    | glob hm =>
      rcases List.mem_cons.1 hm with he | hm
      · cases he; exact .inl ⟨rfl, rfl⟩
      · exact .inr (.glob hm)
    | inner hm hu =>
      rcases List.mem_cons.1 hm with he | hm
      · cases he
      · exact .inr (.inner hm hu)
  · rintro (⟨rfl, rfl⟩ | hu)
    · exact .glob List.mem_cons_self
    · cases hu with
      | call hm => exact .call (List.mem_cons_of_mem _ hm)
      | glob hm => exact .glob (List.mem_cons_of_mem _ hm)
      | inner hm hu => exact .inner (List.mem_cons_of_mem _ hm) hu

theorem Prog.uses_call {f g : Fn} {body acts : List Act} {x d : DKey} :
    Uses f (.call g body false :: acts) x d ↔ (x = f.key ∧ d = g.key) ∨ Uses g body x d ∨ Uses f acts x d := by
  constructor
  · intro hu
    cases hu with
    | call hm =>
      rcases List.mem_cons.1 hm with he | hm
      · cases he; exact .inl ⟨rfl, rfl⟩
      · exact .inr (.inr (.call hm))
    | glob hm =>
      rcases List.mem_cons.1 hm with he | hm
      · cases he
      · exact .inr (.inr (.glob hm))
    | inner hm hu =>
      rcases List.mem_cons.1 hm with he | hm
      · cases he; exact .inr (.inl hu)
      · exact .inr (.inr (.inner hm hu))
  · rintro (⟨rfl, rfl⟩ | hu | hu)
    · exact .call List.mem_cons_self
    · exact .inner List.mem_cons_self hu
    · cases hu with
      | call hm => exact .call (List.mem_cons_of_mem _ hm)
      | glob hm => exact .glob (List.mem_cons_of_mem _ hm)
      | inner hm hu => exact .inner (List.mem_cons_of_mem _ hm) hu

/-- Two runs of a program that find the same meaning in what both use, use the same and return the same. -/
theorem Prog.same (src src' : Source) (p : Prog M V) : ∀ (f f' : Fn), f.key = f'.key →
    (∀ k, (∃ x, Uses f (p.exec H enc sem src f.modul).1 x k) → (∃ x, Uses f' (p.exec H enc sem src' f'.modul).1 x k) →
      meaningOf H sem src (enc k) = meaningOf H sem src' (enc k)) →
    (∀ x k, Uses f (p.exec H enc sem src f.modul).1 x k ↔ Uses f' (p.exec H enc sem src' f'.modul).1 x k) ∧
      (p.exec H enc sem src f.modul).2 = (p.exec H enc sem src' f'.modul).2 := by
  induction p with
  | ret v =>
    intro f f' _ _
    exact ⟨fun x k => ⟨fun h => absurd h Prog.uses_nil, fun h => absurd h Prog.uses_nil⟩, rfl⟩
  | glob name next ih =>
    intro f f' hk hm
    have hmod : f.modul = f'.modul := congrArg Prod.fst hk
    unfold Prog.exec at hm ⊢
    dsimp only at hm ⊢
    have key : ∀ (s : Source) (g : Fn) (l : List Act) x k, Uses g ((match s (enc (g.modul, name)) with
      | some (.globalVar h r) => Act.glob name h r
      | _ => Act.glob name "" "") :: l) x k ↔ (x = g.key ∧ k = (g.modul, name)) ∨ Uses g l x k := by
      intro s g l x k
      split <;> exact Prog.uses_glob
    have hm' : ∀ k, (∃ x, (x = f.key ∧ k = (f.modul, name)) ∨ Uses f _ x k) → (∃ x, (x = f'.key ∧ k = (f'.modul, name)) ∨ Uses f' _ x k) → _ :=
      fun k ⟨x, h1⟩ ⟨x', h2⟩ => hm k ⟨x, (key src f _ x k).2 h1⟩ ⟨x', (key src' f' _ x' k).2 h2⟩
    have hmean := hm' (f.modul, name) ⟨f.key, .inl ⟨rfl, rfl⟩⟩ ⟨f'.key, .inl ⟨rfl, by rw [hmod]⟩⟩
    have hmean' : meaningOf H sem src' (enc (f'.modul, name)) = meaningOf H sem src (enc (f.modul, name)) := by rw [hmean, hmod]
    rw [hmean'] at hm' ⊢
    obtain ⟨h1, h2⟩ := ih (meaningOf H sem src (enc (f.modul, name))) f f' hk fun k ⟨x, hx⟩ ⟨x', hx'⟩ => hm' k ⟨x, .inr hx⟩ ⟨x', .inr hx'⟩
    refine ⟨fun x k => ?_, h2⟩
    rw [key, key, h1, hk, hmod]
  | call g body next ih1 ih2 =>
    intro f f' hk hm
    have hmod : f.modul = f'.modul := congrArg Prod.fst hk
    unfold Prog.exec at hm ⊢
    dsimp only at hm ⊢
    have hm' := fun k x x' h1 h2 => hm k ⟨x, Prog.uses_call.2 h1⟩ ⟨x', Prog.uses_call.2 h2⟩
    have hmean : meaningOf H sem src (enc g) = meaningOf H sem src' (enc g) := hm' g f.key f'.key (.inl ⟨rfl, rfl⟩) (.inl ⟨rfl, rfl⟩)
    rw [← hmean] at hm' ⊢
    obtain ⟨h1, h2⟩ := ih1 (meaningOf H sem src (enc g)) ⟨g.1, g.2, src.runtime (enc g)⟩ ⟨g.1, g.2, src'.runtime (enc g)⟩ rfl
      fun k ⟨x, hx⟩ ⟨x', hx'⟩ => hm' k x x' (.inr (.inl hx)) (.inr (.inl hx'))
    dsimp only at h1 h2
    rw [← h2] at hm' ⊢
    obtain ⟨h3, h4⟩ := ih2 (exec H enc sem src g.1 (body (meaningOf H sem src (enc g)))).2 f f' hk
      fun k ⟨x, hx⟩ ⟨x', hx'⟩ => hm' k x x' (.inr (.inr hx)) (.inr (.inr hx'))
    refine ⟨fun x k => ?_, h4⟩
    rw [Prog.uses_call, Prog.uses_call, h1, h3, hk]
    rfl

/-- Programs are determined by the meaning of what they use. -/
theorem progOps_determined (key : String → DKey) (prog : String → Option M → Prog M V) :
    Determined H enc (progOps H enc sem key prog) sem := by
  intro src src' uid _ _ hm
  have hself : meaningOf H sem src (enc (key uid)) = meaningOf H sem src' (enc (key uid)) := hm _ (.inl rfl) (.inl rfl)
  have := Prog.same (H := H) (enc := enc) (sem := sem) src src' (prog uid (meaningOf H sem src (enc (key uid))))
    ((progOps H enc sem key prog).fn enc src uid) ((progOps H enc sem key prog).fn enc src' uid) rfl (by
      intro k ⟨x, hx⟩ ⟨x', hx'⟩
      refine hm _ (.inr ⟨x, k, hx, rfl⟩) (.inr ⟨x', k, ?_, rfl⟩)
      rw [hself] at hx'
      exact hx')
  obtain ⟨h1, h2⟩ := this
  rw [hself] at h2
  refine ⟨fun k => ?_, ?_⟩
  · unfold Needs
    refine or_congr Iff.rfl ?_
    refine exists_congr fun x => exists_congr fun d => and_congr_left fun _ => ?_
    have := h1 x d
    rw [hself] at this
    show Uses _ (Prog.exec H enc sem src (key uid).1 (prog uid (meaningOf H sem src (enc (key uid))))).1 x d ↔ _
    rw [hself]
    exact this
  · show (Prog.exec H enc sem src (key uid).1 (prog uid (meaningOf H sem src (enc (key uid))))).2 = _
    rw [hself]
    exact h2

theorem Prog.seen (src : Source) (p : Prog M V) : ∀ (f : Fn), p.present H enc sem src f.modul = true →
    ∀ k n, Seen f (p.exec H enc sem src f.modul).1 k n → match n with
    | .callable _ rt => ∃ text, src (enc k) = some (.callable (some text) rt)
    | .globalVar h r => src (enc k) = some (.globalVar h r)
    | .terminal _ _ => False := by
  induction p with
  | ret v =>
    intro f _ k n h
    cases h with
    | call h => cases h
    | glob h => cases h
    | inner h _ => cases h
  | glob name next ih =>
    intro f hp k n h
    unfold Prog.present at hp
    rw [Bool.and_eq_true] at hp
    unfold Prog.exec at h
    dsimp only at h
    cases hs : src (enc (f.modul, name)) with
    | none => rw [hs] at hp; cases hp.1
    | some nn =>
      cases nn with
      | terminal a b => rw [hs] at hp; cases hp.1
      | callable a b => rw [hs] at hp; cases hp.1
      | globalVar a b =>
        rw [hs] at h
        dsimp only at h
        have hrest := ih _ f hp.2 k n
        cases h with
        | call hm =>
          rcases List.mem_cons.1 hm with he | hm
          · cases he
          · exact hrest (.call hm)
        | glob hm =>
          rcases List.mem_cons.1 hm with he | hm
          · cases he; exact hs
          · exact hrest (.glob hm)
        | inner hm hu =>
          rcases List.mem_cons.1 hm with he | hm
          · cases he
          · exact hrest (.inner hm hu)
  | call g body next ih1 ih2 =>
    intro f hp k n h
    unfold Prog.present at hp
    rw [Bool.and_eq_true, Bool.and_eq_true] at hp
    obtain ⟨⟨hp1, hp2⟩, hp3⟩ := hp
    unfold Prog.exec at h
    dsimp only at h
    have hrest := ih2 _ f hp3 k n
    cases h with
    | call hm =>
      rcases List.mem_cons.1 hm with he | hm
      · cases he
        cases hs : src (enc g) with
        | none => rw [hs] at hp1; cases hp1
        | some nn =>
          cases nn with
          | terminal a b => rw [hs] at hp1; cases hp1
          | globalVar a b => rw [hs] at hp1; cases hp1
          | callable a b =>
            cases a with
            | none => rw [hs] at hp1; cases hp1
            | some text =>
              refine ⟨text, ?_⟩
              show src (enc g) = some (.callable (some text) (src.runtime (enc g)))
              rw [hs]
              simp [Source.runtime, hs]
      · exact hrest (.call hm)
    | glob hm =>
      rcases List.mem_cons.1 hm with he | hm
      · cases he
      · exact hrest (.glob hm)
    | inner hm hu =>
      rcases List.mem_cons.1 hm with he | hm
      · cases he; exact ih1 _ ⟨g.1, g.2, src.runtime (enc g)⟩ hp2 k n hu
      · exact hrest (.inner hm hu)

/-- The execution of a program in which nothing is missing is visible. -/
theorem progOps_visible (key : String → DKey) (prog : String → Option M → Prog M V) (src : Source) (uid : String)
    (h1 : ∃ text rt, src (enc (key uid)) = some (.callable (some text) rt))
    (h2 : (prog uid (meaningOf H sem src (enc (key uid)))).present H enc sem src (key uid).1 = true) :
    Visible enc (progOps H enc sem key prog) src uid where
  calm := (Prog.calm src _ _).1
  plain := (Prog.calm src _ _).2
  self := h1
  seen := Prog.seen src _ ((progOps H enc sem key prog).fn enc src uid) h2

end Verif.Props
