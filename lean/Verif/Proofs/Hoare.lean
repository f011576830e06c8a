import Verif.Model.Storage
import Verif.Basic.ListRel
/-!
Hoare-style rules for statements on the storage.
-/
namespace Verif

/-- From states satisfying `P`: after a normal return with `a` the state satisfies `Q a`, after an exception
`e` it satisfies `E e`. -/
def Hoare {α : Type} (P : St → Prop) (m : M α) (Q : α → St → Prop) (E : Err → St → Prop) : Prop :=
  ∀ s, P s → match m s with
    | (.ok a, s') => Q a s'
    | (.error e, s') => E e s'

/-- `m` keeps the invariant `I`, its result satisfies `q`, its exceptions satisfy `e`. -/
def Keeps {α : Type} (I : St → Prop) (m : M α) (q : α → Prop) (e : Err → Prop) : Prop :=
  Hoare I m (fun a s => I s ∧ q a) (fun er s => I s ∧ e er)

namespace Hoare

variable {α β : Type} {P : St → Prop} {Q : α → St → Prop} {E : Err → St → Prop}

theorem pure {a : α} (h : ∀ s, P s → Q a s) : Hoare P (M.pure a) Q E := fun s hs => h s hs

theorem raise {e : Err} (h : ∀ s, P s → E e s) : Hoare P (M.raise e : M α) Q E := fun s hs => h s hs

theorem bind {m : M α} {f : α → M β} {R : β → St → Prop}
    (hm : Hoare P m Q E) (hf : ∀ a, Hoare (Q a) (f a) R E) : Hoare P (m >>= f) R E := by
  intro s hs
  have h := hm s hs
  show match M.bind m f s with
    | (.ok a, s') => R a s'
    | (.error e, s') => E e s'
  unfold M.bind
  cases hms : m s with
  | mk x s' =>
    rw [hms] at h
    cases x with
    | ok a => exact hf a s' h
    | error e => exact h

theorem mono {m : M α} {P' : St → Prop} {Q' : α → St → Prop} {E' : Err → St → Prop}
    (h : Hoare P m Q E) (hP : ∀ s, P' s → P s) (hQ : ∀ a s, Q a s → Q' a s) (hE : ∀ e s, E e s → E' e s) :
    Hoare P' m Q' E' := by
  intro s hs
  have := h s (hP s hs)
  cases hms : m s with
  | mk x s' =>
    rw [hms] at this
    cases x with
    | ok a => exact hQ a s' this
    | error e => exact hE e s' this

end Hoare

namespace Keeps

variable {α β : Type} {I : St → Prop} {q : α → Prop} {e : Err → Prop}

theorem pure {a : α} (h : q a) : Keeps I (M.pure a) q e := fun _ hs => ⟨hs, h⟩

theorem raise {er : Err} (h : e er) : Keeps I (M.raise er : M α) q e := fun _ hs => ⟨hs, h⟩

theorem lift {x : Except Err α} (h : ∀ a, x = .ok a → q a) (he : ∀ er, x = .error er → e er) :
    Keeps I (M.lift x) q e := by
  intro s hs
  cases x with
  | ok a => exact ⟨hs, h a rfl⟩
  | error er => exact ⟨hs, he er rfl⟩

theorem read {f : St → α} (h : ∀ s, I s → q (f s)) : Keeps I (M.read f) q e := fun s hs => ⟨hs, h s hs⟩

theorem readAny {f : St → α} : Keeps I (M.read f) (fun _ => True) e := fun _ hs => ⟨hs, trivial⟩

theorem bind {m : M α} {f : α → M β} {r : β → Prop} (hm : Keeps I m q e)
    (hf : ∀ a, q a → Keeps I (f a) r e) : Keeps I (m >>= f) r e := by
  refine Hoare.bind hm (fun a => ?_)
  intro s hs
  exact hf a hs.2 s hs.1

theorem mono {m : M α} {q' : α → Prop} {e' : Err → Prop} (h : Keeps I m q e)
    (hq : ∀ a, q a → q' a) (he : ∀ er, e er → e' er) : Keeps I m q' e' :=
  Hoare.mono h (fun _ => id) (fun _ _ hh => ⟨hh.1, hq _ hh.2⟩) (fun _ _ hh => ⟨hh.1, he _ hh.2⟩)

theorem ite {c : Prop} [Decidable c] {m m' : M α} (h : c → Keeps I m q e) (h' : ¬c → Keeps I m' q e) :
    Keeps I (if c then m else m') q e := by
  split
  · exact h ‹_›
  · exact h' ‹_›

theorem mapM' {R : β → α → Prop} {f : β → M α} (l : List β) (h : ∀ b ∈ l, Keeps I (f b) (R b) e) :
    Keeps I (M.mapM' f l) (All2 R l) e := by
  induction l with
  | nil => exact pure .nil
  | cons b l ih =>
    refine bind (h b (by simp)) (fun a ha => ?_)
    refine bind (ih (fun b' hb' => h b' (List.mem_cons_of_mem _ hb'))) (fun as has => ?_)
    exact pure (.cons ha has)

theorem forM' {f : β → M Unit} (l : List β) (h : ∀ b ∈ l, Keeps I (f b) (fun _ => True) e) :
    Keeps I (M.forM' f l) (fun _ => True) e := by
  induction l with
  | nil => exact pure trivial
  | cons b l ih =>
    refine bind (h b (by simp)) (fun a ha => ?_)
    exact ih (fun b' hb' => h b' (List.mem_cons_of_mem _ hb'))

end Keeps
end Verif
