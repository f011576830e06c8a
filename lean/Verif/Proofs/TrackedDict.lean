import Verif.Spec.TrackedDict
import Verif.Props.Tracer
namespace Verif.Props

open Verif Track

variable {o : Objects} {cfg : Cfg} {p p' : Prog}

theorem Seen.mono {f : Fn} {as bs : List Act} {k : DKey} {n : TNode} (h : Seen f as k n) (hs : ∀ a ∈ as, a ∈ bs) : Seen f bs k n := by
  cases h with
  | call h => exact .call (hs _ h)
  | glob h => exact .glob (hs _ h)
  | inner h h' => exact .inner (hs _ h) h'

theorem getitem_value {top : Fn} {m x : String} {g : Env} {v : Option Obj} {a : List Act} {u : List Unseen}
    (h : getitem o cfg top m x g = .ok (v, a, u)) : v = g m x := by
  unfold getitem at h
  split at h
  · next hg => cases h; exact hg.symm
  · next b hg =>
    rw [hg]
    split at h
    · split at h
      · cases h
      · cases h; rfl
    · split at h
      · cases h
      · cases h; rfl
    · cases h; rfl
    · cases h; rfl
    · split at h
      · split at h
        · cases h; rfl
        · split at h
          · cases h; rfl
          · cases h
      · cases h; rfl

/-- Without writes by tracked functions, tracing changes nothing. -/
theorem exec_plain : ∀ (n : Nat) (top : Fn) (m : String) (d : Bool) (c : Code) (g : Env) (r : Except Nat Obj),
    (exec o cfg p n top m d c g).res = .ok r → Calm (exec o cfg p n top m d c g).unseen →
    plainRun o p n m c g = some (r, (exec o cfg p n top m d c g).env)
  | 0, _, _, _, _, _, _, h, _ => by cases h
  | n + 1, top, m, d, .ret v, g, r, h, _ => by
    unfold exec at h ⊢; cases h; rfl
  | n + 1, top, m, d, .exc e, g, r, h, _ => by
    unfold exec at h ⊢; cases h; rfl
  | n + 1, top, m, true, .load x next, g, r, h, hc => by
    unfold exec at h hc ⊢
    cases hg : getitem o cfg top m x g with
    | error e => rw [hg] at h; cases h
    | ok q =>
      obtain ⟨v, a, u⟩ := q
      rw [hg] at h hc
      have := getitem_value hg
      subst this
      exact exec_plain n top m true _ g r h fun m' x' hm => hc m' x' (List.mem_append_right _ hm)
  | n + 1, top, m, false, .load x next, g, r, h, hc => by
    unfold exec at h hc ⊢
    exact exec_plain n top m false _ g r h fun m' x' hm => hc m' x' (List.mem_append_right _ hm)
  | n + 1, top, m, d, .attr m' x next, g, r, h, hc => by
    unfold exec at h hc ⊢
    exact exec_plain n top m d _ g r h fun m' x' hm => hc m' x' (List.mem_append_right _ hm)
  | n + 1, top, m, true, .store x v next, g, r, h, hc => by
    unfold exec at hc
    exact absurd (List.mem_append_left _ (List.mem_singleton.2 rfl)) (hc m x)
  | n + 1, top, m, false, .store x v next, g, r, h, hc => by
    unfold exec at h hc ⊢
    exact exec_plain n top m false _ _ r h fun m' x' hm => hc m' x' (List.mem_append_right _ hm)
  | n + 1, top, m, d, .call f arg next, g, r, h, hc => by
    unfold exec at h hc ⊢
    unfold plainRun
    cases hk : o.kind f with
    | function fo =>
      rw [hk] at h hc
      dsimp only at h hc ⊢
      by_cases hw : fo.wrapper = true
      · rw [if_pos hw] at h hc ⊢
        by_cases hs : (cfg.strict && fo.closure) = true
        · rw [if_pos hs] at h; cases h
        · rw [if_neg hs] at h hc ⊢
          cases hr1 : (exec o cfg p n ⟨fo.modul, fo.qualname, p.runtime f⟩ fo.modul true (p.body f arg) g).res with
          | error e => rw [hr1] at h; cases h
          | ok r1 =>
            rw [hr1] at h hc
            dsimp only at h hc ⊢
            rw [exec_plain n _ fo.modul true (p.body f arg) g r1 hr1 fun m' x' hm => hc m' x' (List.mem_append_left _ hm)]
            exact exec_plain n top m d _ _ r h fun m' x' hm => hc m' x' (List.mem_append_right _ hm)
      · rw [if_neg hw] at h hc ⊢
        cases hr1 : (exec o cfg p n top fo.modul fo.dict (p.body f arg) g).res with
        | error e => rw [hr1] at h; cases h
        | ok r1 =>
          rw [hr1] at h hc
          dsimp only at h hc ⊢
          rw [exec_plain n top fo.modul fo.dict (p.body f arg) g r1 hr1 fun m' x' hm => hc m' x' (List.mem_append_left _ (List.mem_cons_of_mem _ hm))]
          exact exec_plain n top m d _ _ r h fun m' x' hm => hc m' x' (List.mem_append_right _ hm)
    | cls => rw [hk] at h; cases h
    | modul => rw [hk] at h; cases h
    | op => rw [hk] at h; cases h
    | value => rw [hk] at h; cases h

theorem getitem_same (ho : Hashed o) {top top' : Fn} (ht : top'.modul = top.modul) {m x : String} {g g' : Env} {v : Option Obj} {a : List Act} {u : List Unseen}
    (h : getitem o cfg top m x g = .ok (v, a, u)) (hu : ∀ e ∈ u, SameUnseen p p' g g' e)
    (ha : ∀ k h r, Seen top a k (.globalVar h r) → Current o g' k h) : getitem o cfg top' m x g' = .ok (v, a, u) := by
  have key : g' m x = g m x := by
    unfold getitem at h
    split at h
    · next hg => cases h; exact hu _ (List.mem_singleton.2 rfl)
    · next b hg =>
      split at h
      · split at h
        · cases h
        · cases h; exact hu _ (List.mem_singleton.2 rfl)
      · split at h
        · cases h
        · cases h; exact hu _ (List.mem_singleton.2 rfl)
      · cases h; exact hu _ (List.mem_singleton.2 rfl)
      · cases h; exact hu _ (List.mem_singleton.2 rfl)
      · next hv =>
        split at h
        · split at h
          · next hh hhash =>
            cases h
            split at hu
            · next hm =>
              obtain ⟨a', h1, h2, h3⟩ := ha (top.modul, x) hh (o.repr b) (.glob (List.mem_singleton.2 rfl))
              have := ho b a' hh hv h2 hhash h3
              subst this
              rw [hg, hm]
              exact h1
            · exact hu _ (List.mem_singleton.2 rfl)
          · split at h
            · cases h; exact hu _ (List.mem_singleton.2 rfl)
            · cases h
        · cases h; exact hu _ (List.mem_singleton.2 rfl)
  unfold getitem at h ⊢
  rw [key, ht]
  exact h

/-- What code does is determined by what the tracer has seen and what it has not seen. -/
theorem exec_same (ho : Hashed o) : ∀ (n : Nat) (top top' : Fn) (m : String) (d : Bool) (c : Code) (g g' : Env) (r : Except Nat Obj),
    top'.modul = top.modul → (exec o cfg p n top m d c g).res = .ok r →
    (∀ e ∈ (exec o cfg p n top m d c g).unseen, SameUnseen p p' g g' e) →
    (∀ k h rp, Seen top (exec o cfg p n top m d c g).acts k (.globalVar h rp) → Current o g' k h) →
    (∀ k rt, Seen top (exec o cfg p n top m d c g).acts k (.callable none rt) → SameFunction o p p' k) →
    (exec o cfg p n top m d c g).env = g ∧ (exec o cfg p' n top' m d c g').env = g' ∧
      (exec o cfg p' n top' m d c g').res = .ok r ∧ (exec o cfg p' n top' m d c g').unseen = (exec o cfg p n top m d c g).unseen
  | 0, _, _, _, _, _, _, _, _, _, h, _, _, _ => by cases h
  | n + 1, top, top', m, d, .ret v, g, g', r, _, h, _, _, _ => by
    unfold exec at h ⊢; exact ⟨rfl, rfl, h, rfl⟩
  | n + 1, top, top', m, d, .exc e, g, g', r, _, h, _, _, _ => by
    unfold exec at h ⊢; exact ⟨rfl, rfl, h, rfl⟩
  | n + 1, top, top', m, true, .load x next, g, g', r, ht, h, hu, hg, hf => by
    unfold exec at h hu hg hf ⊢
    cases hget : getitem o cfg top m x g with
    | error e => rw [hget] at h; cases h
    | ok q =>
      obtain ⟨v, a, u⟩ := q
      rw [hget] at h hu hg hf
      dsimp only at h hu hg hf ⊢
      rw [getitem_same (p := p) (p' := p') ho ht hget (fun e he => hu e (List.mem_append_left _ he))
        (fun k h r hs => hg k h r (hs.mono fun _ h => List.mem_append_left _ h))]
      dsimp only
      obtain ⟨h1, h2, h3, h4⟩ := exec_same ho n top top' m true (next v) g g' r ht h (fun e he => hu e (List.mem_append_right _ he))
        (fun k h r hs => hg k h r (hs.mono fun _ h => List.mem_append_right _ h)) (fun k rt hs => hf k rt (hs.mono fun _ h => List.mem_append_right _ h))
      exact ⟨h1, h2, h3, congrArg (u ++ ·) h4⟩
  | n + 1, top, top', m, false, .load x next, g, g', r, ht, h, hu, hg, hf => by
    unfold exec at h hu hg hf ⊢
    have hx : g' m x = g m x := hu (.untracked m x) (List.mem_append_left _ (List.mem_singleton.2 rfl))
    rw [hx]
    obtain ⟨h1, h2, h3, h4⟩ := exec_same ho n top top' m false (next (g m x)) g g' r ht h (fun e he => hu e (List.mem_append_right _ he))
      (fun k h r hs => hg k h r hs) (fun k rt hs => hf k rt hs)
    exact ⟨h1, h2, h3, congrArg ([Unseen.untracked m x] ++ ·) h4⟩
  | n + 1, top, top', m, d, .attr m' x next, g, g', r, ht, h, hu, hg, hf => by
    unfold exec at h hu hg hf ⊢
    have hx : g' m' x = g m' x := hu (.attr m' x) (List.mem_append_left _ (List.mem_singleton.2 rfl))
    rw [hx]
    obtain ⟨h1, h2, h3, h4⟩ := exec_same ho n top top' m d (next (g m' x)) g g' r ht h (fun e he => hu e (List.mem_append_right _ he))
      (fun k h r hs => hg k h r hs) (fun k rt hs => hf k rt hs)
    exact ⟨h1, h2, h3, congrArg ([Unseen.attr m' x] ++ ·) h4⟩
  | n + 1, top, top', m, true, .store x v next, g, g', r, _, h, hu, _, _ => by
    unfold exec at hu
    exact (hu (.lost m x) (List.mem_append_left _ (List.mem_singleton.2 rfl))).elim
  | n + 1, top, top', m, false, .store x v next, g, g', r, _, h, hu, _, _ => by
    unfold exec at hu
    exact (hu (.stored m x) (List.mem_append_left _ (List.mem_singleton.2 rfl))).elim
  | n + 1, top, top', m, d, .call f arg next, g, g', r, ht, h, hu, hg, hf => by
    unfold exec at h hu hg hf ⊢
    cases hk : o.kind f with
    | function fo =>
      rw [hk] at h hu hg hf
      dsimp only at h hu hg hf
      by_cases hw : fo.wrapper = true
      · rw [if_pos hw] at h hu hg hf
        by_cases hs : (cfg.strict && fo.closure) = true
        · rw [if_pos hs] at h; cases h
        · rw [if_neg hs] at h hu hg hf
          cases hr1 : (exec o cfg p n ⟨fo.modul, fo.qualname, p.runtime f⟩ fo.modul true (p.body f arg) g).res with
          | error e => rw [hr1] at h; cases h
          | ok r1 =>
            rw [hr1] at h hu hg hf
            dsimp only at h hu hg hf
            have hbody : p'.body f = p.body f :=
              hf (fo.modul, fo.qualname) (p.runtime f) (.call (g := ⟨fo.modul, fo.qualname, p.runtime f⟩) (List.mem_append_left _ (List.mem_singleton.2 rfl))) f fo hk rfl
            obtain ⟨h1, h2, h3, h4⟩ := exec_same ho n ⟨fo.modul, fo.qualname, p.runtime f⟩ ⟨fo.modul, fo.qualname, p'.runtime f⟩ fo.modul true
              (p.body f arg) g g' r1 rfl hr1 (fun e he => hu e (List.mem_append_left _ he))
              (fun k h r hs => hg k h r (.inner (List.mem_append_left _ (List.mem_singleton.2 rfl)) hs))
              (fun k rt hs => hf k rt (.inner (List.mem_append_left _ (List.mem_singleton.2 rfl)) hs))
            rw [h1] at h hu hg hf
            obtain ⟨k1, k2, k3, k4⟩ := exec_same ho n top top' m d (next r1) g g' r ht h (fun e he => hu e (List.mem_append_right _ he))
              (fun k h r hs => hg k h r (hs.mono fun _ h => List.mem_append_right _ h)) (fun k rt hs => hf k rt (hs.mono fun _ h => List.mem_append_right _ h))
            dsimp only
            rw [if_pos hw, if_neg hs, if_pos hw, if_neg hs, hbody, hr1]
            dsimp only
            rw [h3]
            dsimp only
            rw [h1, h2]
            exact ⟨k1, k2, k3, by simp only [Out.after]; rw [h4, k4]⟩
      · rw [if_neg hw] at h hu hg hf
        cases hr1 : (exec o cfg p n top fo.modul fo.dict (p.body f arg) g).res with
        | error e => rw [hr1] at h; cases h
        | ok r1 =>
          rw [hr1] at h hu hg hf
          dsimp only at h hu hg hf
          have hbody : p'.body f = p.body f := hu (.call f) (List.mem_append_left _ (List.mem_cons_self ..))
          obtain ⟨h1, h2, h3, h4⟩ := exec_same ho n top top' fo.modul fo.dict (p.body f arg) g g' r1 ht hr1
            (fun e he => hu e (List.mem_append_left _ (List.mem_cons_of_mem _ he)))
            (fun k h r hs => hg k h r (hs.mono fun _ h => List.mem_append_left _ h))
            (fun k rt hs => hf k rt (hs.mono fun _ h => List.mem_append_left _ h))
          rw [h1] at h hu hg hf
          obtain ⟨k1, k2, k3, k4⟩ := exec_same ho n top top' m d (next r1) g g' r ht h (fun e he => hu e (List.mem_append_right _ he))
            (fun k h r hs => hg k h r (hs.mono fun _ h => List.mem_append_right _ h)) (fun k rt hs => hf k rt (hs.mono fun _ h => List.mem_append_right _ h))
          dsimp only
          rw [if_neg hw, if_neg hw, hbody, hr1]
          dsimp only
          rw [h3]
          dsimp only
          rw [h1, h2]
          exact ⟨k1, k2, k3, by simp only [Out.after]; rw [h4, k4]⟩
    | cls => rw [hk] at h; cases h
    | modul => rw [hk] at h; cases h
    | op => rw [hk] at h; cases h
    | value => rw [hk] at h; cases h

theorem getitem_total (ht : Trackable o cfg) (top : Fn) (m x : String) (g : Env) : ∃ a u, getitem o cfg top m x g = .ok (g m x, a, u) := by
  unfold getitem
  cases hg : g m x with
  | none => exact ⟨_, _, rfl⟩
  | some a =>
    dsimp only
    cases hk : o.kind a with
    | function f =>
      dsimp only
      rw [if_neg]
      · exact ⟨_, _, rfl⟩
      · intro h
        rw [Bool.and_eq_true] at h
        rw [ht.functions a f hk h.1] at h
        cases h.2
    | cls cm r =>
      dsimp only
      rw [ht.classes a cm r hk]
      exact ⟨_, _, rfl⟩
    | modul => exact ⟨_, _, rfl⟩
    | op => exact ⟨_, _, rfl⟩
    | value =>
      dsimp only
      split
      · split
        · exact ⟨_, _, rfl⟩
        · next hn =>
          split
          · exact ⟨_, _, rfl⟩
          · next hs =>
            rcases ht.values with h | h
            · exact absurd h hs
            · obtain ⟨h', hh⟩ := h a hk
              rw [hn] at hh; cases hh
      · exact ⟨_, _, rfl⟩

/-- If the tracer objects to nothing, what runs without tracing runs with it. -/
theorem exec_total (hT : Trackable o cfg) : ∀ (n : Nat) (top : Fn) (m : String) (d : Bool) (c : Code) (g g' : Env) (r : Except Nat Obj),
    plainRun o p n m c g = some (r, g') → Calm (exec o cfg p n top m d c g).unseen →
    (exec o cfg p n top m d c g).res = .ok r ∧ (exec o cfg p n top m d c g).env = g'
  | 0, _, _, _, _, _, _, _, h, _ => by cases h
  | n + 1, top, m, d, .ret v, g, g', r, h, _ => by
    unfold exec; unfold plainRun at h; cases h; exact ⟨rfl, rfl⟩
  | n + 1, top, m, d, .exc e, g, g', r, h, _ => by
    unfold exec; unfold plainRun at h; cases h; exact ⟨rfl, rfl⟩
  | n + 1, top, m, true, .load x next, g, g', r, h, hc => by
    unfold exec at hc ⊢
    unfold plainRun at h
    obtain ⟨a, u, hg⟩ := getitem_total hT top m x g
    rw [hg] at hc ⊢
    exact exec_total hT n top m true _ g g' r h fun m' x' hm => hc m' x' (List.mem_append_right _ hm)
  | n + 1, top, m, false, .load x next, g, g', r, h, hc => by
    unfold exec at hc ⊢
    unfold plainRun at h
    exact exec_total hT n top m false _ g g' r h fun m' x' hm => hc m' x' (List.mem_append_right _ hm)
  | n + 1, top, m, d, .attr m' x next, g, g', r, h, hc => by
    unfold exec at hc ⊢
    unfold plainRun at h
    exact exec_total hT n top m d _ g g' r h fun m' x' hm => hc m' x' (List.mem_append_right _ hm)
  | n + 1, top, m, true, .store x v next, g, g', r, h, hc => by
    unfold exec at hc
    exact absurd (List.mem_append_left _ (List.mem_singleton.2 rfl)) (hc m x)
  | n + 1, top, m, false, .store x v next, g, g', r, h, hc => by
    unfold exec at hc ⊢
    unfold plainRun at h
    exact exec_total hT n top m false _ _ g' r h fun m' x' hm => hc m' x' (List.mem_append_right _ hm)
  | n + 1, top, m, d, .call f arg next, g, g', r, h, hc => by
    unfold exec at hc ⊢
    unfold plainRun at h
    cases hk : o.kind f with
    | function fo =>
      rw [hk] at h hc
      dsimp only at h hc ⊢
      cases hb : plainRun o p n fo.modul (p.body f arg) g with
      | none => rw [hb] at h; cases h
      | some q =>
        obtain ⟨r1, g1⟩ := q
        rw [hb] at h
        dsimp only at h
        by_cases hw : fo.wrapper = true
        · have hs : ¬ (cfg.strict && fo.closure) = true := by
            intro hs
            rw [Bool.and_eq_true] at hs
            rw [hT.closures f fo hk hw hs.1] at hs
            cases hs.2
          rw [if_pos hw, if_neg hs] at hc ⊢
          have hc1 : Calm (exec o cfg p n ⟨fo.modul, fo.qualname, p.runtime f⟩ fo.modul true (p.body f arg) g).unseen := by
            intro m' x' hm
            cases hr1 : (exec o cfg p n ⟨fo.modul, fo.qualname, p.runtime f⟩ fo.modul true (p.body f arg) g).res with
            | error e => rw [hr1] at hc; exact hc m' x' hm
            | ok r1 => rw [hr1] at hc; exact hc m' x' (List.mem_append_left _ hm)
          obtain ⟨h1, h2⟩ := exec_total hT n _ fo.modul true (p.body f arg) g g1 r1 hb hc1
          rw [h1] at hc ⊢
          dsimp only at hc ⊢
          rw [h2] at hc ⊢
          exact exec_total hT n top m d _ _ g' r h fun m' x' hm => hc m' x' (List.mem_append_right _ hm)
        · rw [if_neg hw] at hc ⊢
          have hc1 : Calm (exec o cfg p n top fo.modul fo.dict (p.body f arg) g).unseen := by
            intro m' x' hm
            cases hr1 : (exec o cfg p n top fo.modul fo.dict (p.body f arg) g).res with
            | error e => rw [hr1] at hc; exact hc m' x' (List.mem_cons_of_mem _ hm)
            | ok r1 => rw [hr1] at hc; exact hc m' x' (List.mem_append_left _ (List.mem_cons_of_mem _ hm))
          obtain ⟨h1, h2⟩ := exec_total hT n top fo.modul fo.dict (p.body f arg) g g1 r1 hb hc1
          rw [h1] at hc ⊢
          dsimp only at hc ⊢
          rw [h2] at hc ⊢
          exact exec_total hT n top m d _ _ g' r h fun m' x' hm => hc m' x' (List.mem_append_right _ hm)
    | cls => rw [hk] at h; cases h
    | modul => rw [hk] at h; cases h
    | op => rw [hk] at h; cases h
    | value => rw [hk] at h; cases h

end Verif.Props
