import Verif.Spec.Flow
/-!
The loop of `get_dependents`/`get_dependencies` computes a reachability closure.
-/
namespace Verif

/-- The queries of the loop, described by the edges they follow. -/
structure Queries (nextCalls nextRefs : List String → List String) (E : Node → Node → Prop)
    (UC UR : List String) : Prop where
  nc : ∀ R c, c ∈ nextCalls R ↔ ∃ h ∈ R, E (.ref h) (.call c)
  nr : ∀ C h, h ∈ nextRefs C ↔ ∃ c ∈ C, E (.call c) (.ref h)
  uc : ∀ h c, E (.ref h) (.call c) → c ∈ UC
  ur : ∀ c h, E (.call c) (.ref h) → h ∈ UR
  bip1 : ∀ a b, ¬ E (.ref a) (.ref b)
  bip2 : ∀ a b, ¬ E (.call a) (.call b)

/-- membership of a node in the pair of result sets -/
def InRes (refs calls : List String) : Node → Prop
  | .ref h => h ∈ refs
  | .call h => h ∈ calls

theorem mem_setDiff {a b : List String} {x : String} : x ∈ setDiff a b ↔ x ∈ a ∧ x ∉ b := by
  simp [setDiff]

/-- Loop invariant. -/
structure LoopInv (E : Node → Node → Prop) (P : Node → Prop) (refs calls curRefs curCalls : List String) : Prop where
  start : ∀ n, P n → InRes refs calls n
  sound : ∀ n, InRes refs calls n → ∃ s, P s ∧ Star E s n
  curIn : ∀ n, InRes curRefs curCalls n → InRes refs calls n
  closed : ∀ n m, InRes refs calls n → ¬ InRes curRefs curCalls n → E n m → InRes refs calls m

theorem depLoop_spec {nextCalls nextRefs : List String → List String} {E : Node → Node → Prop}
    {UC UR : List String} (q : Queries nextCalls nextRefs E UC UR) (P : Node → Prop) :
    ∀ (n : Nat) (refs calls curRefs curCalls : List String),
      UC.countP (fun c => c ∉ calls) + UR.countP (fun h => h ∉ refs) < n →
      LoopInv E P refs calls curRefs curCalls →
      ∃ R C, depLoop nextCalls nextRefs n refs calls curRefs curCalls = some (R, C) ∧
        ∀ m, InRes R C m ↔ ∃ s, P s ∧ Star E s m := by
  intro n
  induction n with
  | zero => intro _ _ _ _ h; omega
  | succ n ih =>
    intro refs calls curRefs curCalls hn inv
    simp only [depLoop]
    by_cases hb : setDiff (nextCalls curRefs) calls = [] ∧ setDiff (nextRefs curCalls) refs = []
    · rw [if_pos hb]
      refine ⟨refs, calls, rfl, ?_⟩
      intro m
      refine ⟨inv.sound m, ?_⟩
      rintro ⟨s, hs, hsm⟩
      refine hsm.closed (P := InRes refs calls) (inv.start s hs) ?_
      intro x y hx hxy
      by_cases hcur : InRes curRefs curCalls x
      · cases x with
        | ref h =>
          cases y with
          | ref h' => exact absurd hxy (q.bip1 _ _)
          | call c =>
            have h1 : c ∈ nextCalls curRefs := (q.nc _ _).2 ⟨h, hcur, hxy⟩
            by_cases hc : c ∈ calls
            · exact hc
            · have : c ∈ setDiff (nextCalls curRefs) calls := mem_setDiff.2 ⟨h1, hc⟩
              rw [hb.1] at this; simp at this
        | call c =>
          cases y with
          | call h' => exact absurd hxy (q.bip2 _ _)
          | ref h =>
            have h1 : h ∈ nextRefs curCalls := (q.nr _ _).2 ⟨c, hcur, hxy⟩
            by_cases hc : h ∈ refs
            · exact hc
            · have : h ∈ setDiff (nextRefs curCalls) refs := mem_setDiff.2 ⟨h1, hc⟩
              rw [hb.2] at this; simp at this
      · exact inv.closed x y hx hcur hxy
    · rw [if_neg hb]
      apply ih
      · -- measure
        have hle1 : UC.countP (fun c => c ∉ calls ++ setDiff (nextCalls curRefs) calls)
            ≤ UC.countP (fun c => c ∉ calls) :=
          List.countP_mono_left (by intro a _ h; simp at h ⊢; exact h.1)
        have hle2 : UR.countP (fun c => c ∉ refs ++ setDiff (nextRefs curCalls) refs)
            ≤ UR.countP (fun c => c ∉ refs) :=
          List.countP_mono_left (by intro a _ h; simp at h ⊢; exact h.1)
        have hlt : UC.countP (fun c => c ∉ calls ++ setDiff (nextCalls curRefs) calls)
              < UC.countP (fun c => c ∉ calls) ∨
            UR.countP (fun c => c ∉ refs ++ setDiff (nextRefs curCalls) refs)
              < UR.countP (fun c => c ∉ refs) := by
          by_cases h1 : setDiff (nextCalls curRefs) calls = []
          · right
            have h2 : setDiff (nextRefs curCalls) refs ≠ [] := fun h => hb ⟨h1, h⟩
            obtain ⟨x, hx⟩ := List.exists_mem_of_ne_nil _ h2
            obtain ⟨hx1, hx2⟩ := mem_setDiff.1 hx
            obtain ⟨c, _, hE⟩ := (q.nr _ _).1 hx1
            refine countP_lt_of_imp _ _ _ ?_ x (q.ur _ _ hE) (by simpa using hx2) ?_
            · intro a _ h; simp at h ⊢; exact h.1
            · simp [hx]
          · left
            obtain ⟨x, hx⟩ := List.exists_mem_of_ne_nil _ h1
            obtain ⟨hx1, hx2⟩ := mem_setDiff.1 hx
            obtain ⟨c, _, hE⟩ := (q.nc _ _).1 hx1
            refine countP_lt_of_imp _ _ _ ?_ x (q.uc _ _ hE) (by simpa using hx2) ?_
            · intro a _ h; simp at h ⊢; exact h.1
            · simp [hx]
        omega
      · -- invariant
        have hmono : ∀ m, InRes refs calls m →
            InRes (refs ++ setDiff (nextRefs curCalls) refs) (calls ++ setDiff (nextCalls curRefs) calls) m := by
          intro m hm
          cases m <;> simp only [InRes, List.mem_append] at hm ⊢ <;> exact Or.inl hm
        have hcur : ∀ m, InRes (setDiff (nextRefs curCalls) refs) (setDiff (nextCalls curRefs) calls) m →
            InRes (refs ++ setDiff (nextRefs curCalls) refs) (calls ++ setDiff (nextCalls curRefs) calls) m := by
          intro m hm
          cases m <;> simp only [InRes, List.mem_append] at hm ⊢ <;> exact Or.inr hm
        have hsplit : ∀ m, InRes (refs ++ setDiff (nextRefs curCalls) refs)
              (calls ++ setDiff (nextCalls curRefs) calls) m →
            InRes refs calls m ∨ InRes (setDiff (nextRefs curCalls) refs) (setDiff (nextCalls curRefs) calls) m := by
          intro m hm
          cases m <;> simpa only [InRes, List.mem_append] using hm
        refine ⟨fun m hm => hmono m (inv.start m hm), ?_, hcur, ?_⟩
        · intro m hm
          rcases hsplit m hm with h | h
          · exact inv.sound m h
          · cases m with
            | ref x =>
              obtain ⟨c, hc, hE⟩ := (q.nr _ _).1 (mem_setDiff.1 h).1
              obtain ⟨s, hs, hst⟩ := inv.sound (.call c) (inv.curIn (.call c) hc)
              exact ⟨s, hs, .tail hst hE⟩
            | call x =>
              obtain ⟨c, hc, hE⟩ := (q.nc _ _).1 (mem_setDiff.1 h).1
              obtain ⟨s, hs, hst⟩ := inv.sound (.ref c) (inv.curIn (.ref c) hc)
              exact ⟨s, hs, .tail hst hE⟩
        · intro x y hx hnx hxy
          have hx' : InRes refs calls x := (hsplit x hx).resolve_right hnx
          by_cases hc : InRes curRefs curCalls x
          · cases x with
            | ref h =>
              cases y with
              | ref h' => exact absurd hxy (q.bip1 _ _)
              | call c =>
                have h1 : c ∈ nextCalls curRefs := (q.nc _ _).2 ⟨h, hc, hxy⟩
                show c ∈ calls ++ _
                by_cases hcc : c ∈ calls
                · simp [hcc]
                · exact List.mem_append_right _ (mem_setDiff.2 ⟨h1, hcc⟩)
            | call c =>
              cases y with
              | call h' => exact absurd hxy (q.bip2 _ _)
              | ref h =>
                have h1 : h ∈ nextRefs curCalls := (q.nr _ _).2 ⟨c, hc, hxy⟩
                show h ∈ refs ++ _
                by_cases hcc : h ∈ refs
                · simp [hcc]
                · exact List.mem_append_right _ (mem_setDiff.2 ⟨h1, hcc⟩)
          · exact hmono y (inv.closed x y hx' hc hxy)

theorem start_inv (E : Node → Node → Prop) (refs calls : List String) :
    LoopInv E (fun n => n ∈ refs.map Node.ref ∨ n ∈ calls.map Node.call) refs calls refs calls := by
  have key : ∀ n, InRes refs calls n ↔ (n ∈ refs.map Node.ref ∨ n ∈ calls.map Node.call) := by
    intro n; cases n <;> simp [InRes]
  refine ⟨fun n hn => (key n).2 hn, fun n hn => ⟨n, (key n).1 hn, .refl⟩, fun _ h => h, ?_⟩
  intro n m h1 h2; exact absurd h1 h2

theorem dependents_queries (rows : List Row) :
    Queries (consumerHids rows) (outputHids rows) (Flow rows)
      (rows.map (·.callHid)) (rows.map (·.refHid)) := by
  constructor
  · intro R c
    simp only [consumerHids, List.mem_map, List.mem_filter, decide_eq_true_eq]
    constructor
    · rintro ⟨r, ⟨hr, h1, h2⟩, rfl⟩
      exact ⟨_, h1, .consume hr h2⟩
    · rintro ⟨h, hh, hE⟩
      cases hE with
      | consume hr hd => exact ⟨_, ⟨hr, hh, hd⟩, rfl⟩
  · intro C h
    simp only [outputHids, List.mem_map, List.mem_filter, decide_eq_true_eq]
    constructor
    · rintro ⟨r, ⟨hr, h1, h2⟩, rfl⟩
      exact ⟨_, h1, .produce hr h2⟩
    · rintro ⟨c, hc, hE⟩
      cases hE with
      | produce hr hd => exact ⟨_, ⟨hr, hc, hd⟩, rfl⟩
  · intro h c hE
    cases hE with
    | consume hr hd => exact List.mem_map.2 ⟨_, hr, rfl⟩
  · intro h c hE
    cases hE with
    | produce hr hd => exact List.mem_map.2 ⟨_, hr, rfl⟩
  · intro a b h; cases h
  · intro a b h; cases h

theorem dependencies_queries (rows : List Row) :
    Queries (creatorHids rows) (inputHids rows) (fun a b => Flow rows b a)
      (rows.map (·.callHid)) (rows.map (·.refHid)) := by
  constructor
  · intro R c
    simp only [creatorHids, List.mem_map, List.mem_filter, decide_eq_true_eq]
    constructor
    · rintro ⟨r, ⟨hr, h1, h2⟩, rfl⟩
      exact ⟨_, h1, .produce hr h2⟩
    · rintro ⟨h, hh, hE⟩
      cases hE with
      | produce hr hd => exact ⟨_, ⟨hr, hh, hd⟩, rfl⟩
  · intro C h
    simp only [inputHids, List.mem_map, List.mem_filter, decide_eq_true_eq]
    constructor
    · rintro ⟨r, ⟨hr, h1, h2⟩, rfl⟩
      exact ⟨_, h1, .consume hr h2⟩
    · rintro ⟨c, hc, hE⟩
      cases hE with
      | consume hr hd => exact ⟨_, ⟨hr, hc, hd⟩, rfl⟩
  · intro h c hE
    cases hE with
    | produce hr hd => exact List.mem_map.2 ⟨_, hr, rfl⟩
  · intro h c hE
    cases hE with
    | consume hr hd => exact List.mem_map.2 ⟨_, hr, rfl⟩
  · intro a b h; cases h
  · intro a b h; cases h

theorem fuel_ok (rows : List Row) (p q : String → Bool) :
    (rows.map (·.callHid)).countP p + (rows.map (·.refHid)).countP q < depFuel rows := by
  have h1 := List.countP_le_length (p := p) (l := rows.map (·.callHid))
  have h2 := List.countP_le_length (p := q) (l := rows.map (·.refHid))
  simp only [List.length_map] at h1 h2
  unfold depFuel; omega

theorem getDependents_spec (rows : List Row) (refs calls : List String) :
    ∃ R C, getDependents rows refs calls = some (R, C) ∧
      ∀ n, InRes R C n ↔ Dependent rows refs calls n :=
  depLoop_spec (dependents_queries rows) _ _ _ _ _ _ (fuel_ok rows _ _) (start_inv _ _ _)

theorem getDependencies_spec (rows : List Row) (refs calls : List String) :
    ∃ R C, getDependencies rows refs calls = some (R, C) ∧
      ∀ n, InRes R C n ↔ Dependency rows refs calls n := by
  obtain ⟨R, C, h1, h2⟩ := depLoop_spec (dependencies_queries rows) _ _ _ _ _ _ (fuel_ok rows _ _)
    (start_inv _ refs calls)
  refine ⟨R, C, h1, ?_⟩
  intro n
  rw [h2]
  unfold Dependency
  constructor
  · rintro ⟨s, hs, hst⟩; exact ⟨s, hs, Star.swap_iff.1 hst⟩
  · rintro ⟨s, hs, hst⟩; exact ⟨s, hs, Star.swap_iff.2 hst⟩

end Verif
