import Verif.Model.Args
/-!
Lemmas about binding arguments.
-/
namespace Verif
namespace Args

variable {A : Type}

/-- Remove a list of keys. -/
def minus (kw : Dict String (PV A)) (ns : List String) : Dict String (PV A) := kw.filter fun p => p.1 ∉ ns

theorem get?_minus (kw : Dict String (PV A)) (ns : List String) (k : String) :
    (minus kw ns).get? k = if k ∈ ns then none else kw.get? k := by
  induction kw with
  | nil => simp [minus]
  | cons p kw ih =>
    obtain ⟨a, v⟩ := p
    unfold minus at ih ⊢
    by_cases ha : a ∈ ns
    · rw [List.filter_cons_of_neg (by simp [ha]), ih]
      by_cases hk : k ∈ ns
      · simp [hk]
      · have : a ≠ k := fun h => hk (h ▸ ha)
        simp [hk, Dict.get?_cons, this]
    · rw [List.filter_cons_of_pos (by simp [ha]), Dict.get?_cons, ih, Dict.get?_cons]
      by_cases hak : a = k
      · subst hak; simp [ha]
      · simp [hak]

theorem minus_nil (kw : Dict String (PV A)) : minus kw [] = kw := by
  simp [minus]

theorem minus_erase (kw : Dict String (PV A)) (n : String) (ns : List String) : minus (kw.erase n) ns = minus kw (n :: ns) := by
  unfold minus Dict.erase
  rw [List.filter_filter]
  congr 1
  funext p
  by_cases h1 : p.1 = n <;> by_cases h2 : p.1 ∈ ns <;> simp [h1, h2]

theorem minus_minus (kw : Dict String (PV A)) (ns ms : List String) : minus (minus kw ns) ms = minus kw (ns ++ ms) := by
  unfold minus
  rw [List.filter_filter]
  congr 1
  funext p
  by_cases h1 : p.1 ∈ ns <;> by_cases h2 : p.1 ∈ ms <;> simp [h1, h2]

/-- Pair the names with their values. -/
def tag (V : String → PV A) (ps : List (Param A)) : Dict String (PV A) := ps.map fun p => (p.name, V p.name)

/-- the names -/
def names (ps : List (Param A)) : List String := ps.map (·.name)

theorem mem_names {ps : List (Param A)} {p : Param A} (h : p ∈ ps) : p.name ∈ names ps := List.mem_map_of_mem h

theorem bindPosOnly_all (V : String → PV A) (ps : List (Param A)) (rest : List (PV A)) :
    bindPosOnly ps (ps.map (fun p => V p.name) ++ rest) = .ok (tag V ps, rest) := by
  induction ps with
  | nil => rfl
  | cons p ps ih => simp [bindPosOnly, ih, tag]

theorem bindKwOnly_all (V : String → PV A) (ps : List (Param A)) (kw : Dict String (PV A)) (hn : (names ps).Nodup)
    (h : ∀ p ∈ ps, kw.get? p.name = some (V p.name)) :
    bindKwOnly ps kw = .ok (tag V ps, minus kw (names ps)) := by
  induction ps generalizing kw with
  | nil => simp [bindKwOnly, tag, names, minus_nil]
  | cons p ps ih =>
    have h0 := h p (by simp)
    simp only [names, List.map_cons, List.nodup_cons] at hn
    have := ih (kw.erase p.name) hn.2 (fun q hq => by
      rw [Dict.get?_erase, if_neg, h q (by simp [hq])]
      intro he
      exact hn.1 (he ▸ List.mem_map_of_mem (f := (·.name)) hq))
    simp only [bindKwOnly, h0, this]
    simp [tag, names, minus_erase]

theorem bindPosOrKw_kw (V : String → PV A) (ps : List (Param A)) (kw : Dict String (PV A)) (hn : (names ps).Nodup)
    (h : ∀ p ∈ ps, kw.get? p.name = some (V p.name)) :
    bindPosOrKw ps [] kw = .ok (tag V ps, [], minus kw (names ps)) := by
  induction ps generalizing kw with
  | nil => simp [bindPosOrKw, tag, names, minus_nil]
  | cons p ps ih =>
    have h0 := h p (by simp)
    simp only [names, List.map_cons, List.nodup_cons] at hn
    have := ih (kw.erase p.name) hn.2 (fun q hq => by
      rw [Dict.get?_erase, if_neg, h q (by simp [hq])]
      intro he
      exact hn.1 (he ▸ List.mem_map_of_mem (f := (·.name)) hq))
    simp only [bindPosOrKw, h0, this]
    simp [tag, names, minus_erase]

theorem bindPosOrKw_pos (V : String → PV A) (as ps : List (Param A)) (rest : List (PV A)) (kw : Dict String (PV A))
    (ha : ∀ p ∈ as, kw.get? p.name = none) :
    bindPosOrKw (as ++ ps) (as.map (fun p => V p.name) ++ rest) kw =
      match bindPosOrKw ps rest kw with
      | .error e => .error e
      | .ok (d, r) => .ok (tag V as ++ d, r) := by
  induction as with
  | nil =>
    simp only [List.nil_append, List.map_nil]
    cases bindPosOrKw ps rest kw with
    | error e => rfl
    | ok r => obtain ⟨d, r⟩ := r; simp [tag]
  | cons p as ih =>
    have h0 : kw.has p.name = false := by simp [Dict.has, ha p (by simp)]
    have := ih (fun q hq => ha q (by simp [hq]))
    simp only [List.cons_append, List.map_cons, bindPosOrKw, h0, this]
    cases bindPosOrKw ps rest kw with
    | error e => rfl
    | ok r => obtain ⟨d, r⟩ := r; simp [tag]

/-- The signature python accepts: all parameter names are distinct. -/
def Sig.Wf (sig : Sig A) : Prop := (sig.params.map (·.1)).Nodup

theorem Sig.params_names (sig : Sig A) : sig.params.map (·.1) = names sig.posOnly ++ names sig.posOrKw ++
    sig.varPos.toList.map (·.1) ++ names sig.kwOnly ++ sig.varKw.toList.map (·.1) := by
  simp [Sig.params, names, Function.comp_def]

/-- Passing the first parameters by position and the others by name binds every parameter as wanted. -/
theorem bind_of (sig : Sig A) (hw : sig.Wf) (V : String → PV A) (as bs : List (Param A)) (hs : sig.posOrKw = as ++ bs)
    (extra : List (PV A)) (hx : extra = [] ∨ (sig.varPos.isSome ∧ bs = [])) (kw : Dict String (PV A))
    (ha : ∀ p ∈ as, kw.get? p.name = none) (hb : ∀ p ∈ bs ++ sig.kwOnly, kw.get? p.name = some (V p.name))
    (hkw : sig.varKw = none → ∀ k ∈ kw.keys, k ∈ names (bs ++ sig.kwOnly)) :
    bind sig (sig.posOnly.map (fun p => V p.name) ++ (as.map (fun p => V p.name) ++ extra)) kw =
      .ok (tag V sig.posOnly ++ tag V sig.posOrKw ++ (sig.varPos.toList.map fun q => (q.1, PV.tup extra)) ++ tag V sig.kwOnly ++
        (sig.varKw.toList.map fun q => (q.1, PV.dct (minus kw (names (bs ++ sig.kwOnly)))))) := by
  have hn := hw
  unfold Sig.Wf at hn
  rw [Sig.params_names, hs] at hn
  simp only [names, List.map_append] at hn
  have hbn : (names bs).Nodup := by
    simp only [List.nodup_append] at hn
    exact hn.1.1.1.2.1.2.1
  have hkn : (names sig.kwOnly).Nodup := by
    simp only [List.nodup_append] at hn
    exact hn.1.2.1
  have hdis : ∀ p ∈ bs, ∀ q ∈ sig.kwOnly, p.name ≠ q.name := by
    simp only [List.nodup_append] at hn
    intro p hp q hq
    exact hn.1.2.2 p.name (by
      simp only [List.mem_append, List.mem_map]; exact Or.inl (Or.inr (Or.inr ⟨p, hp, rfl⟩))) q.name (by simp only [List.mem_map]; exact ⟨q, hq, rfl⟩)
  have e1 : bindPosOrKw sig.posOrKw (as.map (fun p => V p.name) ++ extra) kw =
      .ok (tag V sig.posOrKw, extra, minus kw (names bs)) := by
    rw [hs, bindPosOrKw_pos V as bs extra kw ha]
    rcases hx with rfl | ⟨_, rfl⟩
    · rw [bindPosOrKw_kw V bs kw hbn (fun p hp => hb p (by simp [hp]))]
      simp [tag]
    · simp [bindPosOrKw, tag, names, minus_nil]
  have e2 : bindKwOnly sig.kwOnly (minus kw (names bs)) = .ok (tag V sig.kwOnly, minus kw (names (bs ++ sig.kwOnly))) := by
    rw [bindKwOnly_all V sig.kwOnly _ hkn]
    · rw [minus_minus]; simp [names]
    · intro q hq
      rw [get?_minus, if_neg, hb q (by simp [hq])]
      intro hm
      obtain ⟨p, hp, he⟩ := List.mem_map.mp hm
      exact hdis p hp q hq he
  unfold bind
  rw [bindPosOnly_all]
  dsimp only
  rw [e1]
  dsimp only
  have c1 : (sig.varPos.isNone && !extra.isEmpty) = false := by
    rcases hx with rfl | ⟨h, _⟩
    · simp
    · cases hvp : sig.varPos with
      | none => simp [hvp] at h
      | some x => rfl
  rw [c1, e2]
  dsimp only
  have c2 : (sig.varKw.isNone && !(minus kw (names (bs ++ sig.kwOnly))).isEmpty) = false := by
    cases hvk : sig.varKw with
    | some x => rfl
    | none =>
      have : minus kw (names (bs ++ sig.kwOnly)) = [] := by
        unfold minus
        rw [List.filter_eq_nil_iff]
        intro p hp
        have := hkw hvk p.1 (List.mem_map_of_mem (f := (·.1)) hp)
        simp [this]
      rw [this]; rfl
  rw [c2]
  simp

/-! ### What a successful binding looks like -/

theorem minus_cons_of_none (kw : Dict String (PV A)) (n : String) (ns : List String) (h : kw.get? n = none) :
    minus kw (n :: ns) = minus kw ns := by
  unfold minus
  refine List.filter_congr (fun p hp => ?_)
  have : p.1 ≠ n := by
    rintro rfl
    exact Dict.get?_eq_none.mp h (List.mem_map_of_mem (f := (·.1)) hp)
  simp [this]

theorem bindPosOnly_ok {ps : List (Param A)} {pos : List (PV A)} {d : Dict String (PV A)} {r : List (PV A)}
    (h : bindPosOnly ps pos = .ok (d, r)) : d.keys = names ps := by
  induction ps generalizing pos d r with
  | nil => simp only [bindPosOnly, Except.ok.injEq, Prod.mk.injEq] at h; rw [← h.1]; rfl
  | cons p ps ih =>
    have fin : ∀ (v : PV A) (pos' : List (PV A)), (match bindPosOnly ps pos' with
        | .error e => .error e | .ok (d, r) => .ok ((p.name, v) :: d, r) : Except Err _) = .ok (d, r) → d.keys = names (p :: ps) := by
      intro v pos' h
      cases he : bindPosOnly ps pos' with
      | error e => rw [he] at h; simp at h
      | ok x =>
        obtain ⟨d', r'⟩ := x
        rw [he] at h
        simp only [Except.ok.injEq, Prod.mk.injEq] at h
        rw [← h.1, Dict.keys, List.map_cons, names, List.map_cons]
        exact congrArg _ (ih he)
    cases pos with
    | cons v pos => rw [bindPosOnly] at h; exact fin v pos h
    | nil =>
      rw [bindPosOnly] at h
      cases hd : p.default with
      | none => rw [hd] at h; simp at h
      | some v => rw [hd] at h; exact fin v [] h

theorem bindPosOrKw_ok {ps : List (Param A)} {pos : List (PV A)} {kw : Dict String (PV A)} {d : Dict String (PV A)}
    {r : List (PV A)} {kw' : Dict String (PV A)} (h : bindPosOrKw ps pos kw = .ok (d, r, kw')) (hn : (names ps).Nodup) :
    d.keys = names ps ∧ kw' = minus kw (names ps) ∧ (∀ k ∈ names ps, ∀ v, kw.get? k = some v → d.get? k = some v) := by
  induction ps generalizing pos kw d r kw' with
  | nil =>
    simp only [bindPosOrKw, Except.ok.injEq, Prod.mk.injEq] at h
    rw [← h.1, ← h.2.2]
    exact ⟨rfl, (minus_nil kw).symm, by simp [names]⟩
  | cons p ps ih =>
    simp only [names, List.map_cons, List.nodup_cons] at hn
    have fin : ∀ (v : PV A) (pos' : List (PV A)) (kw1 : Dict String (PV A)), minus kw1 (names ps) = minus kw (names (p :: ps)) →
        (∀ k, k ≠ p.name → kw1.get? k = kw.get? k) → (∀ w, kw.get? p.name = some w → w = v) →
        (match bindPosOrKw ps pos' kw1 with
        | .error e => .error e | .ok (d, r) => .ok ((p.name, v) :: d, r) : Except Err _) = .ok (d, r, kw') →
        d.keys = names (p :: ps) ∧ kw' = minus kw (names (p :: ps)) ∧
          (∀ k ∈ names (p :: ps), ∀ v, kw.get? k = some v → d.get? k = some v) := by
      intro v pos' kw1 hm hk hv h
      cases he : bindPosOrKw ps pos' kw1 with
      | error e => rw [he] at h; simp at h
      | ok x =>
        obtain ⟨d', r', kw1'⟩ := x
        rw [he] at h
        simp only [Except.ok.injEq, Prod.mk.injEq] at h
        obtain ⟨i1, i2, i3⟩ := ih he hn.2
        refine ⟨?_, ?_, ?_⟩
        · rw [← h.1, Dict.keys, List.map_cons, names, List.map_cons]
          exact congrArg _ i1
        · rw [← h.2.2, i2, hm]
        · intro k hkm w hw
          rw [← h.1, Dict.get?_cons]
          by_cases hkp : p.name = k
          · subst hkp; rw [if_pos rfl, hv w hw]
          · rw [if_neg hkp]
            simp only [names, List.map_cons, List.mem_cons] at hkm
            rcases hkm with rfl | hkm
            · exact absurd rfl hkp
            · exact i3 k hkm w (by rw [hk k (Ne.symm hkp)]; exact hw)
    cases pos with
    | cons v pos =>
      rw [bindPosOrKw] at h
      by_cases hh : kw.has p.name
      · rw [if_pos hh] at h; simp at h
      · rw [if_neg hh] at h
        have hnone : kw.get? p.name = none := by
          simpa [Dict.has] using hh
        exact fin v pos kw (minus_cons_of_none kw p.name _ hnone).symm (fun _ _ => rfl) (by simp [hnone]) h
    | nil =>
      rw [bindPosOrKw] at h
      cases hg : kw.get? p.name with
      | some v =>
        rw [hg] at h
        exact fin v [] _ (minus_erase kw p.name _) (fun k hk => by rw [Dict.get?_erase, if_neg (Ne.symm hk)]) (by simp [hg]) h
      | none =>
        rw [hg] at h
        cases hd : p.default with
        | none => rw [hd] at h; simp at h
        | some v => rw [hd] at h; exact fin v [] kw (minus_cons_of_none kw p.name _ hg).symm (fun _ _ => rfl) (by simp [hg]) h

theorem bindKwOnly_ok {ps : List (Param A)} {kw : Dict String (PV A)} {d : Dict String (PV A)} {kw' : Dict String (PV A)}
    (h : bindKwOnly ps kw = .ok (d, kw')) (hn : (names ps).Nodup) :
    d.keys = names ps ∧ kw' = minus kw (names ps) ∧ (∀ k ∈ names ps, ∀ v, kw.get? k = some v → d.get? k = some v) := by
  induction ps generalizing kw d kw' with
  | nil =>
    simp only [bindKwOnly, Except.ok.injEq, Prod.mk.injEq] at h
    rw [← h.1, ← h.2]
    exact ⟨rfl, (minus_nil kw).symm, by simp [names]⟩
  | cons p ps ih =>
    simp only [names, List.map_cons, List.nodup_cons] at hn
    have fin : ∀ (v : PV A) (kw1 : Dict String (PV A)), minus kw1 (names ps) = minus kw (names (p :: ps)) →
        (∀ k, k ≠ p.name → kw1.get? k = kw.get? k) → (∀ w, kw.get? p.name = some w → w = v) →
        (match bindKwOnly ps kw1 with
        | .error e => .error e | .ok (d, r) => .ok ((p.name, v) :: d, r) : Except Err _) = .ok (d, kw') →
        d.keys = names (p :: ps) ∧ kw' = minus kw (names (p :: ps)) ∧
          (∀ k ∈ names (p :: ps), ∀ v, kw.get? k = some v → d.get? k = some v) := by
      intro v kw1 hm hk hv h
      cases he : bindKwOnly ps kw1 with
      | error e => rw [he] at h; simp at h
      | ok x =>
        obtain ⟨d', kw1'⟩ := x
        rw [he] at h
        simp only [Except.ok.injEq, Prod.mk.injEq] at h
        obtain ⟨i1, i2, i3⟩ := ih he hn.2
        refine ⟨?_, ?_, ?_⟩
        · rw [← h.1, Dict.keys, List.map_cons, names, List.map_cons]
          exact congrArg _ i1
        · rw [← h.2, i2, hm]
        · intro k hkm w hw
          rw [← h.1, Dict.get?_cons]
          by_cases hkp : p.name = k
          · subst hkp; rw [if_pos rfl, hv w hw]
          · rw [if_neg hkp]
            simp only [names, List.map_cons, List.mem_cons] at hkm
            rcases hkm with rfl | hkm
            · exact absurd rfl hkp
            · exact i3 k hkm w (by rw [hk k (Ne.symm hkp)]; exact hw)
    rw [bindKwOnly] at h
    cases hg : kw.get? p.name with
    | some v =>
      rw [hg] at h
      exact fin v _ (minus_erase kw p.name _) (fun k hk => by rw [Dict.get?_erase, if_neg (Ne.symm hk)]) (by simp [hg]) h
    | none =>
      rw [hg] at h
      cases hd : p.default with
      | none => rw [hd] at h; simp at h
      | some v => rw [hd] at h; exact fin v kw (minus_cons_of_none kw p.name _ hg).symm (fun _ _ => rfl) (by simp [hg]) h

theorem tag_of {d : Dict String (PV A)} {ps : List (Param A)} {V : String → PV A} (hk : d.keys = names ps)
    (h : ∀ p ∈ d, p.2 = V p.1) : d = tag V ps := by
  induction ps generalizing d with
  | nil => cases d with
    | nil => rfl
    | cons q d => simp [Dict.keys, names] at hk
  | cons p ps ih => cases d with
    | nil => simp [Dict.keys, names] at hk
    | cons q d =>
      simp only [Dict.keys, names, List.map_cons, List.cons.injEq] at hk
      simp only [tag, List.map_cons, List.cons.injEq]
      refine ⟨?_, ih hk.2 (fun r hr => h r (by simp [hr]))⟩
      rw [← hk.1, ← h q (by simp)]

/-- The bound arguments of a signature, given the value of every parameter. -/
def boundOf (sig : Sig A) (V : String → PV A) (vs : List (PV A)) (D : Dict String (PV A)) : Dict String (PV A) :=
  tag V sig.posOnly ++ tag V sig.posOrKw ++ (sig.varPos.toList.map fun q => (q.1, PV.tup vs)) ++ tag V sig.kwOnly ++
    (sig.varKw.toList.map fun q => (q.1, PV.dct D))

theorem keys_tag (V : String → PV A) (ps : List (Param A)) : (tag V ps).keys = names ps := by
  simp [tag, Dict.keys, names, Function.comp_def]

theorem keys_boundOf (sig : Sig A) (V : String → PV A) (vs : List (PV A)) (D : Dict String (PV A)) :
    (boundOf sig V vs D).keys = sig.params.map (·.1) := by
  have h := keys_tag V
  simp only [Dict.keys] at h
  simp [boundOf, Dict.keys, Sig.params_names, h, Function.comp_def]

theorem keys_append (d e : Dict String (PV A)) : Dict.keys (d ++ e) = d.keys ++ e.keys := by simp [Dict.keys]

/-- What a successful binding looks like. -/
theorem bind_ok {sig : Sig A} (hw : sig.Wf) {pos : List (PV A)} {kw b : Dict String (PV A)} (h : bind sig pos kw = .ok b) :
    ∃ V vs D, b = boundOf sig V vs D ∧ D = minus kw (names (sig.posOrKw ++ sig.kwOnly)) ∧ (sig.varPos = none → vs = []) ∧
      (sig.varKw = none → D = []) ∧
      (∀ k ∈ names (sig.posOrKw ++ sig.kwOnly), ∀ v, kw.get? k = some v → V k = v) := by
  unfold bind at h
  cases h1 : bindPosOnly sig.posOnly pos with
  | error e => rw [h1] at h; simp at h
  | ok x1 =>
    obtain ⟨d1, pos1⟩ := x1
    rw [h1] at h
    dsimp only at h
    cases h2 : bindPosOrKw sig.posOrKw pos1 kw with
    | error e => rw [h2] at h; simp at h
    | ok x2 =>
      obtain ⟨d2, pos2, kw2⟩ := x2
      rw [h2] at h
      dsimp only at h
      by_cases c1 : (sig.varPos.isNone && !pos2.isEmpty) = true
      · rw [if_pos c1] at h; simp at h
      · rw [if_neg c1] at h
        cases h4 : bindKwOnly sig.kwOnly kw2 with
        | error e => rw [h4] at h; simp at h
        | ok x4 =>
          obtain ⟨d4, kw4⟩ := x4
          rw [h4] at h
          dsimp only at h
          by_cases c2 : (sig.varKw.isNone && !kw4.isEmpty) = true
          · rw [if_pos c2] at h; simp at h
          · rw [if_neg c2] at h
            simp only [Except.ok.injEq] at h
            have hn := hw
            unfold Sig.Wf at hn
            rw [Sig.params_names] at hn
            have hn2 : (names sig.posOrKw).Nodup := by
              simp only [List.nodup_append] at hn; exact hn.1.1.1.2.1
            have hn4 : (names sig.kwOnly).Nodup := by
              simp only [List.nodup_append] at hn; exact hn.1.2.1
            have hdis : ∀ k ∈ names sig.posOrKw, k ∉ names sig.kwOnly := by
              simp only [List.nodup_append] at hn
              intro k hk hk'
              exact hn.1.2.2 k (by simp [hk]) k hk' rfl
            have k1 := bindPosOnly_ok h1
            obtain ⟨k2, m2, v2⟩ := bindPosOrKw_ok h2 hn2
            obtain ⟨k4, m4, v4⟩ := bindKwOnly_ok h4 hn4
            have hbk : b.keys = sig.params.map (·.1) := by
              rw [← h, Sig.params_names]
              simp only [keys_append, k1, k2, k4]
              simp [Dict.keys, Function.comp_def]
            have hbn : b.keys.Nodup := by rw [hbk]; exact hw
            have hV : ∀ p ∈ b, p.2 = (fun n => (b.get? n).getD (.tup [])) p.1 := by
              intro p hp
              have : b.get? p.1 = some p.2 := (Dict.get?_eq_some_iff hbn).mpr hp
              simp [this]
            refine ⟨fun n => (b.get? n).getD (.tup []), pos2, kw4, ?_, ?_, ?_, ?_, ?_⟩
            · unfold boundOf
              rw [← tag_of k1 (fun p hp => hV p (by rw [← h]; simp [hp])), ← tag_of k2 (fun p hp => hV p (by rw [← h]; simp [hp])),
                ← tag_of k4 (fun p hp => hV p (by rw [← h]; simp [hp]))]
              exact h.symm
            · rw [m4, m2, minus_minus]; simp [names]
            · intro hvp
              rw [hvp] at c1
              simpa using c1
            · intro hvk
              rw [hvk] at c2
              simpa using c2
            · intro k hk v hkv
              have hg : b.get? k = some v := by
                rw [Dict.get?_eq_some_iff hbn, ← h]
                simp only [names, List.map_append, List.mem_append] at hk
                rcases hk with hk | hk
                · have := Dict.mem_of_get? (v2 k hk v hkv)
                  simp [this]
                · have := Dict.mem_of_get? (v4 k hk v (by
                    rw [m2, get?_minus, if_neg, hkv]
                    exact fun hh => hdis k hh hk))
                  simp [this]
              simp [hg]

theorem get?_tag (V : String → PV A) (ps : List (Param A)) (k : String) :
    (tag V ps).get? k = if k ∈ names ps then some (V k) else none := by
  induction ps with
  | nil => simp [tag, names]
  | cons p ps ih =>
    have : tag V (p :: ps) = (p.name, V p.name) :: tag V ps := rfl
    rw [this, Dict.get?_cons, ih]
    by_cases h : p.name = k
    · subst h; simp [names]
    · simp [h, names, Ne.symm h]

theorem get?_boundOf_plain {sig : Sig A} (hw : sig.Wf) (V : String → PV A) (vs : List (PV A)) (D : Dict String (PV A)) {k : String}
    (hk : k ∈ names sig.plain) : (boundOf sig V vs D).get? k = some (V k) := by
  have hbn : (boundOf sig V vs D).keys.Nodup := by rw [keys_boundOf]; exact hw
  rw [Dict.get?_eq_some_iff hbn]
  simp only [names, Sig.plain, List.map_append, List.mem_append, List.mem_map] at hk
  simp only [boundOf, tag, List.mem_append, List.mem_map]
  rcases hk with (⟨p, hp, rfl⟩ | ⟨p, hp, rfl⟩) | ⟨p, hp, rfl⟩
  · exact Or.inl (Or.inl (Or.inl (Or.inl ⟨p, hp, rfl⟩)))
  · exact Or.inl (Or.inl (Or.inl (Or.inr ⟨p, hp, rfl⟩)))
  · exact Or.inl (Or.inr ⟨p, hp, rfl⟩)

theorem get?_boundOf_varPos {sig : Sig A} (hw : sig.Wf) (V : String → PV A) (vs : List (PV A)) (D : Dict String (PV A))
    {q : String × Ty} (hq : sig.varPos = some q) : (boundOf sig V vs D).get? q.1 = some (.tup vs) := by
  have hbn : (boundOf sig V vs D).keys.Nodup := by rw [keys_boundOf]; exact hw
  rw [Dict.get?_eq_some_iff hbn]
  simp [boundOf, hq]

theorem get?_boundOf_varKw {sig : Sig A} (hw : sig.Wf) (V : String → PV A) (vs : List (PV A)) (D : Dict String (PV A))
    {q : String × Ty} (hq : sig.varKw = some q) : (boundOf sig V vs D).get? q.1 = some (.dct D) := by
  have hbn : (boundOf sig V vs D).keys.Nodup := by rw [keys_boundOf]; exact hw
  rw [Dict.get?_eq_some_iff hbn]
  simp [boundOf, hq]

theorem get?_boundOf_none {sig : Sig A} (V : String → PV A) (vs : List (PV A)) (D : Dict String (PV A)) {k : String}
    (hk : k ∉ sig.params.map (·.1)) : (boundOf sig V vs D).get? k = none := by
  rw [Dict.get?_eq_none, keys_boundOf]; exact hk

end Args
end Verif
