import Verif.Spec.Args
import Verif.Proofs.ArgsVisible
/-!
Adding a parameter with a default.
-/
namespace Verif
namespace Args

variable {A : Type}

theorem erase_of_none {kw : Dict String (PV A)} {n : String} (h : kw.get? n = none) : kw.erase n = kw := by
  unfold Dict.erase
  rw [List.filter_eq_self]
  intro p hp
  have : p.1 ≠ n := by
    rintro rfl
    exact Dict.get?_eq_none.mp h (List.mem_map_of_mem (f := (·.1)) hp)
  simpa using this

theorem erase_comm (kw : Dict String (PV A)) (m n : String) : (kw.erase m).erase n = (kw.erase n).erase m := by
  unfold Dict.erase
  rw [List.filter_filter, List.filter_filter]
  congr 1
  funext p
  rw [Bool.and_comm]

theorem Extends.cons {b b' : Dict String (PV A)} {n : String} {v : PV A} (h : Extends b b' n v) {m : String} (hm : m ≠ n) (w : PV A) :
    Extends ((m, w) :: b) ((m, w) :: b') n v := by
  refine ⟨fun k hk => ?_, ?_⟩
  · rw [Dict.get?_cons, Dict.get?_cons, h.1 k hk]
  · rw [Dict.get?_cons, if_neg hm, h.2]

theorem bindKwOnly_add {q : Param A} {dv : PV A} (hd : q.default = some dv) (as bs : List (Param A)) (hq : q.name ∉ names as)
    {kw d r : Dict String (PV A)} (h : bindKwOnly (as ++ bs) (kw.erase q.name) = .ok (d, r)) :
    ∃ d', bindKwOnly (as ++ q :: bs) kw = .ok (d', r) ∧ Extends d d' q.name ((kw.get? q.name).getD dv) := by
  induction as generalizing kw d with
  | nil =>
    simp only [List.nil_append] at h ⊢
    cases hg : kw.get? q.name with
    | some v =>
      refine ⟨(q.name, v) :: d, ?_, fun k hk => ?_, ?_⟩
      · rw [bindKwOnly, hg]; dsimp only; rw [h]
      · rw [Dict.get?_cons, if_neg (Ne.symm hk)]
      · simp [Dict.get?_cons]
    | none =>
      rw [erase_of_none hg] at h
      refine ⟨(q.name, dv) :: d, ?_, fun k hk => ?_, ?_⟩
      · rw [bindKwOnly, hg]; dsimp only; rw [hd]; dsimp only; rw [h]
      · rw [Dict.get?_cons, if_neg (Ne.symm hk)]
      · simp [Dict.get?_cons]
  | cons p as ih =>
    simp only [names, List.map_cons, List.mem_cons, not_or] at hq
    have hne : p.name ≠ q.name := Ne.symm hq.1
    rw [List.cons_append, bindKwOnly, Dict.get?_erase, if_neg hq.1] at h
    rw [List.cons_append, bindKwOnly]
    have key : ∀ (w : PV A) (kw1 : Dict String (PV A)), kw1.get? q.name = kw.get? q.name →
        (match bindKwOnly (as ++ bs) (kw1.erase q.name) with
          | .error e => .error e | .ok (d, r) => .ok ((p.name, w) :: d, r) : Except Err _) = .ok (d, r) →
        ∃ d', (match bindKwOnly (as ++ q :: bs) kw1 with
          | .error e => .error e | .ok (d, r) => .ok ((p.name, w) :: d, r) : Except Err _) = .ok (d', r) ∧
          Extends d d' q.name ((kw.get? q.name).getD dv) := by
      intro w kw1 hk h
      cases he : bindKwOnly (as ++ bs) (kw1.erase q.name) with
      | error e => rw [he] at h; simp at h
      | ok x =>
        obtain ⟨d0, r0⟩ := x
        rw [he] at h
        simp only [Except.ok.injEq, Prod.mk.injEq] at h
        obtain ⟨rfl, rfl⟩ := h
        obtain ⟨d', h1, h2⟩ := ih hq.2 he
        refine ⟨(p.name, w) :: d', by rw [h1], ?_⟩
        rw [hk] at h2
        exact h2.cons hne w
    cases hg : kw.get? p.name with
    | some w =>
      rw [hg] at h
      dsimp only at h ⊢
      rw [erase_comm] at h
      exact key w _ (by rw [Dict.get?_erase, if_neg hne]) h
    | none =>
      rw [hg] at h
      dsimp only at h ⊢
      cases hpd : p.default with
      | none => rw [hpd] at h; simp at h
      | some w => rw [hpd] at h; exact key w kw rfl h

theorem bindPosOrKw_add {q : Param A} {dv : PV A} (hd : q.default = some dv) (ps : List (Param A)) (hq : q.name ∉ names ps)
    {pos : List (PV A)} {kw d r : Dict String (PV A)} (h : bindPosOrKw ps pos (kw.erase q.name) = .ok (d, [], r)) :
    ∃ d', bindPosOrKw (ps ++ [q]) pos kw = .ok (d', [], r) ∧ Extends d d' q.name ((kw.get? q.name).getD dv) := by
  induction ps generalizing pos kw d with
  | nil =>
    simp only [bindPosOrKw, Except.ok.injEq, Prod.mk.injEq] at h
    obtain ⟨rfl, rfl, rfl⟩ := h
    simp only [List.nil_append]
    cases hg : kw.get? q.name with
    | some v =>
      refine ⟨[(q.name, v)], ?_, fun k hk => ?_, ?_⟩
      · rw [bindPosOrKw, hg]; rfl
      · rw [Dict.get?_cons, if_neg (Ne.symm hk)]
      · simp [Dict.get?_cons]
    | none =>
      rw [erase_of_none hg]
      refine ⟨[(q.name, dv)], ?_, fun k hk => ?_, ?_⟩
      · rw [bindPosOrKw, hg]; dsimp only; rw [hd]; rfl
      · rw [Dict.get?_cons, if_neg (Ne.symm hk)]
      · simp [Dict.get?_cons]
  | cons p ps ih =>
    simp only [names, List.map_cons, List.mem_cons, not_or] at hq
    have hne : p.name ≠ q.name := Ne.symm hq.1
    have key : ∀ (w : PV A) (pos1 : List (PV A)) (kw1 : Dict String (PV A)), kw1.get? q.name = kw.get? q.name →
        (match bindPosOrKw ps pos1 (kw1.erase q.name) with
          | .error e => .error e | .ok (d, r) => .ok ((p.name, w) :: d, r) : Except Err _) = .ok (d, [], r) →
        ∃ d', (match bindPosOrKw (ps ++ [q]) pos1 kw1 with
          | .error e => .error e | .ok (d, r) => .ok ((p.name, w) :: d, r) : Except Err _) = .ok (d', [], r) ∧
          Extends d d' q.name ((kw.get? q.name).getD dv) := by
      intro w pos1 kw1 hk h
      cases he : bindPosOrKw ps pos1 (kw1.erase q.name) with
      | error e => rw [he] at h; simp at h
      | ok x =>
        obtain ⟨d0, p0, r0⟩ := x
        rw [he] at h
        simp only [Except.ok.injEq, Prod.mk.injEq] at h
        obtain ⟨rfl, rfl, rfl⟩ := h
        obtain ⟨d', h1, h2⟩ := ih hq.2 he
        refine ⟨(p.name, w) :: d', by rw [h1], ?_⟩
        rw [hk] at h2
        exact h2.cons hne w
    rw [List.cons_append]
    cases pos with
    | cons v pos =>
      rw [bindPosOrKw] at h ⊢
      have hh : (kw.erase q.name).has p.name = kw.has p.name := by
        unfold Dict.has; rw [Dict.get?_erase, if_neg hq.1]
      rw [hh] at h
      by_cases hp : kw.has p.name
      · rw [if_pos hp] at h; simp at h
      · rw [if_neg hp] at h ⊢
        exact key v pos kw rfl h
    | nil =>
      rw [bindPosOrKw, Dict.get?_erase, if_neg hq.1] at h
      rw [bindPosOrKw]
      cases hg : kw.get? p.name with
      | some w =>
        rw [hg] at h
        dsimp only at h ⊢
        rw [erase_comm] at h
        exact key w [] _ (by rw [Dict.get?_erase, if_neg hne]) h
      | none =>
        rw [hg] at h
        dsimp only at h ⊢
        cases hpd : p.default with
        | none => rw [hpd] at h; simp at h
        | some w => rw [hpd] at h; exact key w [] kw rfl h

theorem bindPosOnly_rest {ps : List (Param A)} {pos : List (PV A)} {d : Dict String (PV A)} {r : List (PV A)}
    (h : bindPosOnly ps pos = .ok (d, r)) : r.length = pos.length - ps.length := by
  induction ps generalizing pos d r with
  | nil => simp only [bindPosOnly, Except.ok.injEq, Prod.mk.injEq] at h; simp [h.2]
  | cons p ps ih =>
    have key : ∀ (v : PV A) (pos' : List (PV A)), (match bindPosOnly ps pos' with
        | .error e => .error e | .ok (d, r) => .ok ((p.name, v) :: d, r) : Except Err _) = .ok (d, r) → r.length = pos'.length - ps.length := by
      intro v pos' h
      cases he : bindPosOnly ps pos' with
      | error e => rw [he] at h; simp at h
      | ok x =>
        obtain ⟨d0, r0⟩ := x
        rw [he] at h
        simp only [Except.ok.injEq, Prod.mk.injEq] at h
        rw [← h.2]; exact ih he
    cases pos with
    | cons v pos => rw [bindPosOnly] at h; have := key v pos h; simp only [List.length_cons]; omega
    | nil =>
      rw [bindPosOnly] at h
      cases hd : p.default with
      | none => rw [hd] at h; simp at h
      | some v => rw [hd] at h; have := key v [] h; simp at this; simp [this]

theorem bindPosOrKw_rest {ps : List (Param A)} {pos : List (PV A)} {kw d : Dict String (PV A)} {r : List (PV A)}
    {kw' : Dict String (PV A)} (h : bindPosOrKw ps pos kw = .ok (d, r, kw')) : r.length = pos.length - ps.length := by
  induction ps generalizing pos kw d r kw' with
  | nil => simp only [bindPosOrKw, Except.ok.injEq, Prod.mk.injEq] at h; simp [h.2.1]
  | cons p ps ih =>
    have key : ∀ (v : PV A) (pos' : List (PV A)) (kw1 : Dict String (PV A)), (match bindPosOrKw ps pos' kw1 with
        | .error e => .error e | .ok (d, r) => .ok ((p.name, v) :: d, r) : Except Err _) = .ok (d, r, kw') → r.length = pos'.length - ps.length := by
      intro v pos' kw1 h
      cases he : bindPosOrKw ps pos' kw1 with
      | error e => rw [he] at h; simp at h
      | ok x =>
        obtain ⟨d0, r0, k0⟩ := x
        rw [he] at h
        simp only [Except.ok.injEq, Prod.mk.injEq] at h
        rw [← h.2.1]; exact ih he
    cases pos with
    | cons v pos =>
      rw [bindPosOrKw] at h
      by_cases hp : kw.has p.name
      · rw [if_pos hp] at h; simp at h
      · rw [if_neg hp] at h; have := key v pos kw h; simp only [List.length_cons]; omega
    | nil =>
      rw [bindPosOrKw] at h
      cases hg : kw.get? p.name with
      | some w => rw [hg] at h; have := key w [] _ h; simp at this; simp [this]
      | none =>
        rw [hg] at h
        dsimp only at h
        cases hd : p.default with
        | none => rw [hd] at h; simp at h
        | some v => rw [hd] at h; have := key v [] kw h; simp at this; simp [this]

theorem Extends.app {b b' : Dict String (PV A)} {n : String} {v : PV A} (h : Extends b b' n v) (c e : Dict String (PV A)) (hc : n ∉ c.keys) :
    Extends (c ++ b ++ e) (c ++ b' ++ e) n v := by
  refine ⟨fun k hk => ?_, ?_⟩
  · rw [Dict.get?_append, Dict.get?_append, Dict.get?_append, Dict.get?_append, h.1 k hk]
  · rw [Dict.get?_append, Dict.get?_append, h.2, Dict.get?_eq_none.mpr hc]; rfl

/-- The names of the old parameters. -/
theorem AddsParam.names {q : Param A} {sig sig' : Sig A} (h : AddsParam q sig sig') (hw : sig'.Wf) :
    sig.Wf ∧ q.name ∉ sig.params.map (·.1) ∧ sig'.varPos = sig.varPos ∧ sig'.varKw = sig.varKw := by
  unfold Sig.Wf at hw ⊢
  rcases h with ⟨as, bs, hk, rfl⟩ | rfl
  · rw [Sig.params_names] at hw ⊢
    rw [hk]
    simp only [Args.names, List.map_append, List.map_cons] at hw ⊢
    simp only [← List.append_assoc] at hw ⊢
    have e : ∀ (x : List String) (n : String) (b c : List String), x ++ n :: b ++ c = x ++ n :: (b ++ c) := by intros; simp
    rw [e] at hw
    rw [List.append_assoc _ (List.map _ bs)]
    rw [List.nodup_append] at hw
    obtain ⟨h1, h2, h3⟩ := hw
    rw [List.nodup_cons] at h2
    refine ⟨?_, ?_, trivial, trivial⟩
    · rw [List.nodup_append]
      exact ⟨h1, h2.2, fun a ha b hb => h3 a ha b (List.mem_cons_of_mem _ hb)⟩
    · rw [List.mem_append, not_or]
      exact ⟨fun ha => h3 _ ha _ List.mem_cons_self rfl, h2.1⟩
  · rw [Sig.params_names] at hw ⊢
    simp only [Args.names, List.map_append, List.map_cons, List.map_nil] at hw ⊢
    have e : ∀ (a b : List String) (n : String) (c d e : List String), a ++ (b ++ [n]) ++ c ++ d ++ e = (a ++ b) ++ n :: (c ++ d ++ e) := by
      intros; simp
    rw [e] at hw
    have e' : ∀ (a b c d e : List String), a ++ b ++ c ++ d ++ e = (a ++ b) ++ (c ++ d ++ e) := by intros; simp
    rw [e']
    rw [List.nodup_append] at hw
    obtain ⟨h1, h2, h3⟩ := hw
    rw [List.nodup_cons] at h2
    refine ⟨?_, ?_, trivial, trivial⟩
    · rw [List.nodup_append]
      exact ⟨h1, h2.2, fun a ha b hb => h3 a ha b (List.mem_cons_of_mem _ hb)⟩
    · rw [List.mem_append, not_or]
      exact ⟨fun ha => h3 _ ha _ List.mem_cons_self rfl, h2.1⟩

/-- A call without the new parameter binds the new signature the same way, with the default for the new parameter; with the
new parameter as a keyword argument likewise. -/
theorem bind_add {q : Param A} {dv : PV A} (hd : q.default = some dv) {sig sig' : Sig A} (hs : AddsParam q sig sig') (hw : sig'.Wf)
    {pos : List (PV A)} (hl : pos.length ≤ sig.posOnly.length + sig.posOrKw.length) {kw b : Dict String (PV A)}
    (h : bind sig pos (kw.erase q.name) = .ok b) :
    ∃ b', bind sig' pos kw = .ok b' ∧ Extends b b' q.name ((kw.get? q.name).getD dv) := by
  obtain ⟨hw0, hq, _, _⟩ := hs.names hw
  rw [Sig.params_names] at hq
  simp only [List.mem_append, not_or] at hq
  obtain ⟨⟨⟨⟨q1, q2⟩, q3⟩, q4⟩, q5⟩ := hq
  unfold bind at h
  cases h1 : bindPosOnly sig.posOnly pos with
  | error e => rw [h1] at h; simp at h
  | ok x1 =>
    obtain ⟨d1, pos1⟩ := x1
    rw [h1] at h
    dsimp only at h
    have k1 := bindPosOnly_ok h1
    have l1 := bindPosOnly_rest h1
    cases h2 : bindPosOrKw sig.posOrKw pos1 (kw.erase q.name) with
    | error e => rw [h2] at h; simp at h
    | ok x2 =>
      obtain ⟨d2, pos2, kw2⟩ := x2
      rw [h2] at h
      dsimp only at h
      have l2 := bindPosOrKw_rest h2
      obtain rfl : pos2 = [] := List.length_eq_zero_iff.mp (by omega)
      have hn2 : (names sig.posOrKw).Nodup := by
        unfold Sig.Wf at hw0; rw [Sig.params_names] at hw0
        simp only [List.nodup_append] at hw0; exact hw0.1.1.1.2.1
      have k2 := (bindPosOrKw_ok h2 hn2).1
      have m2 := (bindPosOrKw_ok h2 hn2).2.1
      rw [if_neg (by simp)] at h
      cases h4 : bindKwOnly sig.kwOnly kw2 with
      | error e => rw [h4] at h; simp at h
      | ok x4 =>
        obtain ⟨d4, kw4⟩ := x4
        rw [h4] at h
        dsimp only at h
        by_cases c2 : (sig.varKw.isNone && !kw4.isEmpty) = true
        · rw [if_pos c2] at h; simp at h
        · rw [if_neg c2] at h
          simp only [Except.ok.injEq] at h
          rcases hs with ⟨as, bs, hk, rfl⟩ | rfl
          · have hqa : q.name ∉ names as := fun hm => q4 (by rw [hk]; simp [names] at hm ⊢; exact Or.inl hm)
            -- the ordinary parameters do not touch the new keyword
            have h2' : bindPosOrKw sig.posOrKw pos1 kw = .ok (d2, [], minus kw (names sig.posOrKw)) := by
              have key : ∀ (ps : List (Param A)) (pos : List (PV A)) (kw d r : Dict String (PV A)), q.name ∉ names ps →
                  bindPosOrKw ps pos (kw.erase q.name) = .ok (d, [], r) → bindPosOrKw ps pos kw = .ok (d, [], minus kw (names ps)) := by
                intro ps
                induction ps with
                | nil =>
                  intro pos kw d r _ h
                  simp only [bindPosOrKw, Except.ok.injEq, Prod.mk.injEq] at h ⊢
                  exact ⟨h.1, h.2.1, (minus_nil kw).symm⟩
                | cons p ps ih =>
                  intro pos kw d r hq h
                  simp only [names, List.map_cons, List.mem_cons, not_or] at hq
                  have aux : ∀ (w : PV A) (pos1 : List (PV A)) (kw1 : Dict String (PV A)), minus kw1 (names ps) = minus kw (names (p :: ps)) →
                      (match bindPosOrKw ps pos1 (kw1.erase q.name) with
                        | .error e => .error e | .ok (d, r) => .ok ((p.name, w) :: d, r) : Except Err _) = .ok (d, [], r) →
                      (match bindPosOrKw ps pos1 kw1 with
                        | .error e => .error e | .ok (d, r) => .ok ((p.name, w) :: d, r) : Except Err _) =
                        .ok (d, [], minus kw (names (p :: ps))) := by
                    intro w pos1 kw1 hm h
                    cases he : bindPosOrKw ps pos1 (kw1.erase q.name) with
                    | error e => rw [he] at h; simp at h
                    | ok x =>
                      obtain ⟨d0, p0, r0⟩ := x
                      rw [he] at h
                      simp only [Except.ok.injEq, Prod.mk.injEq] at h
                      obtain ⟨rfl, rfl, rfl⟩ := h
                      rw [ih _ _ _ _ hq.2 he, hm]
                  cases pos with
                  | cons v pos =>
                    rw [bindPosOrKw] at h ⊢
                    have hh : (kw.erase q.name).has p.name = kw.has p.name := by
                      unfold Dict.has; rw [Dict.get?_erase, if_neg hq.1]
                    rw [hh] at h
                    by_cases hp : kw.has p.name
                    · rw [if_pos hp] at h; simp at h
                    · rw [if_neg hp] at h ⊢
                      exact aux v pos kw (minus_cons_of_none kw _ _ (by simpa [Dict.has] using hp)).symm h
                  | nil =>
                    rw [bindPosOrKw, Dict.get?_erase, if_neg hq.1] at h
                    rw [bindPosOrKw]
                    cases hg : kw.get? p.name with
                    | some w =>
                      rw [hg] at h
                      dsimp only at h ⊢
                      rw [erase_comm] at h
                      exact aux w [] _ (minus_erase _ _ _) h
                    | none =>
                      rw [hg] at h
                      dsimp only at h ⊢
                      cases hpd : p.default with
                      | none => rw [hpd] at h; simp at h
                      | some w => rw [hpd] at h; exact aux w [] kw (minus_cons_of_none kw _ _ hg).symm h
              exact key _ _ _ _ _ q2 h2
            have hkw2 : kw2 = (minus kw (names sig.posOrKw)).erase q.name := by
              rw [m2]
              unfold minus Dict.erase
              rw [List.filter_filter, List.filter_filter]
              congr 1; funext p; rw [Bool.and_comm]
            rw [hkw2, hk] at h4
            obtain ⟨d4', e4, x4⟩ := bindKwOnly_add hd as bs hqa h4
            rw [get?_minus, if_neg q2] at x4
            refine ⟨d1 ++ d2 ++ (sig.varPos.toList.map fun q => (q.1, PV.tup [])) ++ d4' ++
              (sig.varKw.toList.map fun q => (q.1, PV.dct kw4)), ?_, ?_⟩
            · unfold bind
              dsimp only
              rw [h1]; dsimp only
              rw [h2']; dsimp only
              rw [if_neg (by simp), e4]; dsimp only
              rw [if_neg c2]
            · rw [← h]
              refine x4.app _ _ ?_
              rw [keys_append, keys_append, k1, k2]
              simp only [List.mem_append, not_or]
              refine ⟨⟨q1, q2⟩, ?_⟩
              simpa [Dict.keys, Function.comp_def] using q3
          · obtain ⟨d2', e2, x2⟩ := bindPosOrKw_add hd _ q2 h2
            refine ⟨d1 ++ d2' ++ (sig.varPos.toList.map fun q => (q.1, PV.tup [])) ++ d4 ++
              (sig.varKw.toList.map fun q => (q.1, PV.dct kw4)), ?_, ?_⟩
            · unfold bind
              dsimp only
              rw [h1]; dsimp only
              rw [e2]; dsimp only
              rw [if_neg (by simp), h4]; dsimp only
              rw [if_neg c2]
            · rw [← h]
              have := x2.app d1 ((sig.varPos.toList.map fun q => (q.1, PV.tup [])) ++ d4 ++
                (sig.varKw.toList.map fun q => (q.1, PV.dct kw4))) (by rw [k1]; exact q1)
              simpa only [List.append_assoc] using this

/-- Adding a parameter does not change what the storage knows of the others. -/
theorem AddsParam.find {q : Param A} {sig sig' : Sig A} (h : AddsParam q sig sig') {k : String} (hk : k ≠ q.name) :
    sig'.plain.find? (fun p => p.name = k) = sig.plain.find? (fun p => p.name = k) := by
  rcases h with ⟨as, bs, hks, rfl⟩ | rfl
  · simp [Sig.plain, hks, List.find?_append, Ne.symm hk]
  · simp [Sig.plain, List.find?_append, Ne.symm hk]

theorem AddsParam.find_self {q : Param A} {sig sig' : Sig A} (h : AddsParam q sig sig') (hq : q.name ∉ Args.names sig.plain) :
    sig'.plain.find? (fun p => p.name = q.name) = some q := by
  have hn : ∀ l : List (Param A), (∀ p ∈ l, p ∈ sig.plain) → l.find? (fun p => p.name = q.name) = none := by
    intro l hl
    rw [List.find?_eq_none]
    intro p hp
    simp only [decide_eq_true_eq]
    exact fun he => hq (he ▸ mem_names (hl p hp))
  rcases h with ⟨as, bs, hks, rfl⟩ | rfl
  · have e1 := hn sig.posOnly (by simp +contextual [Sig.plain])
    have e2 := hn sig.posOrKw (by simp +contextual [Sig.plain])
    have e3 := hn as (by simp +contextual [Sig.plain, hks])
    simp [Sig.plain, List.find?_append, e1, e2, e3]
  · have e1 := hn sig.posOnly (by simp +contextual [Sig.plain])
    have e2 := hn sig.posOrKw (by simp +contextual [Sig.plain])
    simp [Sig.plain, List.find?_append, e1, e2]

theorem AddsParam.stored {q : Param A} {sig sig' : Sig A} (h : AddsParam q sig sig') {k : String} (hk : k ≠ q.name) (ig : List String)
    (eqd : PV A → PV A → Bool) (v : PV A) : stored sig' ig eqd k v = stored sig ig eqd k v := by
  have h1 : newDefault sig' k = newDefault sig k := by unfold newDefault; rw [h.find hk]
  have h2 : sig'.tyOf k = sig.tyOf k := by unfold Sig.tyOf; rw [h.find hk]
  unfold Args.stored; rw [h1, h2]

theorem foldPlain_congr {sig sig' : Sig A} (ig : List String) (eqd : PV A → PV A → Bool) {V V' : String → PV A} (ns : List String)
    (h : ∀ k ∈ ns, stored sig' ig eqd k (V' k) = stored sig ig eqd k (V k)) (inp : Inputs A) :
    ns.foldl (fun inp k => plainInp sig' ig eqd k (V' k) inp) inp = ns.foldl (fun inp k => plainInp sig ig eqd k (V k) inp) inp := by
  induction ns generalizing inp with
  | nil => rfl
  | cons n ns ih =>
    have : plainInp sig' ig eqd n (V' n) inp = plainInp sig ig eqd n (V n) inp := by
      rw [plainInp_eq, plainInp_eq, h n (by simp)]
    rw [List.foldl_cons, List.foldl_cons, this, ih (fun k hk => h k (by simp [hk]))]

/-- If nothing is stored for the new parameter, the inputs are those of the old signature. -/
theorem inputs_add_none {q : Param A} {sig sig' : Sig A} (hs : AddsParam q sig sig') (hw : sig'.Wf) (ig : List String)
    (eqd : PV A → PV A → Bool) (V V' : String → PV A) (vs : List (PV A)) (D : Dict String (PV A))
    (hV : ∀ k ∈ names sig.plain, V' k = V k) (hq : stored sig' ig eqd q.name (V' q.name) = none) :
    (parseLoop sig' ig eqd (boundOf sig' V' vs D) []).2 = (parseLoop sig ig eqd (boundOf sig V vs D) []).2 := by
  obtain ⟨hw0, hqn, e1, e2⟩ := hs.names hw
  have hne : ∀ k ∈ names sig.plain, k ≠ q.name := by
    rintro k hk rfl
    apply hqn
    rw [names_plain] at hk
    rw [Sig.params_names]
    simp only [names, List.map_append, List.mem_append] at hk ⊢
    rcases hk with (h | h) | h
    · exact Or.inl (Or.inl (Or.inl (Or.inl h)))
    · exact Or.inl (Or.inl (Or.inl (Or.inr h)))
    · exact Or.inl (Or.inr h)
  have hc : ∀ ns : List String, (∀ k ∈ ns, k ∈ names sig.plain) → ∀ inp,
      ns.foldl (fun inp k => plainInp sig' ig eqd k (V' k) inp) inp = ns.foldl (fun inp k => plainInp sig ig eqd k (V k) inp) inp := by
    intro ns hns inp
    refine foldPlain_congr ig eqd ns (fun k hk => ?_) inp
    rw [hs.stored (hne k (hns k hk)), hV k (hns k hk)]
  have hq1 : ∀ inp, plainInp sig' ig eqd q.name (V' q.name) inp = inp := by
    intro inp; rw [plainInp_eq, hq]
  rw [parseLoop_inp hw, parseLoop_inp hw0, e2]
  have : inp3 sig' ig eqd V' vs = inp3 sig ig eqd V vs := by
    unfold inp3 inp2 inp1
    rw [e1]
    have hp : ∀ k ∈ names (sig.posOnly ++ sig.posOrKw), k ∈ names sig.plain := fun k hk => (names_plain _ _).mpr (Or.inl hk)
    have hk' : ∀ k ∈ names sig.kwOnly, k ∈ names sig.plain := fun k hk => (names_plain _ _).mpr (Or.inr hk)
    rcases hs with ⟨as, bs, hk, rfl⟩ | rfl
    · dsimp only
      rw [hc _ hp]
      rw [hk] at hk'
      have n1 : names (as ++ q :: bs) = names as ++ q.name :: names bs := by simp [names]
      have n2 : names (as ++ bs) = names as ++ names bs := by simp [names]
      rw [n2] at hk'
      rw [n1, hk, n2, List.foldl_append, List.foldl_cons, hq1, List.foldl_append, hc _ (fun k h => hk' k (by simp [h])),
        hc _ (fun k h => hk' k (by simp [h]))]
    · dsimp only
      have n1 : names (sig.posOnly ++ (sig.posOrKw ++ [q])) = names (sig.posOnly ++ sig.posOrKw) ++ [q.name] := by simp [names]
      rw [n1, List.foldl_append, List.foldl_cons, List.foldl_nil, hq1, hc _ hp, hc _ hk']
  rw [this]

theorem AddsParam.mem {q : Param A} {sig sig' : Sig A} (h : AddsParam q sig sig') (k : String) :
    k ∈ Args.names sig'.plain ↔ k = q.name ∨ k ∈ Args.names sig.plain := by
  rcases h with ⟨as, bs, hks, rfl⟩ | rfl
  · simp only [Args.names, Sig.plain, hks, List.map_append, List.map_cons, List.mem_append, List.mem_cons]
    constructor
    · rintro ((h | h) | h | h | h) <;> simp [h]
    · rintro (h | (h | h) | h | h) <;> simp [h]
  · simp only [Args.names, Sig.plain, List.map_append, List.map_cons, List.map_nil, List.mem_append, List.mem_singleton]
    constructor
    · rintro ((h | h | h) | h) <;> simp [h]
    · rintro (h | (h | h) | h) <;> simp [h]

/-- The bindings of the two signatures. -/
theorem extends_boundOf {q : Param A} {sig sig' : Sig A} (hs : AddsParam q sig sig') (hw : sig'.Wf) {V V' : String → PV A}
    {vs vs' : List (PV A)} {D D' : Dict String (PV A)} {v : PV A} (h : Extends (boundOf sig V vs D) (boundOf sig' V' vs' D') q.name v) :
    (∀ k ∈ names sig.plain, V' k = V k) ∧ V' q.name = v ∧ boundOf sig' V' vs' D' = boundOf sig' V' vs D := by
  obtain ⟨hw0, hqn, e1, e2⟩ := hs.names hw
  have hsub : ∀ k ∈ names sig.plain, k ∈ sig.params.map (·.1) := by
    intro k hk
    rw [names_plain] at hk
    rw [Sig.params_names]
    simp only [names, List.map_append, List.mem_append] at hk ⊢
    rcases hk with (h | h) | h
    · exact Or.inl (Or.inl (Or.inl (Or.inl h)))
    · exact Or.inl (Or.inl (Or.inl (Or.inr h)))
    · exact Or.inl (Or.inr h)
  have hne : ∀ k ∈ sig.params.map (·.1), k ≠ q.name := by
    rintro k hk rfl
    exact hqn hk
  refine ⟨?_, ?_, ?_⟩
  · intro k hk
    have := h.1 k (hne k (hsub k hk))
    rw [get?_boundOf_plain hw0 _ _ _ hk, get?_boundOf_plain hw _ _ _ ((hs.mem k).mpr (Or.inr hk))] at this
    exact Option.some.inj this
  · have := h.2
    rw [get?_boundOf_plain hw _ _ _ ((hs.mem _).mpr (Or.inl rfl))] at this
    exact Option.some.inj this
  · have h1 : ∀ r, sig.varPos = some r → vs' = vs := by
      intro r hr
      have hm : r.1 ∈ sig.params.map (·.1) := by rw [Sig.params_names]; simp [hr]
      have := h.1 r.1 (hne _ hm)
      rw [get?_boundOf_varPos hw0 _ _ _ hr, get?_boundOf_varPos hw _ _ _ (e1.trans hr)] at this
      simpa using this
    have h2 : ∀ r, sig.varKw = some r → D' = D := by
      intro r hr
      have hm : r.1 ∈ sig.params.map (·.1) := by rw [Sig.params_names]; simp [hr]
      have := h.1 r.1 (hne _ hm)
      rw [get?_boundOf_varKw hw0 _ _ _ hr, get?_boundOf_varKw hw _ _ _ (e2.trans hr)] at this
      simpa using this
    unfold boundOf
    rw [e1, e2]
    congr 1
    · congr 2
      cases hr : sig.varPos with
      | none => rfl
      | some r => simp [h1 r hr]
    · cases hr : sig.varKw with
      | none => rfl
      | some r => simp [h2 r hr]

end Args
end Verif
