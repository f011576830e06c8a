import Verif.Spec.Args
import Verif.Proofs.ArgsInputs
/-!
Arguments: what the body receives (C25, C20), what the storage sees (C04, C22, C23).
-/
namespace Verif
namespace Args

variable {A : Type}

theorem strip_bare {v : PV A} (h : v.layers ≤ 1) : v.strip = v.bare := by
  cases v with
  | ignore v => cases v <;> simp_all [PV.layers, PV.strip, PV.bare]
  | newArg v => cases v <;> simp_all [PV.layers, PV.strip, PV.bare]
  | _ => rfl

theorem bare_of_layers {v : PV A} (h : v.layers = 0) : v.bare = v := by
  cases v <;> simp_all [PV.layers, PV.bare]

theorem strip_strip_bare {v : PV A} (h : v.layers ≤ 2) : v.strip.strip = v.bare := by
  cases v with
  | ignore v => simp only [PV.layers] at h; exact strip_bare (v := v) (by omega)
  | newArg v => simp only [PV.layers] at h; exact strip_bare (v := v) (by omega)
  | _ => rfl

/-- What `parse_args` passes on for an ordinary parameter. -/
theorem plainNew_spec {sig : Sig A} {ig : List String} {eqd : PV A → PV A → Bool} {k : String} {v : PV A} :
    plainNew sig ig eqd k v = (if k ∈ ig then v else v.strip) ∨
      ∃ p ∈ sig.plain, p.name = k ∧ ∃ d, p.default = some (.newArg d) ∧ eqd d v = true ∧ plainNew sig ig eqd k v = d := by
  unfold plainNew
  by_cases hk : k ∈ ig
  · left; simp [hk, PV.isIgnore, PV.strip]
  · simp only [hk, if_false]
    by_cases hi : v.isIgnore
    · left; simp [hi]
    · simp only [hi]
      have hs : v.strip = v := strip_of_not_ignore (by simpa using hi)
      unfold newDefault
      cases hf : sig.plain.find? (fun p => p.name = k) with
      | none => left; simp [hs]
      | some p =>
        have hp : p ∈ sig.plain := List.mem_of_find?_eq_some hf
        have hn : p.name = k := by simpa using List.find?_some hf
        dsimp only
        cases hd : p.default with
        | none => left; simp [hs]
        | some w =>
          cases w with
          | newArg d =>
            by_cases he : eqd d v
            · right; exact ⟨p, hp, hn, d, hd, he, by simp [he]⟩
            · left; simp [he, hs]
          | _ => left; simp [hs]

end Args

namespace Props
open Args

variable {A : Type}

/-- **C25**, in run mode, as far as it holds: if no parameter before `*args` is passed by keyword and no keyword has the name of a
positional-only parameter, of `*args` or of `**kwargs`, then the body is called with exactly the arguments of the caller's
expression (refs are replaced by their values afterwards), for all signatures, all ways to pass arguments and every order in
which the set of keywords may be visited.

Missing: the excluded ways to pass arguments (refuted below), and more than one wrapper around an argument. -/
theorem C25_body_receives_arguments_partial (sig : Sig A) (hw : sig.Wf) (ig : List String) (eqd : PV A → PV A → Bool)
    (pos : List (PV A)) (kw b : Dict String (PV A)) (hkw : kw.keys.Nodup) (keys : List String) (hkeys : keys.Perm kw.keys)
    (hb : bind sig pos kw = .ok b) (hs : Shallow 1 ig b)
    (h1 : ∀ k ∈ kw.keys, ∀ p ∈ sig.posOnly, p.name ≠ k)
    (h2 : ∀ k ∈ kw.keys, sig.varPos.map (·.1) ≠ some k) (h3 : ∀ k ∈ kw.keys, sig.varKw.map (·.1) ≠ some k)
    (h4 : sig.varPos ≠ none → ∀ k ∈ kw.keys, ∀ p ∈ sig.posOrKw, p.name ≠ k) :
    ∃ b', runBody sig ig eqd keys pos kw = .ok b' ∧ SameCall sig eqd b b' := by
  obtain ⟨V, vs, D, rfl, hD, hvs, hvk, hV⟩ := bind_ok hw hb
  have hDget : ∀ k, (D.mapVals PV.strip).get? k = ((if k ∈ names (sig.posOrKw ++ sig.kwOnly) then none else kw.get? k)).map PV.strip := by
    intro k
    rw [Dict.get?_mapVals, hD, get?_minus]
  have hkk : ∀ k, k ∈ keys ↔ k ∈ kw.keys := fun k => hkeys.mem_iff
  obtain ⟨args, kwargs, D', e1, e2, e3⟩ := runArgs_bind hw (fun k => plainNew sig ig eqd k (V k)) (vs.map PV.strip) (D.mapVals PV.strip)
    keys (hkeys.nodup_iff.mpr hkw) (fun h => by simp [hvs h])
    (fun k hk hm => by
      obtain ⟨p, hp, he⟩ := List.mem_map.mp hm
      exact h1 k ((hkk k).mp hk) p hp he)
    (fun k hk => h2 k ((hkk k).mp hk)) (fun k hk => h3 k ((hkk k).mp hk))
    (fun hsome k hk hm => by
      obtain ⟨p, hp, he⟩ := List.mem_map.mp hm
      exact h4 (by intro hn; rw [hn] at hsome; simp at hsome) k ((hkk k).mp hk) p hp he)
    (fun k hk => by
      by_cases hm : k ∈ names (sig.posOrKw ++ sig.kwOnly)
      · exact Or.inl hm
      · right
        obtain ⟨v, hv⟩ := Dict.mem_keys.mp ((hkk k).mp hk)
        have hg : (D.mapVals PV.strip).get? k = some v.strip := by rw [hDget, if_neg hm, hv]; rfl
        refine ⟨?_, _, hg⟩
        cases hc : sig.varKw with
        | some q => rfl
        | none => rw [hvk hc] at hg; simp [Dict.mapVals] at hg)
    (fun k v hv => by
      rw [hDget] at hv
      by_cases hm : k ∈ names (sig.posOrKw ++ sig.kwOnly)
      · rw [if_pos hm] at hv; simp at hv
      · rw [if_neg hm] at hv
        refine ⟨?_, hm⟩
        rw [hkk, Dict.mem_keys]
        cases hg : kw.get? k with
        | none => rw [hg] at hv; simp at hv
        | some w => exact ⟨w, rfl⟩)
  refine ⟨boundOf sig (fun k => plainNew sig ig eqd k (V k)) (vs.map PV.strip) D', ?_, ?_, ?_⟩
  · unfold runBody parseArgs
    rw [hb]
    simp only [parseLoop_boundOf_fst hw, e1, e2]
  · rw [keys_boundOf, keys_boundOf]
  · intro n v hv
    obtain ⟨s1, s2, s3⟩ := hs n v hv
    have hn : n ∈ sig.params.map (·.1) := by
      rw [← keys_boundOf sig V vs D]; exact Dict.mem_keys.mpr ⟨v, hv⟩
    rw [Sig.params_names] at hn
    simp only [List.mem_append] at hn
    by_cases hp : n ∈ names sig.plain
    · rw [get?_boundOf_plain hw _ _ _ hp] at hv
      obtain rfl := Option.some.inj hv
      refine ⟨_, get?_boundOf_plain hw _ _ _ hp, Or.inr (Or.inr ?_)⟩
      rcases plainNew_spec (sig := sig) (ig := ig) (eqd := eqd) (k := n) (v := V n) with h | ⟨p, hp', hpn, d, hd, he, h⟩
      · obtain ⟨p, hp', hpn⟩ := List.mem_map.mp hp
        refine ⟨p, hp', hpn, Or.inl ?_⟩
        rw [h]
        by_cases hi : n ∈ ig
        · simp only [hi, if_true] at s1 ⊢
          rw [bare_of_layers (by omega)]
        · simp only [hi, if_false] at s1 ⊢
          exact strip_bare (by omega)
      · exact ⟨p, hp', hpn, Or.inr ⟨d, hd, he, h⟩⟩
    · rcases hn with (((hn | hn) | hn) | hn) | hn
      · exact absurd (by simp only [names, Sig.plain, List.map_append, List.mem_append]; exact Or.inl (Or.inl hn)) hp
      · exact absurd (by simp only [names, Sig.plain, List.map_append, List.mem_append]; exact Or.inl (Or.inr hn)) hp
      · obtain ⟨q, hq, rfl⟩ := List.mem_map.mp hn
        have hq := Option.mem_toList.mp hq
        rw [get?_boundOf_varPos hw _ _ _ hq] at hv
        obtain rfl := Option.some.inj hv
        refine ⟨_, get?_boundOf_varPos hw _ _ _ hq, Or.inl ⟨q, hq, rfl, vs, rfl, ?_⟩⟩
        congr 1
        exact List.map_congr_left (fun x hx => strip_bare (s2 x hx))
      · exact absurd (by simp only [names, Sig.plain, List.map_append, List.mem_append]; exact Or.inr hn) hp
      · obtain ⟨q, hq, rfl⟩ := List.mem_map.mp hn
        have hq := Option.mem_toList.mp hq
        rw [get?_boundOf_varKw hw _ _ _ hq] at hv
        obtain rfl := Option.some.inj hv
        refine ⟨_, get?_boundOf_varKw hw _ _ _ hq, Or.inr (Or.inl ⟨q, hq, rfl, D, D', rfl, rfl, fun k => ?_⟩)⟩
        rw [e3, Dict.get?_mapVals]
        cases hg : D.get? k with
        | none => rfl
        | some x => exact congrArg some (strip_bare (s3 (k, x) (Dict.mem_of_get? hg)))

/-- **C25**/**C20** in noop mode: the body is called with exactly the arguments of the caller's expression, for all signatures and
all ways to pass arguments. -/
theorem C25_body_receives_arguments_noop (sig : Sig A) (hw : sig.Wf) (ig : List String) (eqd : PV A → PV A → Bool)
    (pos : List (PV A)) (kw b : Dict String (PV A)) (hkw : kw.keys.Nodup) (hb : bind sig pos kw = .ok b) (hs : Shallow 2 ig b)
    (hd : DefaultsOK sig) :
    ∃ b', noopBody sig ig eqd pos kw = .ok b' ∧ SameCall sig eqd b b' := by
  obtain ⟨V, vs, D, rfl, hD, hvs, hvk, hV⟩ := bind_ok hw hb
  have hDn : D.keys.Nodup := by
    rw [hD]
    unfold minus
    exact List.Nodup.sublist (List.Sublist.map _ List.filter_sublist) hkw
  obtain ⟨args, kwargs, D', e1, e2, e3⟩ := noopArgs_bind hw (fun k => plainNew sig ig eqd k (V k)) (vs.map PV.strip) (D.mapVals PV.strip)
    (fun h => by simp [hvs h]) (fun h => by simp [hvk h, Dict.mapVals]) (by rw [Dict.keys_mapVals]; exact hDn)
    (fun k hk => by
      rw [Dict.keys_mapVals] at hk
      obtain ⟨v, hv⟩ := Dict.mem_keys.mp hk
      rw [hD, get?_minus] at hv
      intro hm
      rw [if_pos hm] at hv; simp at hv)
  refine ⟨boundOf sig (fun k => (plainNew sig ig eqd k (V k)).strip) ((vs.map PV.strip).map PV.strip) D', ?_, ?_, ?_⟩
  · unfold noopBody parseArgs
    rw [hb]
    simp only [parseLoop_boundOf_fst hw, e1, e2]
  · rw [keys_boundOf, keys_boundOf]
  · intro n v hv
    obtain ⟨s1, s2, s3⟩ := hs n v hv
    have hn : n ∈ sig.params.map (·.1) := by
      rw [← keys_boundOf sig V vs D]; exact Dict.mem_keys.mpr ⟨v, hv⟩
    rw [Sig.params_names] at hn
    simp only [List.mem_append] at hn
    by_cases hp : n ∈ names sig.plain
    · rw [get?_boundOf_plain hw _ _ _ hp] at hv
      obtain rfl := Option.some.inj hv
      refine ⟨_, get?_boundOf_plain hw _ _ _ hp, Or.inr (Or.inr ?_)⟩
      rcases plainNew_spec (sig := sig) (ig := ig) (eqd := eqd) (k := n) (v := V n) with h | ⟨p, hp', hpn, d, hd', he, h⟩
      · obtain ⟨p, hp', hpn⟩ := List.mem_map.mp hp
        refine ⟨p, hp', hpn, Or.inl ?_⟩
        rw [h]
        by_cases hi : n ∈ ig
        · simp only [hi, if_true] at s1 ⊢
          exact strip_bare (by omega)
        · simp only [hi, if_false] at s1 ⊢
          exact strip_strip_bare (by omega)
      · refine ⟨p, hp', hpn, Or.inr ⟨d, hd', he, ?_⟩⟩
        have h0 := hd p hp' d hd'
        rw [h, strip_bare (by omega), bare_of_layers h0]
    · rcases hn with (((hn | hn) | hn) | hn) | hn
      · exact absurd (by simp only [names, Sig.plain, List.map_append, List.mem_append]; exact Or.inl (Or.inl hn)) hp
      · exact absurd (by simp only [names, Sig.plain, List.map_append, List.mem_append]; exact Or.inl (Or.inr hn)) hp
      · obtain ⟨q, hq, rfl⟩ := List.mem_map.mp hn
        have hq := Option.mem_toList.mp hq
        rw [get?_boundOf_varPos hw _ _ _ hq] at hv
        obtain rfl := Option.some.inj hv
        refine ⟨_, get?_boundOf_varPos hw _ _ _ hq, Or.inl ⟨q, hq, rfl, vs, rfl, ?_⟩⟩
        congr 1
        rw [List.map_map]
        exact List.map_congr_left (fun x hx => strip_strip_bare (s2 x hx))
      · exact absurd (by simp only [names, Sig.plain, List.map_append, List.mem_append]; exact Or.inr hn) hp
      · obtain ⟨q, hq, rfl⟩ := List.mem_map.mp hn
        have hq := Option.mem_toList.mp hq
        rw [get?_boundOf_varKw hw _ _ _ hq] at hv
        obtain rfl := Option.some.inj hv
        refine ⟨_, get?_boundOf_varKw hw _ _ _ hq, Or.inr (Or.inl ⟨q, hq, rfl, D, D', rfl, rfl, fun k => ?_⟩)⟩
        rw [e3, Dict.get?_mapVals]
        cases hg : D.get? k with
        | none => rfl
        | some x => exact congrArg some (strip_strip_bare (s3 (k, x) (Dict.mem_of_get? hg)))

/-- `def f(x, *args)` -/
def sigStar : Sig Nat := { posOrKw := [{ name := "x" }], varPos := some ("args", .atom) }

/-- **C25** fails in run mode: for `def f(x, *args)` the call `f(x=1)` is fine in python, but the storage calls `f(x=1, args=())`,
which raises TypeError. -/
theorem C25_refuted_keyword_before_star :
    bind sigStar [] [("x", .val 1)] = .ok [("x", .val 1), ("args", .tup [])] ∧
      runBody sigStar [] (fun _ _ => false) ["x"] [] [("x", .val 1)] = .error .typeError := by
  constructor <;> rfl

/-- `def f(**kwargs)` -/
def sigKw : Sig Nat := { varKw := some ("kwargs", .atom) }

/-- And without an error: for `def f(**kwargs)` the call `f(kwargs=1)` passes the whole dictionary under that key. -/
theorem C25_refuted_keyword_named_kwargs :
    bind sigKw [] [("kwargs", .val 1)] = .ok [("kwargs", .dct [("kwargs", .val 1)])] ∧
      runBody sigKw [] (fun _ _ => false) ["kwargs"] [] [("kwargs", .val 1)] =
        .ok [("kwargs", .dct [("kwargs", .dct [("kwargs", .val 1)])])] := by
  constructor <;> rfl

/-- **C20** fails outside any context: the function is called directly, so a parameter that was left out receives the
`NewArgDefault` object instead of the value in it. -/
theorem C20_refuted_outside_context :
    ∃ sig : Sig Nat, ∃ b b', bind sig [] [] = .ok b ∧ plainBody sig [] [] = .ok b' ∧ ¬ SameCall sig (fun _ _ => false) b b' := by
  refine ⟨{ posOrKw := [{ name := "y", default := some (.newArg (.val 7)) }] }, [("y", .newArg (.val 7))], [("y", .newArg (.val 7))], rfl, rfl, ?_⟩
  rintro ⟨_, h⟩
  obtain ⟨w, h1, h2⟩ := h "y" (.newArg (.val 7)) rfl
  have : w = .newArg (.val 7) := by
    have : some (PV.newArg (PV.val 7) : PV Nat) = some w := h1
    exact (Option.some.inj this).symm
  subst this
  rcases h2 with ⟨q, hq, _⟩ | ⟨q, hq, _⟩ | ⟨p, _, _, h | ⟨d, _, h, _⟩⟩
  · simp at hq
  · simp at hq
  · simp [PV.bare] at h
  · simp at h

/-- **C20** outside any context, as far as it holds: without wrappers (and refs), the function receives its arguments. -/
theorem C20_outside_context_partial (sig : Sig A) (hw : sig.Wf) (eqd : PV A → PV A → Bool) (pos : List (PV A)) (kw b : Dict String (PV A))
    (hb : bind sig pos kw = .ok b) (hs : Shallow 0 [] b) : ∃ b', plainBody sig pos kw = .ok b' ∧ SameCall sig eqd b b' := by
  obtain ⟨V, vs, D, rfl, _⟩ := bind_ok hw hb
  refine ⟨_, hb, rfl, fun n v hv => ⟨v, hv, ?_⟩⟩
  obtain ⟨s1, s2, s3⟩ := hs n v hv
  have hn : n ∈ sig.params.map (·.1) := by
    rw [← keys_boundOf sig V vs D]; exact Dict.mem_keys.mpr ⟨v, hv⟩
  rw [Sig.params_names] at hn
  simp only [List.mem_append] at hn
  by_cases hp : n ∈ names sig.plain
  · obtain ⟨p, hp', hpn⟩ := List.mem_map.mp hp
    exact Or.inr (Or.inr ⟨p, hp', hpn, Or.inl (bare_of_layers (by simpa using s1)).symm⟩)
  · rcases hn with (((hn | hn) | hn) | hn) | hn
    · exact absurd (by simp only [names, Sig.plain, List.map_append, List.mem_append]; exact Or.inl (Or.inl hn)) hp
    · exact absurd (by simp only [names, Sig.plain, List.map_append, List.mem_append]; exact Or.inl (Or.inr hn)) hp
    · obtain ⟨q, hq, rfl⟩ := List.mem_map.mp hn
      have hq := Option.mem_toList.mp hq
      rw [get?_boundOf_varPos hw _ _ _ hq] at hv
      obtain rfl := Option.some.inj hv
      refine Or.inl ⟨q, hq, rfl, vs, rfl, ?_⟩
      congr 1
      have := List.map_congr_left (l := vs) (f := id) (g := PV.bare) (fun x hx => (bare_of_layers (Nat.le_zero.mp (s2 x hx))).symm)
      rwa [List.map_id] at this
    · exact absurd (by simp only [names, Sig.plain, List.map_append, List.mem_append]; exact Or.inr hn) hp
    · obtain ⟨q, hq, rfl⟩ := List.mem_map.mp hn
      have hq := Option.mem_toList.mp hq
      rw [get?_boundOf_varKw hw _ _ _ hq] at hv
      obtain rfl := Option.some.inj hv
      refine Or.inr (Or.inl ⟨q, hq, rfl, D, D, rfl, rfl, fun k => ?_⟩)
      cases hg : D.get? k with
      | none => rfl
      | some x => exact congrArg some (bare_of_layers (Nat.le_zero.mp (s3 (k, x) (Dict.mem_of_get? hg)))).symm

/-- `def g(a, /, b, c=NewArgDefault(5), *, d, **rest)` -/
def sigMixed : Sig Nat :=
  { posOnly := [{ name := "a" }], posOrKw := [{ name := "b" }, { name := "c", default := some (.newArg (.val 5)) }],
    kwOnly := [{ name := "d" }], varKw := some ("rest", .atom) }

/-- a comparison of plain numbers -/
def eqNum : PV Nat → PV Nat → Bool
  | .val a, .val b => a == b
  | _, _ => false

theorem sigMixed_wf : sigMixed.Wf := by unfold Sig.Wf; decide

/-- `g(1, d=Ignore(4), c=5, b=2, e=9)` with `ignore_args=("b",)`: the hypotheses of `C25_body_receives_arguments_partial` hold. -/
example : ∃ b', runBody sigMixed ["b"] eqNum ["c", "e", "b", "d"] [.val 1]
      [("d", .ignore (.val 4)), ("c", .val 5), ("b", .val 2), ("e", .val 9)] = .ok b' ∧
    SameCall sigMixed eqNum [("a", .val 1), ("b", .val 2), ("c", .val 5), ("d", .ignore (.val 4)), ("rest", .dct [("e", .val 9)])] b' := by
  refine C25_body_receives_arguments_partial sigMixed sigMixed_wf ["b"] eqNum [.val 1] _ _ (by decide) _ (by decide) rfl ?_
    (by simp [sigMixed, Dict.keys]) (by simp [sigMixed]) (by simp [sigMixed, Dict.keys]) (by simp [sigMixed])
  intro n v hv
  have := Dict.mem_of_get? hv
  simp only [List.mem_cons, List.not_mem_nil, or_false, Prod.mk.injEq] at this
  rcases this with ⟨rfl, rfl⟩ | ⟨rfl, rfl⟩ | ⟨rfl, rfl⟩ | ⟨rfl, rfl⟩ | ⟨rfl, rfl⟩ <;> simp [PV.layers, PV.elems, PV.entries]

/-- The same call in noop mode. -/
example : ∃ b', noopBody sigMixed ["b"] eqNum [.val 1]
      [("d", .ignore (.val 4)), ("c", .val 5), ("b", .val 2), ("e", .val 9)] = .ok b' ∧
    SameCall sigMixed eqNum [("a", .val 1), ("b", .val 2), ("c", .val 5), ("d", .ignore (.val 4)), ("rest", .dct [("e", .val 9)])] b' := by
  refine C25_body_receives_arguments_noop sigMixed sigMixed_wf ["b"] eqNum [.val 1] _ _ (by decide) rfl ?_ ?_
  · intro n v hv
    have := Dict.mem_of_get? hv
    simp only [List.mem_cons, List.not_mem_nil, or_false, Prod.mk.injEq] at this
    rcases this with ⟨rfl, rfl⟩ | ⟨rfl, rfl⟩ | ⟨rfl, rfl⟩ | ⟨rfl, rfl⟩ | ⟨rfl, rfl⟩ <;> simp [PV.layers, PV.elems, PV.entries]
  · intro p hp d hd
    simp only [sigMixed, List.cons_append, List.nil_append, List.mem_cons, List.not_mem_nil, or_false] at hp
    rcases hp with rfl | rfl | rfl | rfl <;> simp at hd
    rw [← hd]; rfl

/-- Outside any context, `f(1, 2, 3)` for `def f(x, *args)`. -/
example : ∃ b', plainBody sigStar [.val 1, .val 2, .val 3] [] = .ok b' ∧
    SameCall sigStar eqNum [("x", .val 1), ("args", .tup [.val 2, .val 3])] b' := by
  refine C20_outside_context_partial sigStar (by unfold Sig.Wf; decide) eqNum _ _ _ rfl ?_
  intro n v hv
  have := Dict.mem_of_get? hv
  simp only [List.mem_cons, List.not_mem_nil, or_false, Prod.mk.injEq] at this
  rcases this with ⟨rfl, rfl⟩ | ⟨rfl, rfl⟩ <;> simp [PV.layers, PV.elems, PV.entries]

end Props
end Verif
