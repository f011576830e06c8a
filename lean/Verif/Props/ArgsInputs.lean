import Verif.Proofs.ArgsVisible
import Verif.Proofs.ArgsAdd
import Verif.Basic.Encode
/-!
What the storage sees of the arguments: ignored arguments (C22), distinct calls (C04), added parameters (C23).
-/
namespace Verif
namespace Props
open Args

variable {A : Type}

/-- **C22**, what the storage sees: two calls that differ only in ignored arguments get exactly the same inputs, hence the same
identifiers. (That the body receives the actual values is `C25_body_receives_arguments_partial`.) -/
theorem C22_ignored_arguments_not_seen (sig : Sig A) (ig : List String) (eqd : PV A → PV A → Bool)
    (pos pos' : List (PV A)) (kw kw' b c : Dict String (PV A)) (hb : bind sig pos kw = .ok b) (hc : bind sig pos' kw' = .ok c)
    (h : All2 (SameButIgnored sig ig) b c) :
    (parseArgs sig ig eqd pos kw).map (·.2) = (parseArgs sig ig eqd pos' kw').map (·.2) := by
  unfold parseArgs
  rw [hb, hc]
  simp only [Except.map]
  rw [parseLoop_congr sig ig eqd h]

/-- **C04**: two calls of an op with the same identifier (history id or content id, `idf` being the id of an input) agree on all
non-ignored bound arguments, up to the id of the argument; for all signatures and ways to pass arguments, provided that the
names `args_0`, `args_1`, ... of the elements of `*args` are not used otherwise and no key of `**kwargs` is the name of a
positional-only parameter.

Missing: the excluded names (refuted below). -/
theorem C04_distinct_calls_partial {H : Val → String} (hH : Function.Injective H) (idf : PV A × Ty → String) (op : String) (ver : Int)
    (sig : Sig A) (hw : sig.Wf) (ig : List String) (eqd : PV A → PV A → Bool)
    (pos pos' : List (PV A)) (kw kw' b c : Dict String (PV A)) (hk : kw.keys.Nodup) (hk' : kw'.keys.Nodup)
    (hb : bind sig pos kw = .ok b) (hc : bind sig pos' kw' = .ok c) (nb : NoClash sig b) (nc : NoClash sig c)
    (bound bound' : Dict String (PV A)) (inp inp' : Inputs A)
    (h1 : parseArgs sig ig eqd pos kw = .ok (bound, inp)) (h2 : parseArgs sig ig eqd pos' kw' = .ok (bound', inp'))
    (hid : callId H op ver (inp.mapVals idf) = callId H op ver (inp'.mapVals idf)) (s : Slot) :
    (visible sig ig eqd b s).map (fun v => idf (v, slotTy sig s)) = (visible sig ig eqd c s).map (fun v => idf (v, slotTy sig s)) := by
  obtain ⟨V, vs, D, rfl, hD, _⟩ := bind_ok hw hb
  obtain ⟨V', vs', D', rfl, hD', _⟩ := bind_ok hw hc
  have nodup : ∀ {kw D : Dict String (PV A)}, kw.keys.Nodup → D = minus kw (names (sig.posOrKw ++ sig.kwOnly)) → D.keys.Nodup := by
    intro kw D hk hD
    rw [hD]; unfold minus
    exact List.Nodup.sublist (List.Sublist.map _ List.filter_sublist) hk
  have e1 : inp = (parseLoop sig ig eqd (boundOf sig V vs D) []).2 := by
    unfold parseArgs at h1; rw [hb] at h1
    exact (congrArg (·.2) (Except.ok.inj h1)).symm
  have e2 : inp' = (parseLoop sig ig eqd (boundOf sig V' vs' D') []).2 := by
    unfold parseArgs at h2; rw [hc] at h2
    exact (congrArg (·.2) (Except.ok.inj h2)).symm
  have n1 : (inp.mapVals idf).keys.Nodup := by rw [Dict.keys_mapVals, e1]; exact nodup_parseLoop _ _ _ _ (by simp [Dict.keys])
  have n2 : (inp'.mapVals idf).keys.Nodup := by rw [Dict.keys_mapVals, e2]; exact nodup_parseLoop _ _ _ _ (by simp [Dict.keys])
  obtain ⟨_, _, hg⟩ := callId_inj_args hH n1 n2 hid
  have i1 := inputs_visible hw ig eqd V vs D (nodup hk hD) nb s
  have i2 := inputs_visible hw ig eqd V' vs' D' (nodup hk' hD') nc s
  cases hs : slotName sig s with
  | none =>
    rw [hs] at i1 i2
    dsimp only at i1 i2
    rw [i1, i2]
  | some n =>
    rw [hs] at i1 i2
    dsimp only at i1 i2
    -- a key of `**kwargs` that clashes with another name is used by neither call
    by_cases hm : ∀ m, s = .kw m → (∀ k, k ∈ names sig.plain → k ≠ m) ∧ ∀ q, sig.varPos = some q → ∀ i, m ≠ idxName q.1 i
    · have i1 := i1 hm
      have i2 := i2 hm
      have hgn := hg n
      rw [Dict.get?_mapVals, Dict.get?_mapVals, e1, e2, i1, i2, Option.map_map, Option.map_map] at hgn
      exact hgn
    · cases s with
      | par m => simp at hm
      | star i => simp at hm
      | kw m =>
        have key : ∀ {V : String → PV A} {vs : List (PV A)} {D : Dict String (PV A)}, NoClash sig (boundOf sig V vs D) →
            visible sig ig eqd (boundOf sig V vs D) (.kw m) = none := by
          intro V vs D nb
          unfold visible
          cases hq : sig.varKw with
          | none => rfl
          | some q =>
            simp only [get?_boundOf_varKw hw V vs D hq]
            cases hd : Dict.get? D m with
            | none => rfl
            | some v =>
              exfalso
              apply hm
              intro m' hm'
              cases hm'
              obtain ⟨c1, c2⟩ := nb.2 q hq D (get?_boundOf_varKw hw V vs D hq) m (Dict.mem_keys.mpr ⟨v, hd⟩)
              refine ⟨fun k hk => ?_, c2⟩
              obtain ⟨p, hp, rfl⟩ := List.mem_map.mp hk
              exact c1 p hp
        rw [key nb, key nc]

/-- **C04**, refuted: for `def f(x, *args, **kwargs)` the calls `f(1, 2)` and `f(1, args_0=2)` have the same inputs, hence the
same identifiers for every op, version and way to identify values: an element of `*args` is stored under the name `args_0`. -/
theorem C04_refuted_star_names (H : Val → String) (idf : PV Nat × Ty → String) (op : String) (ver : Int) :
    let sig : Sig Nat := { posOrKw := [{ name := "x" }], varPos := some ("args", .atom), varKw := some ("kwargs", .atom) }
    ∃ b c inp inp', parseArgs sig [] (fun _ _ => false) [.val 1, .val 2] [] = .ok (b, inp) ∧
      parseArgs sig [] (fun _ _ => false) [.val 1] [("args_0", .val 2)] = .ok (c, inp') ∧
      visible sig [] (fun _ _ => false) b (.star 0) = some (.val 2) ∧ visible sig [] (fun _ _ => false) c (.star 0) = none ∧
      callId H op ver (inp.mapVals idf) = callId H op ver (inp'.mapVals idf) :=
  ⟨_, _, _, _, rfl, rfl, rfl, rfl, rfl⟩

/-- **C04**, refuted: for `def f(a, /, **kwargs)` the calls `f(1, a=2)` and `f(3, a=2)` have the same inputs: the key of
`**kwargs` overwrites the positional-only parameter of the same name. -/
theorem C04_refuted_positional_only (H : Val → String) (idf : PV Nat × Ty → String) (op : String) (ver : Int) :
    let sig : Sig Nat := { posOnly := [{ name := "a" }], varKw := some ("kwargs", .atom) }
    ∃ b c inp inp', parseArgs sig [] (fun _ _ => false) [.val 1] [("a", .val 2)] = .ok (b, inp) ∧
      parseArgs sig [] (fun _ _ => false) [.val 3] [("a", .val 2)] = .ok (c, inp') ∧
      visible sig [] (fun _ _ => false) b (.par "a") = some (.val 1) ∧ visible sig [] (fun _ _ => false) c (.par "a") = some (.val 3) ∧
      callId H op ver (inp.mapVals idf) = callId H op ver (inp'.mapVals idf) :=
  ⟨_, _, _, _, rfl, rfl, rfl, rfl, rfl⟩

/-- **C23**, old results are found: parameter `q` with default `NewArgDefault(d)` is added to an op. A call of the new version
that binds the old parameters as a call of the old version did, and `q` to the default (it was omitted), to an ignored value or
to a value equal to `d`, has exactly the same inputs, hence the same identifiers. -/
theorem C23_default_keeps_inputs {q : Param A} {d : PV A} (hd : q.default = some (.newArg d)) {sig sig' : Sig A} (hs : AddsParam q sig sig')
    (hw : sig'.Wf) (ig : List String) (eqd : PV A → PV A → Bool) (pos pos' : List (PV A)) (kw kw' b b' : Dict String (PV A))
    (hb : bind sig pos kw = .ok b) (hb' : bind sig' pos' kw' = .ok b') (v : PV A) (hx : Extends b b' q.name v)
    (hv : v = .newArg d ∨ v.isIgnore = true ∨ eqd d v = true) :
    ∃ c c' inp, parseArgs sig ig eqd pos kw = .ok (c, inp) ∧ parseArgs sig' ig eqd pos' kw' = .ok (c', inp) := by
  obtain ⟨hw0, hqn, _, _⟩ := hs.names hw
  obtain ⟨V, vs, D, rfl, _, _⟩ := bind_ok hw0 hb
  obtain ⟨V', vs', D', rfl, _, _⟩ := bind_ok hw hb'
  obtain ⟨h1, h2, h3⟩ := extends_boundOf hs hw hx
  refine ⟨(parseLoop sig ig eqd (boundOf sig V vs D) []).1, (parseLoop sig' ig eqd (boundOf sig' V' vs' D') []).1,
    (parseLoop sig ig eqd (boundOf sig V vs D) []).2, ?_, ?_⟩
  · unfold parseArgs; rw [hb]
  · unfold parseArgs; rw [hb']
    refine congrArg Except.ok (Prod.ext rfl ?_)
    dsimp only
    rw [h3]
    refine inputs_add_none hs hw ig eqd V V' vs D h1 ?_
    rw [h2]
    unfold stored
    have hq : q.name ∉ names sig.plain := fun hm => hqn (plain_params hm)
    by_cases hi : q.name ∈ ig ∨ v.isIgnore = true
    · rw [if_pos hi]
    · rw [if_neg hi]
      have hnd : newDefault sig' q.name = some d := by unfold newDefault; rw [hs.find_self hq]; simp only [hd]
      rw [hnd]
      dsimp only
      rcases hv with rfl | hv | hv
      · exact absurd (Or.inr rfl) hi
      · exact absurd (Or.inr hv) hi
      · rw [if_pos hv]

/-- **C23**, other values: a call of the new version that binds `q` to anything else has another identifier than the call of the
old version with the same other arguments (provided that `q` is not called like an element of `*args`, such as `args_0`). -/
theorem C23_other_value_is_new {H : Val → String} (hH : Function.Injective H) (idf : PV A × Ty → String) (op : String) (ver : Int)
    {q : Param A} {d : PV A} (hd : q.default = some (.newArg d)) {sig sig' : Sig A} (hs : AddsParam q sig sig')
    (hw : sig'.Wf) (ig : List String) (hig : q.name ∉ ig) (eqd : PV A → PV A → Bool) (pos pos' : List (PV A)) (kw kw' b b' : Dict String (PV A))
    (hkn : kw.keys.Nodup) (hkn' : kw'.keys.Nodup)
    (hkw : q.name ∉ kw.keys) (hst : ∀ r, sig.varPos = some r → ∀ i, q.name ≠ idxName r.1 i)
    (hb : bind sig pos kw = .ok b) (hb' : bind sig' pos' kw' = .ok b') (v : PV A) (hx : Extends b b' q.name v)
    (hv1 : v.isIgnore = false) (hv2 : eqd d v = false) (c c' : Dict String (PV A)) (inp inp' : Inputs A)
    (h1 : parseArgs sig ig eqd pos kw = .ok (c, inp)) (h2 : parseArgs sig' ig eqd pos' kw' = .ok (c', inp')) :
    callId H op ver (inp.mapVals idf) ≠ callId H op ver (inp'.mapVals idf) := by
  obtain ⟨hw0, hqn, ep, _⟩ := hs.names hw
  obtain ⟨V, vs, D, rfl, hD, _⟩ := bind_ok hw0 hb
  obtain ⟨V', vs', D', rfl, hD', _⟩ := bind_ok hw hb'
  obtain ⟨_, hvq, _⟩ := extends_boundOf hs hw hx
  have nodup : ∀ {kw D : Dict String (PV A)} {ns : List String}, kw.keys.Nodup → D = minus kw ns → D.keys.Nodup := by
    intro kw D ns hk hD
    rw [hD]; unfold minus
    exact List.Nodup.sublist (List.Sublist.map _ List.filter_sublist) hk
  have e1 : inp = (parseLoop sig ig eqd (boundOf sig V vs D) []).2 := by
    unfold parseArgs at h1; rw [hb] at h1
    exact (congrArg (·.2) (Except.ok.inj h1)).symm
  have e2 : inp' = (parseLoop sig' ig eqd (boundOf sig' V' vs' D') []).2 := by
    unfold parseArgs at h2; rw [hb'] at h2
    exact (congrArg (·.2) (Except.ok.inj h2)).symm
  have n1 : (inp.mapVals idf).keys.Nodup := by rw [Dict.keys_mapVals, e1]; exact nodup_parseLoop _ _ _ _ (by simp [Dict.keys])
  have n2 : (inp'.mapVals idf).keys.Nodup := by rw [Dict.keys_mapVals, e2]; exact nodup_parseLoop _ _ _ _ (by simp [Dict.keys])
  intro hid
  obtain ⟨_, _, hg⟩ := callId_inj_args hH n1 n2 hid
  have hgq := hg q.name
  rw [Dict.get?_mapVals, Dict.get?_mapVals] at hgq
  have hq : q.name ∉ names sig.plain := fun hm => hqn (plain_params hm)
  have g1 : inp.get? q.name = none := by
    rw [e1, parseLoop_inp hw0]
    have : (inp3 sig ig eqd V vs).get? q.name = none := by rw [get?_inp3_ne _ _ _ _ _ _ hst, if_neg hq]
    cases hk : sig.varKw with
    | none => exact this
    | some r =>
      dsimp only
      rw [get?_addVarKw _ _ (nodup hkn hD), this, hD, get?_minus, Dict.get?_eq_none.mpr hkw]
      simp
  have g2 : inp'.get? q.name ≠ none := by
    rw [e2, parseLoop_inp hw]
    have : (inp3 sig' ig eqd V' vs').get? q.name = some (v, sig'.tyOf q.name) := by
      rw [get?_inp3_ne _ _ _ _ _ _ (fun r hr => hst r (ep ▸ hr)), if_pos ((hs.mem _).mpr (Or.inl rfl)), hvq]
      have hnd : newDefault sig' q.name = some d := by unfold newDefault; rw [hs.find_self hq]; simp only [hd]
      unfold stored
      rw [if_neg (by simp [hig, hv1]), hnd]
      simp [hv2]
    cases hk : sig'.varKw with
    | none => dsimp only; rw [this]; simp
    | some r =>
      dsimp only
      rw [get?_addVarKw _ _ (nodup hkn' hD'), this]
      cases (Dict.get? D' q.name).bind (storedVar r.2) <;> simp
  rw [g1] at hgq
  cases hi : inp'.get? q.name with
  | none => exact g2 hi
  | some x => rw [hi] at hgq; simp at hgq

/-- **C23**, the calls meant: every call expression for the old version (without surplus positional arguments for `*args`) is a
call expression for the new one and binds the old parameters as before and `q` to its default; with `q=v` added anywhere among
the keyword arguments it binds `q` to `v`. -/
theorem C23_old_calls_still_bind {q : Param A} {d : PV A} (hd : q.default = some (.newArg d)) {sig sig' : Sig A} (hs : AddsParam q sig sig')
    (hw : sig'.Wf) (pos : List (PV A)) (hl : pos.length ≤ sig.posOnly.length + sig.posOrKw.length) (kw b : Dict String (PV A))
    (h : bind sig pos (kw.erase q.name) = .ok b) :
    ∃ b', bind sig' pos kw = .ok b' ∧ Extends b b' q.name ((kw.get? q.name).getD (.newArg d)) :=
  bind_add hd hs hw hl h

/-! ### Examples -/

/-- `def f(x, *args, **kwargs)` -/
def sigOpen : Sig Nat := { posOrKw := [{ name := "x" }], varPos := some ("args", .atom), varKw := some ("kwargs", .atom) }

/-- `def f(x, *args, seed=NewArgDefault(0), **kwargs)` -/
def sigSeed : Sig Nat :=
  { posOrKw := [{ name := "x" }], varPos := some ("args", .atom), kwOnly := [{ name := "seed", default := some (.newArg (.val 0)) }],
    varKw := some ("kwargs", .atom) }

/-- comparison of numbers -/
def eqN : PV Nat → PV Nat → Bool
  | .val a, .val b => a == b
  | _, _ => false

theorem sigSeed_adds : AddsParam { name := "seed", default := some (.newArg (.val 0)) } sigOpen sigSeed := Or.inl ⟨[], [], rfl, rfl⟩

theorem sigSeed_wf : sigSeed.Wf := by unfold Sig.Wf; decide

theorem sigOpen_wf : sigOpen.Wf := by unfold Sig.Wf; decide

-- C22: `f(1, Ignore(2), v=Ignore(3))` and `f(1, Ignore(7), v=Ignore(8))`
example : (parseArgs sigOpen [] eqN [.val 1, .ignore (.val 2)] [("v", .ignore (.val 3))]).map (·.2) =
    (parseArgs sigOpen [] eqN [.val 1, .ignore (.val 7)] [("v", .ignore (.val 8))]).map (·.2) := by
  refine C22_ignored_arguments_not_seen sigOpen [] eqN _ _ _ _ _ _ rfl rfl ?_
  refine .cons ⟨rfl, Or.inr (Or.inr ⟨by decide, by decide, Or.inr (Or.inl rfl)⟩)⟩
    (.cons ⟨rfl, Or.inl ⟨by decide, _, _, rfl, rfl, .cons (Or.inr ⟨rfl, rfl⟩) .nil⟩⟩
    (.cons ⟨rfl, Or.inr (Or.inl ⟨by decide, _, _, rfl, rfl, .cons ⟨rfl, Or.inr ⟨rfl, rfl⟩⟩ .nil⟩)⟩ .nil))

/-- an id for numbers -/
def idN : PV Nat × Ty → String
  | (.val n, _) => encH (.int n)
  | _ => ""

-- C04: `f(1, 2, v=3)` and `f(1, 2, v=4)` have different ids
example : callId encH "f" 0 ((Dict.mapVals idN ([("x", (.val 1, .atom)), ("args_0", (.val 2, .atom)), ("v", (.val 3, .atom))] : Inputs Nat))) ≠
    callId encH "f" 0 ((Dict.mapVals idN ([("x", (.val 1, .atom)), ("args_0", (.val 2, .atom)), ("v", (.val 4, .atom))] : Inputs Nat))) := by
  intro h
  have nc : ∀ n, NoClash sigOpen [("x", .val 1), ("args", .tup [.val 2]), ("kwargs", .dct [("v", .val n)])] := by
    intro n
    refine ⟨fun q hq i p hp => ?_, fun q hq d hd k hk => ?_⟩
    · cases hq
      simp only [sigOpen, List.nil_append, List.append_nil, List.mem_singleton] at hp
      subst hp
      intro he
      exact absurd (congrArg (fun s => s.toList.head?) he) (by simp [idxName])
    · cases hq
      cases hd
      simp only [Dict.keys, List.map_cons, List.map_nil, List.mem_singleton] at hk
      subst hk
      refine ⟨by simp [sigOpen], fun r hr i he => ?_⟩
      cases hr
      exact absurd (congrArg (fun s => s.toList.head?) he) (by simp [idxName])
  have := C04_distinct_calls_partial (fun u v h => encH_inj u v h) idN "f" 0 sigOpen sigOpen_wf [] eqN [.val 1, .val 2] [.val 1, .val 2]
    [("v", .val 3)] [("v", .val 4)] _ _ (by decide) (by decide) rfl rfl (nc 3) (nc 4) _ _ _ _ rfl rfl h (.kw "v")
  revert this
  decide +kernel

-- C23: the old call `f(1, 2)` is now `f(1, 2, seed=NewArgDefault(0))`, with the same inputs
example : ∃ c c' inp, parseArgs sigOpen [] eqN [.val 1] [("v", .val 2)] = .ok (c, inp) ∧
    parseArgs sigSeed [] eqN [.val 1] [("v", .val 2)] = .ok (c', inp) := by
  obtain ⟨b', hb', hx⟩ := C23_old_calls_still_bind rfl sigSeed_adds sigSeed_wf [.val 1] (by decide) [("v", .val 2)]
    [("x", .val 1), ("args", .tup []), ("kwargs", .dct [("v", .val 2)])] rfl
  exact C23_default_keeps_inputs rfl sigSeed_adds sigSeed_wf [] eqN _ _ _ _ _ _ rfl hb' _ hx (Or.inl rfl)

-- `f(1, seed=0, v=2)` as well
example : ∃ c c' inp, parseArgs sigOpen [] eqN [.val 1] [("v", .val 2)] = .ok (c, inp) ∧
    parseArgs sigSeed [] eqN [.val 1] [("seed", .val 0), ("v", .val 2)] = .ok (c', inp) := by
  obtain ⟨b', hb', hx⟩ := C23_old_calls_still_bind rfl sigSeed_adds sigSeed_wf [.val 1] (by decide) [("seed", .val 0), ("v", .val 2)]
    [("x", .val 1), ("args", .tup []), ("kwargs", .dct [("v", .val 2)])] rfl
  exact C23_default_keeps_inputs rfl sigSeed_adds sigSeed_wf [] eqN _ _ _ _ _ _ rfl hb' _ hx (Or.inr (Or.inr rfl))

-- `f(1, seed=5)` is another call than `f(1)` was
example : ∀ inp inp' c c', parseArgs sigOpen [] eqN [.val 1] [] = .ok (c, inp) →
    parseArgs sigSeed [] eqN [.val 1] [("seed", .val 5)] = .ok (c', inp') →
    callId encH "f" 0 (inp.mapVals idN) ≠ callId encH "f" 0 (inp'.mapVals idN) := by
  intro inp inp' c c' h1 h2
  obtain ⟨b', hb', hx⟩ := C23_old_calls_still_bind rfl sigSeed_adds sigSeed_wf [.val 1] (by decide) [("seed", .val 5)]
    [("x", .val 1), ("args", .tup []), ("kwargs", .dct [])] rfl
  refine C23_other_value_is_new (fun u v h => encH_inj u v h) idN "f" 0 rfl sigSeed_adds sigSeed_wf [] (by simp) eqN _ _ _ _ _ _ (by simp [Dict.keys])
    (by simp [Dict.keys]) (by simp [Dict.keys]) ?_ rfl hb' _ hx rfl rfl _ _ _ _ h1 h2
  intro r hr i he
  cases hr
  exact absurd (congrArg (fun s => s.toList.head?) he) (by simp [idxName])

end Props
end Verif
