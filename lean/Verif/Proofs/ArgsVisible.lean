import Verif.Spec.Args
import Verif.Proofs.ArgsInputs
/-!
The inputs of the storage are the visible arguments.
-/
namespace Verif
namespace Args

variable {A : Type}

theorem addVarPos_congr (k : String) (ty : Ty) {vs ws : List (PV A)} (h : All2 SameButMarked vs ws) (inp : Inputs A) :
    addVarPos k ty vs inp = addVarPos k ty ws inp := by
  unfold addVarPos
  generalize 0 = j
  induction h generalizing j inp with
  | nil => rfl
  | cons hx _ ih =>
    rw [List.zipIdx_cons, List.zipIdx_cons, List.foldl_cons, List.foldl_cons]
    rcases hx with rfl | ⟨h1, h2⟩
    · exact ih _ _
    · simp only [h1, h2, if_true]; exact ih _ _

theorem addVarKw_congr (ty : Ty) {d e : Dict String (PV A)} (h : All2 (fun x y => x.1 = y.1 ∧ SameButMarked x.2 y.2) d e) (inp : Inputs A) :
    addVarKw ty d inp = addVarKw ty e inp := by
  unfold addVarKw
  induction h generalizing inp with
  | nil => rfl
  | cons hx _ ih =>
    rw [List.foldl_cons, List.foldl_cons]
    obtain ⟨hk, hx⟩ := hx
    rcases hx with hx | ⟨h1, h2⟩
    · rw [hk, hx]; exact ih _
    · simp only [h1, h2, if_true]; exact ih _

theorem parseLoop_congr (sig : Sig A) (ig : List String) (eqd : PV A → PV A → Bool) {b c : Dict String (PV A)}
    (h : All2 (SameButIgnored sig ig) b c) (inp : Inputs A) :
    (parseLoop sig ig eqd b inp).2 = (parseLoop sig ig eqd c inp).2 := by
  induction h generalizing inp with
  | nil => rfl
  | @cons p q b c hx _ ih =>
    obtain ⟨k, v⟩ := p
    obtain ⟨k', w⟩ := q
    obtain ⟨hk, hx⟩ := hx
    dsimp only at hk hx
    subst hk
    rw [parseLoop, parseLoop]
    have : (parseOne sig ig eqd k v inp).2 = (parseOne sig ig eqd k w inp).2 := by
      rcases hx with ⟨hp, vs, ws, rfl, rfl, ha⟩ | ⟨hp, d, e, rfl, rfl, ha⟩ | ⟨h1, h2, hx⟩
      · cases hq : sig.varPos with
        | none => rw [hq] at hp; simp at hp
        | some q =>
          rw [hq] at hp
          obtain rfl : q.1 = k := by simpa using hp
          rw [parseOne_varPos hq, parseOne_varPos hq]
          exact addVarPos_congr _ _ ha _
      · cases hq : sig.varKw with
        | none => rw [hq] at hp; simp at hp
        | some q =>
          rw [hq] at hp
          obtain rfl : q.1 = k := by simpa using hp
          by_cases hv : sig.varPos.map (·.1) = some q.1
          · unfold parseOne; rw [if_pos hv, if_pos hv]; rfl
          · rw [parseOne_varKw hq hv, parseOne_varKw hq hv]
            exact addVarKw_congr _ ha _
      · rw [parseOne_plain h1 h2, parseOne_plain h1 h2]
        dsimp only
        rw [plainInp_eq, plainInp_eq]
        have : stored sig ig eqd k v = stored sig ig eqd k w := by
          rcases hx with hi | rfl | ⟨i1, i2⟩
          · simp [stored, hi]
          · rfl
          · simp [stored, i1, i2]
        rw [this]
    rw [this]
    exact ih _

/-- What is stored for a parameter is what is visible of it. -/
theorem stored_visible {sig : Sig A} {ig : List String} {eqd : PV A → PV A → Bool} {b : Dict String (PV A)} {n : String} {v : PV A}
    (hn : n ∈ names sig.plain) (hv : b.get? n = some v) :
    stored sig ig eqd n v = (visible sig ig eqd b (.par n)).map fun w => (w, slotTy sig (.par n)) := by
  have hps : sig.posOnly ++ sig.posOrKw ++ sig.kwOnly = sig.plain := rfl
  cases hf : sig.plain.find? (fun p => p.name = n) with
  | none =>
    obtain ⟨p, hp, he⟩ := List.mem_map.mp hn
    have := List.find?_eq_none.mp hf p hp
    simp [he] at this
  | some p =>
    have e1 : slotTy sig (.par n) = p.ty := by unfold slotTy; rw [hps]; simp only [hf]
    have e2 : sig.tyOf n = p.ty := by unfold Sig.tyOf; simp only [hf]
    have e3 : newDefault sig n = match p.default with | some (.newArg d) => some d | _ => none := by
      unfold newDefault; simp only [hf]; rcases p.default with _ | (_ | _ | _ | _ | _) <;> rfl
    have e4 : visible sig ig eqd b (.par n) = if n ∈ ig ∨ v.isIgnore = true then none
      else match p.default with
        | some (.newArg d) => if eqd d v then none else some v
        | _ => some v := by unfold visible; rw [hps]; simp only [hf, hv]; rcases p.default with _ | (_ | _ | _ | _ | _) <;> rfl
    rw [e1, e4]
    unfold stored
    rw [e2, e3]
    by_cases h1 : n ∈ ig ∨ v.isIgnore = true
    · simp [h1]
    · rw [if_neg h1, if_neg h1]
      cases hd : p.default with
      | none => rfl
      | some w =>
        cases w with
        | newArg d => by_cases he : eqd d v <;> simp [he]
        | _ => rfl

/-- The name under which the storage keeps a slot. -/
def slotName (sig : Sig A) : Slot → Option String
  | .par n => if n ∈ names sig.plain then some n else none
  | .star i => sig.varPos.map fun q => idxName q.1 i
  | .kw n => sig.varKw.map fun _ => n

/-- The inputs after the positional parameters, after `*args`, after the keyword-only parameters. -/
def inp1 (sig : Sig A) (ig : List String) (eqd : PV A → PV A → Bool) (V : String → PV A) : Inputs A :=
  (names (sig.posOnly ++ sig.posOrKw)).foldl (fun inp k => plainInp sig ig eqd k (V k) inp) []

def inp2 (sig : Sig A) (ig : List String) (eqd : PV A → PV A → Bool) (V : String → PV A) (vs : List (PV A)) : Inputs A :=
  match sig.varPos with | none => inp1 sig ig eqd V | some q => addVarPos q.1 q.2 vs (inp1 sig ig eqd V)

def inp3 (sig : Sig A) (ig : List String) (eqd : PV A → PV A → Bool) (V : String → PV A) (vs : List (PV A)) : Inputs A :=
  (names sig.kwOnly).foldl (fun inp k => plainInp sig ig eqd k (V k) inp) (inp2 sig ig eqd V vs)

theorem parseLoop_inp {sig : Sig A} (hw : sig.Wf) (ig : List String) (eqd : PV A → PV A → Bool) (V : String → PV A)
    (vs : List (PV A)) (D : Dict String (PV A)) :
    (parseLoop sig ig eqd (boundOf sig V vs D) []).2 =
      match sig.varKw with | none => inp3 sig ig eqd V vs | some q => addVarKw q.2 D (inp3 sig ig eqd V vs) := by
  rw [parseLoop_boundOf_snd hw]; rfl

theorem names_plain (sig : Sig A) (k : String) :
    k ∈ names sig.plain ↔ k ∈ names (sig.posOnly ++ sig.posOrKw) ∨ k ∈ names sig.kwOnly := by
  simp only [names, Sig.plain, List.map_append, List.mem_append]

theorem plain_params {sig : Sig A} {k : String} (hk : k ∈ names sig.plain) : k ∈ sig.params.map (·.1) := by
  rw [names_plain] at hk
  rw [Sig.params_names]
  simp only [names, List.map_append, List.mem_append] at hk ⊢
  rcases hk with (h | h) | h
  · exact Or.inl (Or.inl (Or.inl (Or.inl h)))
  · exact Or.inl (Or.inl (Or.inl (Or.inr h)))
  · exact Or.inl (Or.inr h)

/-- The inputs after the keyword-only parameters, at a name that is no name of an element of `*args`. -/
theorem get?_inp3_ne (sig : Sig A) (ig : List String) (eqd : PV A → PV A → Bool) (V : String → PV A) (vs : List (PV A)) (n : String)
    (h : ∀ q, sig.varPos = some q → ∀ i, n ≠ idxName q.1 i) :
    (inp3 sig ig eqd V vs).get? n = if n ∈ names sig.plain then stored sig ig eqd n (V n) else none := by
  have e1 : (inp2 sig ig eqd V vs).get? n = (inp1 sig ig eqd V).get? n := by
    unfold inp2
    cases hq : sig.varPos with
    | none => rfl
    | some q => exact get?_addVarPos_ne _ _ _ _ _ (h q hq)
  unfold inp3
  rw [get?_foldPlain, e1, inp1, get?_foldPlain]
  have := names_plain sig n
  by_cases h1 : n ∈ names (sig.posOnly ++ sig.posOrKw) <;> by_cases h2 : n ∈ names sig.kwOnly <;>
    simp only [this, h1, h2, if_true, if_false, or_true, or_false, Dict.get?_nil, Option.or_none, Option.none_or]
  cases stored sig ig eqd n (V n) <;> rfl

theorem get?_inp3_idx (sig : Sig A) (ig : List String) (eqd : PV A → PV A → Bool) (V : String → PV A) (vs : List (PV A))
    {q : String × Ty} (hq : sig.varPos = some q) (i : Nat) (h : idxName q.1 i ∉ names sig.plain) :
    (inp3 sig ig eqd V vs).get? (idxName q.1 i) = (vs[i]?).bind (storedVar q.2) := by
  rw [names_plain] at h
  unfold inp3
  rw [get?_foldPlain, if_neg (fun hh => h (Or.inr hh)), Option.none_or]
  unfold inp2
  simp only [hq]
  rw [get?_addVarPos_idx, inp1, get?_foldPlain, if_neg (fun hh => h (Or.inl hh))]
  simp

/-- Without name clashes, the inputs of the storage are the visible arguments. -/
theorem inputs_visible {sig : Sig A} (hw : sig.Wf) (ig : List String) (eqd : PV A → PV A → Bool) (V : String → PV A)
    (vs : List (PV A)) (D : Dict String (PV A)) (hDn : D.keys.Nodup) (hc : NoClash sig (boundOf sig V vs D)) (s : Slot) :
    match slotName sig s with
    | none => visible sig ig eqd (boundOf sig V vs D) s = none
    | some n => (∀ m, s = .kw m → (∀ k, k ∈ names sig.plain → k ≠ m) ∧ ∀ q, sig.varPos = some q → ∀ i, m ≠ idxName q.1 i) →
        (parseLoop sig ig eqd (boundOf sig V vs D) []).2.get? n =
          (visible sig ig eqd (boundOf sig V vs D) s).map fun v => (v, slotTy sig s) := by
  obtain ⟨c1, c2⟩ := hc
  rw [parseLoop_inp hw]
  have hpl : ∀ q, sig.varPos = some q → ∀ i, idxName q.1 i ∉ names sig.plain := by
    intro q hq i hk
    obtain ⟨p, hp, he⟩ := List.mem_map.mp hk
    exact c1 q hq i p hp he
  -- a name that is no key of `**kwargs`
  have hkw : ∀ n, (∀ q, sig.varKw = some q → n ∉ D.keys) →
      Dict.get? (match sig.varKw with | none => inp3 sig ig eqd V vs | some q => addVarKw q.2 D (inp3 sig ig eqd V vs)) n =
        (inp3 sig ig eqd V vs).get? n := by
    intro n hn
    cases hk : sig.varKw with
    | none => rfl
    | some q =>
      dsimp only
      rw [get?_addVarKw _ _ hDn, Dict.get?_eq_none.mpr (hn q hk)]; rfl
  cases s with
  | par n =>
    unfold slotName
    by_cases hn : n ∈ names sig.plain
    · simp only [hn, if_true]
      intro _
      rw [← stored_visible (ig := ig) (eqd := eqd) hn (get?_boundOf_plain hw V vs D hn), hkw n, get?_inp3_ne, if_pos hn]
      · intro q hq i he
        exact hpl q hq i (he ▸ hn)
      · intro q hq hk
        obtain ⟨p, hp, he⟩ := List.mem_map.mp hn
        exact (c2 q hq D (get?_boundOf_varKw hw V vs D hq) n hk).1 p hp he
    · simp only [hn, if_false]
      have hps : sig.posOnly ++ sig.posOrKw ++ sig.kwOnly = sig.plain := rfl
      have : sig.plain.find? (fun p => p.name = n) = none := by
        rw [List.find?_eq_none]
        intro p hp
        simp only [decide_eq_true_eq]
        rintro rfl
        exact hn (mem_names hp)
      unfold visible
      rw [hps]
      simp only [this]
  | star i =>
    unfold slotName
    cases hq : sig.varPos with
    | none => simp [visible, hq]
    | some q =>
      simp only [Option.map_some]
      intro _
      have e2 : (visible sig ig eqd (boundOf sig V vs D) (.star i)).map (fun v => (v, slotTy sig (.star i))) =
          (vs[i]?).bind (storedVar q.2) := by
        simp only [visible, hq, get?_boundOf_varPos hw V vs D hq, slotTy, Option.map_some, Option.getD_some]
        cases vs[i]? with
        | none => rfl
        | some v =>
          simp only [Option.bind_some, storedVar]
          cases v.isIgnore <;> simp
      rw [e2, hkw, get?_inp3_idx _ _ _ _ _ hq _ (hpl q hq i)]
      intro r hr hm
      exact (c2 r hr D (get?_boundOf_varKw hw V vs D hr) _ hm).2 q hq i rfl
  | kw m =>
    unfold slotName
    cases hk : sig.varKw with
    | none => simp [visible, hk]
    | some r =>
      simp only [Option.map_some]
      intro hm
      obtain ⟨hm1, hm2⟩ := hm m rfl
      rw [get?_addVarKw _ _ hDn, get?_inp3_ne _ _ _ _ _ _ hm2, if_neg (fun h => hm1 _ h rfl)]
      simp only [visible, hk, get?_boundOf_varKw hw V vs D hk, slotTy, Option.map_some, Option.getD_some]
      cases D.get? m with
      | none => rfl
      | some v =>
        simp only [Option.bind_some, storedVar]
        cases v.isIgnore <;> simp

end Args

end Verif
