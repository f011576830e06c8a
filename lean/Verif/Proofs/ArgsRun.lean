import Verif.Proofs.Args
/-!
What the function body receives.
-/
namespace Verif
namespace Args

variable {A : Type}

/-- The value that `parse_args` puts back into the bound arguments for an ordinary parameter. -/
def plainNew (sig : Sig A) (ig : List String) (eqd : PV A → PV A → Bool) (k : String) (v : PV A) : PV A :=
  let v := if k ∈ ig then .ignore v else v
  if v.isIgnore then v.strip
  else match newDefault sig k with
    | some d => if eqd d v then d else v
    | none => v

theorem parseOne_varPos {sig : Sig A} {q : String × Ty} (hq : sig.varPos = some q) (ig : List String) (eqd : PV A → PV A → Bool)
    (vs : List (PV A)) (inp : Inputs A) :
    parseOne sig ig eqd q.1 (.tup vs) inp = (.tup (vs.map PV.strip), addVarPos q.1 q.2 vs inp) := by
  simp [parseOne, hq, PV.elems]

theorem parseOne_varKw {sig : Sig A} {q : String × Ty} (hq : sig.varKw = some q) (hne : sig.varPos.map (·.1) ≠ some q.1)
    (ig : List String) (eqd : PV A → PV A → Bool) (D : Dict String (PV A)) (inp : Inputs A) :
    parseOne sig ig eqd q.1 (.dct D) inp = (.dct (D.mapVals PV.strip), addVarKw q.2 D inp) := by
  unfold parseOne
  rw [if_neg hne]
  simp [hq, PV.entries]

/-- The inputs `parse_args` adds for an ordinary parameter. -/
def plainInp (sig : Sig A) (ig : List String) (eqd : PV A → PV A → Bool) (k : String) (v : PV A) (inp : Inputs A) : Inputs A :=
  let v := if k ∈ ig then .ignore v else v
  if v.isIgnore then inp
  else match newDefault sig k with
    | some d => if eqd d v then inp else inp.set k (v, sig.tyOf k)
    | none => inp.set k (v, sig.tyOf k)

theorem parseOne_plain {sig : Sig A} {k : String} (h1 : sig.varPos.map (·.1) ≠ some k) (h2 : sig.varKw.map (·.1) ≠ some k)
    (ig : List String) (eqd : PV A → PV A → Bool) (v : PV A) (inp : Inputs A) :
    parseOne sig ig eqd k v inp = (plainNew sig ig eqd k v, plainInp sig ig eqd k v inp) := by
  unfold parseOne plainNew plainInp
  rw [if_neg h1, if_neg h2]
  dsimp only
  generalize (if k ∈ ig then PV.ignore v else v) = w
  by_cases hi : w.isIgnore
  · simp [hi]
  · rw [if_neg hi, if_neg hi, if_neg hi]
    cases newDefault sig k with
    | none => rfl
    | some d => dsimp only; split <;> rfl

theorem parseLoop_append (sig : Sig A) (ig : List String) (eqd : PV A → PV A → Bool) (b c : Dict String (PV A)) (inp : Inputs A) :
    parseLoop sig ig eqd (b ++ c) inp =
      ((parseLoop sig ig eqd b inp).1 ++ (parseLoop sig ig eqd c (parseLoop sig ig eqd b inp).2).1,
        (parseLoop sig ig eqd c (parseLoop sig ig eqd b inp).2).2) := by
  induction b generalizing inp with
  | nil => simp [parseLoop]
  | cons p b ih =>
    obtain ⟨k, v⟩ := p
    rw [List.cons_append, parseLoop]
    simp only [ih]
    rfl

theorem parseLoop_tag {sig : Sig A} (ig : List String) (eqd : PV A → PV A → Bool) (V : String → PV A) (ps : List (Param A))
    (inp : Inputs A) (h1 : ∀ k ∈ names ps, sig.varPos.map (·.1) ≠ some k) (h2 : ∀ k ∈ names ps, sig.varKw.map (·.1) ≠ some k) :
    parseLoop sig ig eqd (tag V ps) inp =
      (tag (fun k => plainNew sig ig eqd k (V k)) ps,
        (names ps).foldl (fun inp k => plainInp sig ig eqd k (V k) inp) inp) := by
  induction ps generalizing inp with
  | nil => rfl
  | cons p ps ih =>
    have e : tag V (p :: ps) = (p.name, V p.name) :: tag V ps := rfl
    rw [e, parseLoop, parseOne_plain (h1 p.name (by simp [names])) (h2 p.name (by simp [names])),
      ih _ (fun k hk => h1 k (by simp only [names, List.map_cons, List.mem_cons] at hk ⊢; exact Or.inr hk))
        (fun k hk => h2 k (by simp only [names, List.map_cons, List.mem_cons] at hk ⊢; exact Or.inr hk))]
    rfl

theorem Sig.Wf.varPos_ne {sig : Sig A} (hw : sig.Wf) {k : String} (hk : k ∈ names sig.plain) : sig.varPos.map (·.1) ≠ some k := by
  unfold Sig.Wf at hw
  rw [Sig.params_names] at hw
  simp only [names, Sig.plain, List.map_append, List.mem_append] at hk
  cases hv : sig.varPos with
  | none => simp
  | some q =>
    simp only [hv, Option.toList, List.map_cons, List.map_nil, names, List.nodup_append, List.mem_append] at hw
    simp only [Option.map_some, ne_eq, Option.some.injEq]
    rintro rfl
    rcases hk with (hk | hk) | hk
    · exact hw.1.1.2.2 q.1 (Or.inl hk) q.1 (by simp) rfl
    · exact hw.1.1.2.2 q.1 (Or.inr hk) q.1 (by simp) rfl
    · exact hw.1.2.2 q.1 (Or.inr (by simp)) q.1 hk rfl

theorem Sig.Wf.varKw_ne {sig : Sig A} (hw : sig.Wf) {k : String} (hk : k ∈ names sig.plain) : sig.varKw.map (·.1) ≠ some k := by
  unfold Sig.Wf at hw
  rw [Sig.params_names] at hw
  simp only [names, Sig.plain, List.map_append, List.mem_append] at hk
  cases hv : sig.varKw with
  | none => simp
  | some q =>
    simp only [hv, Option.toList, List.map_cons, List.map_nil, names, List.nodup_append, List.mem_append] at hw
    simp only [Option.map_some, ne_eq, Option.some.injEq]
    rintro rfl
    rcases hk with (hk | hk) | hk
    · exact hw.2.2 q.1 (Or.inl (Or.inl (Or.inl hk))) q.1 (by simp) rfl
    · exact hw.2.2 q.1 (Or.inl (Or.inl (Or.inr hk))) q.1 (by simp) rfl
    · exact hw.2.2 q.1 (Or.inr hk) q.1 (by simp) rfl

theorem Sig.Wf.var_ne {sig : Sig A} (hw : sig.Wf) {q : String × Ty} (hq : sig.varKw = some q) : sig.varPos.map (·.1) ≠ some q.1 := by
  unfold Sig.Wf at hw
  rw [Sig.params_names] at hw
  cases hv : sig.varPos with
  | none => simp
  | some r =>
    simp only [hv, hq, Option.toList, List.map_cons, List.map_nil, List.nodup_append, List.mem_append] at hw
    simp only [Option.map_some, ne_eq, Option.some.injEq]
    intro he
    exact hw.2.2 r.1 (Or.inl (Or.inr (by simp))) q.1 (by simp) he

theorem parseLoop_boundOf_fst {sig : Sig A} (hw : sig.Wf) (ig : List String) (eqd : PV A → PV A → Bool) (V : String → PV A)
    (vs : List (PV A)) (D : Dict String (PV A)) (inp : Inputs A) :
    (parseLoop sig ig eqd (boundOf sig V vs D) inp).1 =
      boundOf sig (fun k => plainNew sig ig eqd k (V k)) (vs.map PV.strip) (D.mapVals PV.strip) := by
  have hp : ∀ ps : List (Param A), (∀ p ∈ ps, p ∈ sig.plain) → ∀ inp, (parseLoop sig ig eqd (tag V ps) inp).1 =
      tag (fun k => plainNew sig ig eqd k (V k)) ps := by
    intro ps hps inp
    rw [parseLoop_tag]
    · intro k hk
      obtain ⟨p, hp, rfl⟩ := List.mem_map.mp hk
      exact hw.varPos_ne (mem_names (hps p hp))
    · intro k hk
      obtain ⟨p, hp, rfl⟩ := List.mem_map.mp hk
      exact hw.varKw_ne (mem_names (hps p hp))
  unfold boundOf
  simp only [parseLoop_append]
  rw [hp sig.posOnly (by simp +contextual [Sig.plain]), hp sig.posOrKw (by simp +contextual [Sig.plain]),
    hp sig.kwOnly (by simp +contextual [Sig.plain])]
  congr 1
  · congr 1
    congr 1
    cases hv : sig.varPos with
    | none => simp [parseLoop]
    | some q => simp [parseLoop, parseOne_varPos hv]
  · cases hv : sig.varKw with
    | none => simp [parseLoop]
    | some q => simp [parseLoop, parseOne_varKw hv (hw.var_ne hv)]

/-! ### Passing on the keywords -/

theorem moveKeys_spec (sig : Sig A) (D : Dict String (PV A)) (keys : List String) (b kwargs : Dict String (PV A))
    (hk : keys.Nodup)
    (hD : ∀ q, sig.varKw = some q → b.get? q.1 = some (.dct D))
    (h : ∀ k ∈ keys, ((∃ v, b.get? k = some v) ∧ sig.varKw.map (·.1) ≠ some k) ∨
      (b.get? k = none ∧ sig.varKw.isSome ∧ ∃ v, D.get? k = some v)) :
    ∃ b' kwargs', moveKeys sig keys b kwargs = .ok (b', kwargs') ∧
      (∀ k, sig.varKw.map (·.1) ≠ some k → b'.get? k = if k ∈ keys then none else b.get? k) ∧
      (∀ q, sig.varKw = some q → ∃ D', b'.get? q.1 = some (.dct D') ∧
        ∀ k, Dict.get? D' k = if k ∈ keys ∧ b.get? k = none then none else D.get? k) ∧
      (∀ k, kwargs'.get? k = if k ∈ keys then (match b.get? k with | some v => some v | none => D.get? k) else kwargs.get? k) ∧
      (kwargs.keys.Nodup → kwargs'.keys.Nodup) := by
  induction keys generalizing D b kwargs with
  | nil =>
    refine ⟨b, kwargs, rfl, by simp, fun q hq => ⟨D, hD q hq, by simp⟩, by simp, id⟩
  | cons k keys ih =>
    rw [List.nodup_cons] at hk
    rcases h k (by simp) with ⟨⟨v, hv⟩, hne⟩ | ⟨hn, hs, v, hv⟩
    · obtain ⟨b', kw', e, i1, i2, i3, i4⟩ := ih D (b.erase k) (kwargs.set k v) hk.2
        (fun q hq => by
          rw [Dict.get?_erase, if_neg, hD q hq]
          rintro rfl; rw [hq] at hne; simp at hne)
        (fun j hj => by
          have hjk : k ≠ j := fun he => hk.1 (he ▸ hj)
          rw [Dict.get?_erase, if_neg hjk]
          exact h j (by simp [hj]))
      refine ⟨b', kw', by rw [moveKeys, hv]; exact e, ?_, ?_, ?_, fun hh => i4 (Dict.nodup_set hh k v)⟩
      · intro j hj
        rw [i1 j hj, Dict.get?_erase]
        by_cases hjk : k = j
        · subst hjk; simp
        · simp [hjk, Ne.symm hjk]
      · intro q hq
        obtain ⟨D', e1, e2⟩ := i2 q hq
        refine ⟨D', e1, fun j => ?_⟩
        rw [e2 j, Dict.get?_erase]
        by_cases hjk : k = j
        · subst hjk; simp [hk.1, hv]
        · simp [hjk, Ne.symm hjk]
      · intro j
        rw [i3 j, Dict.get?_erase, Dict.get?_set]
        by_cases hjk : k = j
        · subst hjk; simp [hk.1, hv]
        · simp [hjk, Ne.symm hjk]
    · obtain ⟨q, hq⟩ := Option.isSome_iff_exists.mp hs
      have hqk : q.1 ≠ k := by rintro rfl; rw [hD q hq] at hn; simp at hn
      obtain ⟨b', kw', e, i1, i2, i3, i4⟩ := ih (D.erase k) (b.set q.1 (.dct (D.erase k))) (kwargs.set k v) hk.2
        (fun r hr => by
          have : r = q := by rw [hq] at hr; exact (Option.some.inj hr).symm
          rw [this, Dict.get?_set_self])
        (fun j hj => by
          have hjk : k ≠ j := fun he => hk.1 (he ▸ hj)
          rw [Dict.get?_set, Dict.get?_erase, if_neg hjk]
          rcases h j (by simp [hj]) with ⟨⟨w, hw⟩, hne⟩ | ⟨hn', hs', hw⟩
          · refine Or.inl ⟨?_, hne⟩
            split
            · exact ⟨_, rfl⟩
            · exact ⟨w, hw⟩
          · refine Or.inr ⟨?_, hs', hw⟩
            rw [if_neg]; exact hn'
            rintro rfl; rw [hD q hq] at hn'; simp at hn')
      refine ⟨b', kw', ?_, ?_, ?_, ?_, fun hh => i4 (Dict.nodup_set hh k v)⟩
      · rw [moveKeys, hn]
        dsimp only
        rw [hq]
        dsimp only
        rw [hD q hq]
        simp only [PV.entries, hv]
        exact e
      · intro j hj
        have hqj : q.1 ≠ j := by rintro rfl; rw [hq] at hj; simp at hj
        rw [i1 j hj, Dict.get?_set, if_neg hqj]
        by_cases hjk : k = j
        · subst hjk; simp [hk.1, hn]
        · simp [Ne.symm hjk]
      · intro r hr
        have hrq : r = q := by rw [hq] at hr; exact (Option.some.inj hr).symm
        subst hrq
        obtain ⟨D', e1, e2⟩ := i2 r hr
        refine ⟨D', e1, fun j => ?_⟩
        rw [e2 j, Dict.get?_set, Dict.get?_erase]
        by_cases hjk : k = j
        · subst hjk; simp [hk.1, hn]
        · by_cases hrj : r.1 = j
          · subst hrj; simp [hjk, hD r hr]
          · simp [hjk, Ne.symm hjk, hrj]
      · intro j
        rw [i3 j, Dict.get?_set, Dict.get?_set, Dict.get?_erase]
        by_cases hjk : k = j
        · subst hjk; simp [hk.1, hn, hv]
        · by_cases hrj : q.1 = j
          · subst hrj
            rw [hD q hq]
            by_cases hm : q.1 ∈ keys
            · rcases h q.1 (by simp [hm]) with ⟨_, hne⟩ | ⟨hn', _⟩
              · rw [hq] at hne; simp at hne
              · rw [hD q hq] at hn'; simp at hn'
            · simp [hm, Ne.symm hjk, hjk]
          · simp [hjk, Ne.symm hjk, hrj]

/-- Entries of the bound arguments that `kwargs` passes by name. -/
def leftover (d : Dict String (PV A)) (ns : List String) : Dict String (PV A) := ns.filterMap fun n => (d.get? n).map fun v => (n, v)

theorem leftover_cons (d : Dict String (PV A)) (n : String) (ns : List String) :
    leftover d (n :: ns) = match d.get? n with | none => leftover d ns | some v => (n, v) :: leftover d ns := by
  unfold leftover
  rw [List.filterMap_cons]
  cases d.get? n <;> rfl

theorem get?_leftover (d : Dict String (PV A)) (ns : List String) (k : String) :
    (leftover d ns).get? k = if k ∈ ns then d.get? k else none := by
  induction ns with
  | nil => simp [leftover]
  | cons n ns ih =>
    rw [leftover_cons]
    cases hg : d.get? n with
    | none =>
      dsimp only
      rw [ih]
      by_cases h : k = n
      · subst h; simp [hg]
      · simp [h]
    | some v =>
      dsimp only
      rw [Dict.get?_cons, ih]
      by_cases h : n = k
      · subst h; simp [hg]
      · simp [h, Ne.symm h]

theorem nodup_leftover (d : Dict String (PV A)) {ns : List String} (h : ns.Nodup) : (leftover d ns).keys.Nodup := by
  induction ns with
  | nil => simp [leftover, Dict.keys]
  | cons n ns ih =>
    rw [List.nodup_cons] at h
    rw [leftover_cons]
    cases hg : d.get? n with
    | none => exact ih h.2
    | some v =>
      simp only [Dict.keys, List.map_cons, List.nodup_cons]
      refine ⟨?_, ih h.2⟩
      intro hm
      have := Dict.mem_keys.mp (show n ∈ (leftover d ns).keys from hm)
      obtain ⟨w, hw⟩ := this
      rw [get?_leftover, if_neg h.1] at hw
      simp at hw

theorem boundKwargs_true (d : Dict String (PV A)) (ps : List (String × PKind)) (tail : List (String × PKind)) (acc : Dict String (PV A))
    (hps : ∀ p ∈ ps, p.2 ≠ .varKw) :
    boundKwargs d true (ps ++ tail) acc = boundKwargs d true tail (acc.update (leftover d (ps.map (·.1)))) := by
  induction ps generalizing acc with
  | nil => simp [leftover, Dict.update]
  | cons p ps ih =>
    obtain ⟨n, k⟩ := p
    have hk : k ≠ .varKw := hps (n, k) (by simp)
    rw [List.cons_append, List.map_cons, leftover_cons, boundKwargs]
    cases hg : d.get? n with
    | none => exact ih acc (fun q hq => hps q (by simp [hq]))
    | some v =>
      dsimp only
      rw [if_neg hk, ih _ (fun q hq => hps q (by simp [hq]))]
      rfl

theorem boundKwargs_skip (d : Dict String (PV A)) (ps tail : List (String × PKind)) (acc : Dict String (PV A))
    (hps : ∀ p ∈ ps, (p.2 = .pos ∨ p.2 = .varPos) ∧ d.has p.1 = true) :
    boundKwargs d false (ps ++ tail) acc = boundKwargs d false tail acc := by
  induction ps generalizing acc with
  | nil => rfl
  | cons p ps ih =>
    obtain ⟨n, k⟩ := p
    obtain ⟨hk, hh⟩ := hps (n, k) (by simp)
    dsimp only at hk hh
    rw [List.cons_append]
    rcases hk with rfl | rfl <;> rw [boundKwargs.eq_def]
    · simp only [hh, if_true]; exact ih acc (fun q hq => hps q (by simp [hq]))
    · simp only [hh, if_true]; exact ih acc (fun q hq => hps q (by simp [hq]))

theorem boundArgs_pos (d : Dict String (PV A)) (V : String → PV A) (ps : List (Param A)) (tail : List (String × PKind))
    (hps : ∀ p ∈ ps, d.get? p.name = some (V p.name)) :
    boundArgs d ((ps.map fun p => (p.name, PKind.pos)) ++ tail) = ps.map (fun p => V p.name) ++ boundArgs d tail := by
  induction ps with
  | nil => rfl
  | cons p ps ih =>
    rw [List.map_cons, List.cons_append, boundArgs]
    simp only [hps p (by simp), List.map_cons, List.cons_append]
    rw [ih (fun q hq => hps q (by simp [hq]))]

theorem boundKwargs_start (d : Dict String (PV A)) (n : String) (tail : List (String × PKind)) (acc : Dict String (PV A))
    (h : d.has n = false) : boundKwargs d false ((n, .pos) :: tail) acc = boundKwargs d true tail acc := by
  simp [boundKwargs, h]

theorem boundKwargs_kwOnly (d : Dict String (PV A)) (ps : List (Param A)) (tail : List (String × PKind)) (acc : Dict String (PV A))
    (htail : boundKwargs d false tail acc = boundKwargs d true tail acc) :
    boundKwargs d false ((ps.map fun p => (p.name, PKind.kwOnly)) ++ tail) acc =
      boundKwargs d true tail (acc.update (leftover d (names ps))) := by
  cases ps with
  | nil => simpa [names, leftover, Dict.update] using htail
  | cons p ps =>
    rw [List.map_cons, List.cons_append, boundKwargs, boundKwargs_true d (ps.map fun p => (p.name, PKind.kwOnly)) tail _ (by simp)]
    simp only [List.map_map, Function.comp_def, names, List.map_cons]
    rw [leftover_cons]
    cases d.get? p.name <;> rfl

theorem boundKwargs_varKw_start (d : Dict String (PV A)) (o : Option (String × Ty)) (acc : Dict String (PV A)) :
    boundKwargs d false (o.toList.map fun q => (q.1, PKind.varKw)) acc =
      boundKwargs d true (o.toList.map fun q => (q.1, PKind.varKw)) acc := by
  cases o with
  | none => rfl
  | some q =>
    simp only [Option.toList, List.map_cons, List.map_nil, boundKwargs]
    cases d.get? q.1 <;> simp

theorem boundKwargs_varKw (d : Dict String (PV A)) (o : Option (String × Ty)) (acc : Dict String (PV A))
    (h : ∀ q, o = some q → d.get? q.1 = some (.dct [])) :
    boundKwargs d true (o.toList.map fun q => (q.1, PKind.varKw)) acc = acc := by
  cases o with
  | none => rfl
  | some q => simp [boundKwargs, h q rfl, PV.entries, Dict.update]

theorem nodup_update (d e : Dict String (PV A)) (hd : d.keys.Nodup) : (d.update e).keys.Nodup := by
  induction e generalizing d with
  | nil => exact hd
  | cons p e ih => exact ih (d.set p.1 p.2) (Dict.nodup_set hd _ _)

theorem update_nil (e : Dict String (PV A)) (he : e.keys.Nodup) (k : String) : (Dict.update [] e).get? k = e.get? k := by
  rw [Dict.get?_update _ _ he]
  cases e.get? k <;> simp

theorem get?_of_empty {d : Dict String (PV A)} (h : ∀ k, d.get? k = none) : d = [] := by
  cases d with
  | nil => rfl
  | cons p d =>
    have := h p.1
    rw [Dict.get?_cons, if_pos rfl] at this
    simp at this

/-- Split at the first parameter whose name is among the keys. -/
theorem split_keys (ps : List (Param A)) (keys : List String) : ∃ as bs, ps = as ++ bs ∧ (∀ p ∈ as, p.name ∉ keys) ∧
    (∀ p qs, bs = p :: qs → p.name ∈ keys) := by
  induction ps with
  | nil => exact ⟨[], [], rfl, by simp, by simp⟩
  | cons p ps ih =>
    by_cases h : p.name ∈ keys
    · refine ⟨[], p :: ps, rfl, by simp, ?_⟩
      intro q qs e
      simp only [List.cons.injEq] at e
      rw [← e.1]; exact h
    · obtain ⟨as, bs, rfl, h1, h2⟩ := ih
      refine ⟨p :: as, bs, rfl, ?_, h2⟩
      intro q hq
      rcases List.mem_cons.mp hq with rfl | hq
      · exact h
      · exact h1 q hq

/-- In run mode, the body receives what is in the bound arguments, under conditions on what was passed by keyword. -/
theorem runArgs_bind {sig : Sig A} (hw : sig.Wf) (V : String → PV A) (vs : List (PV A)) (D : Dict String (PV A))
    (keys : List String) (hkeys : keys.Nodup) (hvs : sig.varPos = none → vs = [])
    (hpo : ∀ k ∈ keys, k ∉ names sig.posOnly) (hvp : ∀ k ∈ keys, sig.varPos.map (·.1) ≠ some k)
    (hvk : ∀ k ∈ keys, sig.varKw.map (·.1) ≠ some k)
    (hpk : sig.varPos.isSome → ∀ k ∈ keys, k ∉ names sig.posOrKw)
    (hin : ∀ k ∈ keys, k ∈ names (sig.posOrKw ++ sig.kwOnly) ∨ (sig.varKw.isSome ∧ ∃ v, D.get? k = some v))
    (hD : ∀ k v, D.get? k = some v → k ∈ keys ∧ k ∉ names (sig.posOrKw ++ sig.kwOnly)) :
    ∃ args kwargs D', runArgs sig keys (boundOf sig V vs D) = .ok (args, kwargs) ∧
      bind sig args kwargs = .ok (boundOf sig V vs D') ∧ ∀ k, D'.get? k = D.get? k := by
  have hn := hw
  unfold Sig.Wf at hn
  rw [Sig.params_names] at hn
  -- the keywords that are not parameters
  have hnone : ∀ k ∈ keys, k ∉ names (sig.posOrKw ++ sig.kwOnly) → (boundOf sig V vs D).get? k = none := by
    intro k hk hnk
    apply get?_boundOf_none
    rw [Sig.params_names]
    simp only [names, List.map_append, List.mem_append, not_or] at hnk
    simp only [List.mem_append, not_or]
    refine ⟨⟨⟨⟨hpo k hk, hnk.1⟩, ?_⟩, hnk.2⟩, ?_⟩
    · intro hm
      obtain ⟨q, hq, rfl⟩ := List.mem_map.mp hm
      exact hvp q.1 hk (by rw [Option.mem_toList.mp hq]; rfl)
    · intro hm
      obtain ⟨q, hq, rfl⟩ := List.mem_map.mp hm
      exact hvk q.1 hk (by rw [Option.mem_toList.mp hq]; rfl)
  have hplain : ∀ k ∈ names (sig.posOrKw ++ sig.kwOnly), k ∈ names sig.plain := by
    intro k hk
    simp only [names, Sig.plain, List.map_append, List.mem_append] at hk ⊢
    rcases hk with hk | hk
    · exact Or.inl (Or.inr hk)
    · exact Or.inr hk
  obtain ⟨b', kw', e, i1, i2, i3, i4⟩ := moveKeys_spec sig D keys (boundOf sig V vs D) [] hkeys
    (fun q hq => get?_boundOf_varKw hw V vs D hq)
    (fun k hk => by
      by_cases hm : k ∈ names (sig.posOrKw ++ sig.kwOnly)
      · exact Or.inl ⟨⟨V k, get?_boundOf_plain hw V vs D (hplain k hm)⟩, hvk k hk⟩
      · rcases hin k hk with h | ⟨h1, h2⟩
        · exact absurd h hm
        · exact Or.inr ⟨hnone k hk hm, h1, h2⟩)
  have i4 := i4 (by simp [Dict.keys])
  -- the bound arguments that are left
  have hb' : ∀ k ∈ names sig.plain, b'.get? k = if k ∈ keys then none else some (V k) := by
    intro k hk
    rw [i1 k (hw.varKw_ne hk), get?_boundOf_plain hw V vs D hk]
  have hbvp : ∀ q, sig.varPos = some q → b'.get? q.1 = some (.tup vs) := by
    intro q hq
    rw [i1 q.1, get?_boundOf_varPos hw V vs D hq, if_neg]
    · intro hm; exact hvp q.1 hm (by rw [hq]; rfl)
    · intro hh
      cases hvk' : sig.varKw with
      | none => rw [hvk'] at hh; simp at hh
      | some r =>
        rw [hvk'] at hh
        simp only [Option.map_some, Option.some.injEq] at hh
        apply hw.var_ne hvk'
        rw [hq, hh]; rfl
  have hbvk : ∀ q, sig.varKw = some q → b'.get? q.1 = some (.dct []) := by
    intro q hq
    obtain ⟨D', e1, e2⟩ := i2 q hq
    have : D' = [] := get?_of_empty (fun k => by
      rw [e2 k]
      cases hk : D.get? k with
      | none => simp
      | some v =>
        obtain ⟨h1, h2⟩ := hD k v hk
        rw [if_pos ⟨h1, hnone k h1 h2⟩])
    rw [e1, this]
  -- what was moved
  have hmoved : ∀ k, kw'.get? k = if k ∈ keys then (if k ∈ names (sig.posOrKw ++ sig.kwOnly) then some (V k) else D.get? k) else none := by
    intro k
    rw [i3 k]
    by_cases hk : k ∈ keys
    · rw [if_pos hk, if_pos hk]
      by_cases hm : k ∈ names (sig.posOrKw ++ sig.kwOnly)
      · rw [get?_boundOf_plain hw V vs D (hplain k hm), if_pos hm]
      · rw [hnone k hk hm, if_neg hm]
    · rw [if_neg hk, if_neg hk]; rfl
  -- split the ordinary parameters at the first one passed by keyword
  obtain ⟨as, bs, hsplit, has, hbs⟩ := split_keys sig.posOrKw keys
  have hbsvp : sig.varPos.isSome → bs = [] := by
    intro hs
    cases hb : bs with
    | nil => rfl
    | cons p ps =>
      exfalso
      refine hpk hs p.name (hbs p ps hb) ?_
      rw [hsplit, hb]
      simp [names]
  have hasn : ∀ p ∈ as, p.name ∈ names sig.plain := by
    intro p hp
    refine mem_names ?_
    simp [Sig.plain, hsplit, hp]
  have hpon : ∀ p ∈ sig.posOnly, b'.get? p.name = some (V p.name) := by
    intro p hp
    have hm : p.name ∈ names sig.posOnly := mem_names hp
    rw [hb' p.name (mem_names (by simp [Sig.plain, hp])), if_neg]
    intro hh
    exact hpo p.name hh hm
  have hasb : ∀ p ∈ as, b'.get? p.name = some (V p.name) := by
    intro p hp
    rw [hb' p.name (hasn p hp), if_neg (has p hp)]
  -- positional arguments
  have hparams : sig.params = (sig.posOnly.map fun p => (p.name, PKind.pos)) ++ ((as.map fun p => (p.name, PKind.pos)) ++
      ((bs.map fun p => (p.name, PKind.pos)) ++ ((sig.varPos.toList.map fun q => (q.1, PKind.varPos)) ++
      ((sig.kwOnly.map fun p => (p.name, PKind.kwOnly)) ++ (sig.varKw.toList.map fun q => (q.1, PKind.varKw)))))) := by
    unfold Sig.params
    rw [hsplit]
    simp
  have htailA : ∀ o : Option (String × Ty), boundArgs b' ((sig.kwOnly.map fun p => (p.name, PKind.kwOnly)) ++
      (o.toList.map fun q => (q.1, PKind.varKw))) = [] := by
    intro o
    cases sig.kwOnly with
    | cons p ps => simp [boundArgs]
    | nil => cases o <;> simp [boundArgs]
  have hargs : boundArgs b' sig.params = sig.posOnly.map (fun p => V p.name) ++ (as.map (fun p => V p.name) ++ vs) := by
    rw [hparams, boundArgs_pos b' V _ _ hpon, boundArgs_pos b' V _ _ hasb]
    congr 2
    cases hb : bs with
    | nil =>
      cases hv : sig.varPos with
      | none => simp only [List.map_nil, Option.toList_none, List.nil_append]; rw [htailA, hvs hv]
      | some q =>
        simp only [List.map_nil, Option.toList_some, List.nil_append, List.map_cons, List.cons_append]
        rw [boundArgs.eq_def]
        simp only [hbvp q hv, PV.elems]
        rw [htailA]; simp
    | cons p ps =>
      have hv : sig.varPos = none := by
        cases hv : sig.varPos with
        | none => rfl
        | some q => have := hbsvp (by rw [hv]; rfl); rw [hb] at this; simp at this
      rw [hvs hv, List.map_cons, List.cons_append, boundArgs.eq_def]
      have : b'.get? p.name = none := by
        rw [hb' p.name, if_pos (hbs p ps hb)]
        exact mem_names (by simp [Sig.plain, hsplit, hb])
      simp only [this]
  -- keyword arguments
  have hpres : ∀ p : Param A, b'.get? p.name = some (V p.name) → b'.has p.name = true := by
    intro p hp; simp [Dict.has, hp]
  have hkwn : (names (bs ++ sig.kwOnly)).Nodup := by
    rw [hsplit] at hn
    simp only [names, List.map_append] at hn ⊢
    simp only [List.nodup_append, List.mem_append] at hn ⊢
    exact ⟨hn.1.1.1.2.1.2.1, hn.1.2.1, fun a ha b hb => hn.1.2.2 a (Or.inl (Or.inr (Or.inr ha))) b hb⟩
  have hleft : boundKwargs b' false sig.params [] = Dict.update [] (leftover b' (names (bs ++ sig.kwOnly))) := by
    rw [hparams, boundKwargs_skip, boundKwargs_skip]
    · cases hb : bs with
      | nil =>
        rw [List.map_nil, List.nil_append, boundKwargs_skip]
        · rw [boundKwargs_kwOnly _ _ _ _ (boundKwargs_varKw_start _ _ _), boundKwargs_varKw _ _ _ hbvk]
          simp
        · intro x hx
          obtain ⟨q, hq, rfl⟩ := List.mem_map.mp hx
          exact ⟨Or.inr rfl, by simp [Dict.has, hbvp q (Option.mem_toList.mp hq)]⟩
      | cons p ps =>
        have hv : sig.varPos = none := by
          cases hv : sig.varPos with
          | none => rfl
          | some q => have := hbsvp (by rw [hv]; rfl); rw [hb] at this; simp at this
        have hp0 : b'.get? p.name = none := by
          rw [hb' p.name, if_pos (hbs p ps hb)]
          exact mem_names (by simp [Sig.plain, hsplit, hb])
        rw [hv, List.map_cons, List.cons_append, boundKwargs_start _ _ _ _ (by simp [Dict.has, hp0])]
        simp only [Option.toList_none, List.map_nil, List.nil_append]
        rw [← List.append_assoc, boundKwargs_true _ _ _ _ (by
          intro x hx
          simp only [List.mem_append, List.mem_map] at hx
          rcases hx with ⟨a, _, rfl⟩ | ⟨a, _, rfl⟩ <;> simp), boundKwargs_varKw _ _ _ hbvk]
        have e3 : leftover b' (names (p :: ps ++ sig.kwOnly)) = leftover b' ((List.map (fun p => (p.name, PKind.pos)) ps ++
            List.map (fun p => (p.name, PKind.kwOnly)) sig.kwOnly).map (·.1)) := by
          simp only [names, List.cons_append, List.map_cons]
          rw [leftover_cons, hp0]
          simp [Function.comp_def]
        rw [e3]
    · intro x hx
      obtain ⟨p, hp, rfl⟩ := List.mem_map.mp hx
      exact ⟨Or.inl rfl, hpres p (hasb p hp)⟩
    · intro x hx
      obtain ⟨p, hp, rfl⟩ := List.mem_map.mp hx
      exact ⟨Or.inl rfl, hpres p (hpon p hp)⟩
  have hkwargs : ∀ k, (kw'.update (boundKwargs b' false sig.params [])).get? k =
      ((leftover b' (names (bs ++ sig.kwOnly))).get? k).or (kw'.get? k) := by
    intro k
    rw [hleft, Dict.get?_update _ _ (nodup_update _ _ (by simp [Dict.keys])), update_nil _ (nodup_leftover _ hkwn)]
  have hdisj : ∀ k ∈ names as, k ∉ names (bs ++ sig.kwOnly) := by
    rw [hsplit] at hn
    intro k hk hk'
    simp only [names, List.map_append, List.mem_append] at hn hk hk'
    simp only [List.nodup_append, List.mem_append] at hn
    rcases hk' with hk' | hk'
    · exact hn.1.1.1.2.1.2.2 k hk k hk' rfl
    · exact hn.1.2.2 k (Or.inl (Or.inr (Or.inl hk))) k hk' rfl
  have hasb2 : ∀ k ∈ keys, k ∈ names (sig.posOrKw ++ sig.kwOnly) → k ∈ names (bs ++ sig.kwOnly) := by
    intro k hk hm
    rw [hsplit] at hm
    simp only [names, List.map_append, List.mem_append] at hm ⊢
    rcases hm with (hm | hm) | hm
    · obtain ⟨p, hp, rfl⟩ := List.mem_map.mp hm
      exact absurd hk (has p hp)
    · exact Or.inl hm
    · exact Or.inr hm
  have hbs2 : ∀ k ∈ names (bs ++ sig.kwOnly), k ∈ names (sig.posOrKw ++ sig.kwOnly) := by
    intro k hk
    rw [hsplit]
    simp only [names, List.map_append, List.mem_append] at hk ⊢
    rcases hk with hk | hk
    · exact Or.inl (Or.inr hk)
    · exact Or.inr hk
  have hx : vs = [] ∨ (sig.varPos.isSome ∧ bs = []) := by
    cases hv : sig.varPos with
    | none => exact Or.inl (hvs hv)
    | some q => exact Or.inr ⟨rfl, hbsvp (by rw [hv]; rfl)⟩
  refine ⟨sig.posOnly.map (fun p => V p.name) ++ (as.map (fun p => V p.name) ++ vs),
    kw'.update (boundKwargs b' false sig.params []),
    minus (kw'.update (boundKwargs b' false sig.params [])) (names (bs ++ sig.kwOnly)), ?_, ?_, ?_⟩
  · unfold runArgs
    rw [e]
    simp only [hargs]
  · refine bind_of sig hw V as bs hsplit vs hx _ ?_ ?_ ?_
    · intro p hp
      have hm : p.name ∈ names as := mem_names hp
      rw [hkwargs, get?_leftover, if_neg (hdisj _ hm), hmoved, if_neg (has p hp)]
      rfl
    · intro p hp
      have hm : p.name ∈ names (bs ++ sig.kwOnly) := mem_names hp
      rw [hkwargs, get?_leftover, if_pos hm, hmoved, hb' _ (hplain _ (hbs2 _ hm))]
      by_cases hk : p.name ∈ keys
      · rw [if_pos hk, if_pos hk, if_pos (hbs2 _ hm)]; rfl
      · rw [if_neg hk, if_neg hk]; rfl
    · intro hvk' k hk
      obtain ⟨v, hv⟩ := Dict.mem_keys.mp hk
      rw [hkwargs, get?_leftover, hmoved] at hv
      apply Classical.byContradiction
      intro hne
      rw [if_neg hne] at hv
      by_cases hkk : k ∈ keys
      · rcases hin k hkk with h | ⟨h, _⟩
        · exact hne (hasb2 k hkk h)
        · rw [hvk'] at h; simp at h
      · rw [if_neg hkk] at hv; simp at hv
  · intro k
    rw [get?_minus, hkwargs, get?_leftover, hmoved]
    by_cases hm : k ∈ names (bs ++ sig.kwOnly)
    · rw [if_pos hm]
      cases hd : D.get? k with
      | none => rfl
      | some v => exact absurd (hbs2 k hm) (hD k v hd).2
    · rw [if_neg hm, if_neg hm]
      by_cases hk : k ∈ keys
      · rw [if_pos hk, if_neg]
        · rfl
        · exact fun h => hm (hasb2 k hk h)
      · rw [if_neg hk]
        cases hd : D.get? k with
        | none => rfl
        | some v => exact absurd (hD k v hd).1 hk

/-- In noop mode, the body receives what is in the bound arguments. -/
theorem splitBound_pos (b : Dict String (PV A)) (V : String → PV A) (ps : List (Param A)) (tail : List (String × PKind))
    (args : List (PV A)) (kwargs : Dict String (PV A)) (h : ∀ p ∈ ps, b.get? p.name = some (V p.name)) :
    splitBound b ((ps.map fun p => (p.name, PKind.pos)) ++ tail) args kwargs =
      splitBound b tail (args ++ ps.map fun p => V p.name) kwargs := by
  induction ps generalizing args with
  | nil => simp
  | cons p ps ih =>
    rw [List.map_cons, List.cons_append, splitBound, h p (by simp)]
    dsimp only
    rw [ih _ (fun q hq => h q (by simp [hq]))]
    simp

theorem splitBound_kwOnly (b : Dict String (PV A)) (V : String → PV A) (ps : List (Param A)) (tail : List (String × PKind))
    (args : List (PV A)) (kwargs : Dict String (PV A)) (h : ∀ p ∈ ps, b.get? p.name = some (V p.name)) :
    splitBound b ((ps.map fun p => (p.name, PKind.kwOnly)) ++ tail) args kwargs =
      splitBound b tail args (kwargs.update (tag V ps)) := by
  induction ps generalizing kwargs with
  | nil => simp [tag, Dict.update]
  | cons p ps ih =>
    rw [List.map_cons, List.cons_append, splitBound, h p (by simp)]
    dsimp only
    rw [ih _ (fun q hq => h q (by simp [hq]))]
    rfl

theorem noopArgs_bind {sig : Sig A} (hw : sig.Wf) (V : String → PV A) (vs : List (PV A)) (D : Dict String (PV A))
    (hvs : sig.varPos = none → vs = []) (hvk : sig.varKw = none → D = []) (hDn : D.keys.Nodup)
    (hD : ∀ k ∈ D.keys, k ∉ names (sig.posOrKw ++ sig.kwOnly)) :
    ∃ args kwargs D', noopArgs sig (boundOf sig V vs D) = .ok (args, kwargs) ∧
      bind sig args kwargs = .ok (boundOf sig (fun k => (V k).strip) (vs.map PV.strip) D') ∧
      ∀ k, D'.get? k = (D.get? k).map PV.strip := by
  have hn := hw
  unfold Sig.Wf at hn
  rw [Sig.params_names] at hn
  have hg : ∀ p ∈ sig.plain, (boundOf sig V vs D).get? p.name = some (V p.name) :=
    fun p hp => get?_boundOf_plain hw V vs D (mem_names hp)
  have hkn : (names sig.kwOnly).Nodup := by
    simp only [List.nodup_append] at hn; exact hn.1.2.1
  have htn : (tag V sig.kwOnly).keys.Nodup := by rw [keys_tag]; exact hkn
  have hsb : splitBound (boundOf sig V vs D) sig.params [] [] =
      .ok (sig.posOnly.map (fun p => V p.name) ++ (sig.posOrKw.map (fun p => V p.name) ++ vs),
        (Dict.update [] (tag V sig.kwOnly)).update D) := by
    unfold Sig.params
    simp only [List.append_assoc]
    rw [splitBound_pos _ V _ _ _ _ (fun p hp => hg p (by simp [Sig.plain, hp])),
      splitBound_pos _ V _ _ _ _ (fun p hp => hg p (by simp [Sig.plain, hp]))]
    have e1 : ∀ args kwargs tail, splitBound (boundOf sig V vs D) ((sig.varPos.toList.map fun q => (q.1, PKind.varPos)) ++ tail) args kwargs =
        splitBound (boundOf sig V vs D) tail (args ++ vs) kwargs := by
      intro args kwargs tail
      cases hv : sig.varPos with
      | none => simp [hvs hv]
      | some q => simp [splitBound, get?_boundOf_varPos hw V vs D hv, PV.elems]
    rw [e1, splitBound_kwOnly _ V _ _ _ _ (fun p hp => hg p (by simp [Sig.plain, hp]))]
    cases hv : sig.varKw with
    | none => simp [splitBound, hvk hv, Dict.update]
    | some q => simp [splitBound, get?_boundOf_varKw hw V vs D hv, PV.entries]
  have hget : ∀ k, (((Dict.update [] (tag V sig.kwOnly)).update D).mapVals PV.strip).get? k =
      ((D.get? k).or (if k ∈ names sig.kwOnly then some (V k) else none)).map PV.strip := by
    intro k
    rw [Dict.get?_mapVals, Dict.get?_update _ _ hDn, update_nil _ htn, get?_tag]
  have hDk : ∀ k, k ∈ names (sig.posOrKw ++ sig.kwOnly) → D.get? k = none := by
    intro k hk
    rw [Dict.get?_eq_none]
    exact fun h => hD k h hk
  refine ⟨sig.posOnly.map (fun p => (V p.name).strip) ++ (sig.posOrKw.map (fun p => (V p.name).strip) ++ vs.map PV.strip),
    ((Dict.update [] (tag V sig.kwOnly)).update D).mapVals PV.strip,
    minus (((Dict.update [] (tag V sig.kwOnly)).update D).mapVals PV.strip) (names sig.kwOnly), ?_, ?_, ?_⟩
  · unfold noopArgs
    rw [hsb]
    simp [Function.comp_def]
  · refine bind_of sig hw (fun k => (V k).strip) sig.posOrKw [] (by simp) (vs.map PV.strip) ?_ _ ?_ ?_ ?_
    · cases hv : sig.varPos with
      | none => simp [hvs hv]
      | some q => simp
    · intro p hp
      have hm : p.name ∈ names sig.posOrKw := mem_names hp
      rw [hget, hDk p.name (by simp only [names, List.map_append, List.mem_append]; exact Or.inl hm), if_neg]
      · rfl
      · intro h
        simp only [List.nodup_append, List.mem_append] at hn
        exact hn.1.2.2 p.name (Or.inl (Or.inr hm)) p.name h rfl
    · intro p hp
      have hm : p.name ∈ names sig.kwOnly := mem_names (by simpa using hp)
      rw [hget, hDk p.name (by simp only [names, List.map_append, List.mem_append]; exact Or.inr hm), if_pos hm]
      rfl
    · intro hv k hk
      obtain ⟨v, hv'⟩ := Dict.mem_keys.mp hk
      rw [hget, hvk hv] at hv'
      by_cases hm : k ∈ names sig.kwOnly
      · simpa using hm
      · simp [hm] at hv'
  · intro k
    rw [get?_minus, hget]
    by_cases hm : k ∈ names sig.kwOnly
    · rw [if_pos hm, hDk k (by simp only [names, List.map_append, List.mem_append]; exact Or.inr hm)]
      rfl
    · rw [if_neg hm, if_neg hm]; simp

end Args
end Verif
