import Verif.Proofs.ArgsRun
import Verif.Basic.ListRel
import Verif.Proofs.HashDict
/-!
Which inputs the storage sees.
-/
namespace Verif

section
variable {α : Type}

/-- Dictionaries with the same entries have the same canonical form. -/
theorem canon_congr {l m : List (String × α)} (hl : (Dict.keys l).Nodup) (hm : (Dict.keys m).Nodup)
    (h : ∀ k, Dict.get? l k = Dict.get? m k) : canon l = canon m := canon_perm hl (perm_of_get? hl hm h)

/-- Calls of an op with the same identifier have inputs with the same names and ids. -/
theorem callId_inj_args {H : Val → String} (hH : Function.Injective H) {op op' : String} {ver ver' : Int} {l m : List (String × String)}
    (hl : (Dict.keys l).Nodup) (hm : (Dict.keys m).Nodup) (h : callId H op ver l = callId H op' ver' m) :
    op = op' ∧ ver = ver' ∧ ∀ k, Dict.get? l k = Dict.get? m k := by
  have := hH h
  simp only [Val.tuple.injEq, List.cons.injEq, Val.dict.injEq, Val.str.injEq, Val.int.injEq, and_true] at this
  obtain ⟨⟨h1, h2⟩, h3, h4⟩ := this
  refine ⟨h3, h4, fun k => ?_⟩
  have hc : canon l = canon m := by
    have hs : (canon l).map (·.2) = (canon m).map (·.2) := by
      have := congrArg (List.map (fun v => match v with | Val.str s => s | _ => "")) h2
      simpa [Function.comp_def] using this
    exact List.ext_getElem (by have := congrArg List.length h1; simpa using this) (fun i hi hj => by
      have e1 := congrArg (·[i]?) h1
      have e2 := congrArg (·[i]?) hs
      simp [hi, hj] at e1 e2
      exact Prod.ext e1 e2)
  rw [← get?_canon hl, ← get?_canon hm, hc]

theorem callId_congr {H : Val → String} (op : String) (ver : Int) {l m : List (String × String)}
    (hl : (Dict.keys l).Nodup) (hm : (Dict.keys m).Nodup) (h : ∀ k, Dict.get? l k = Dict.get? m k) :
    callId H op ver l = callId H op ver m := by
  unfold callId
  rw [canon_congr hl hm h]
end

namespace Args

variable {A : Type}

/-- What the storage keeps of the value of an ordinary parameter. -/
def stored (sig : Sig A) (ig : List String) (eqd : PV A → PV A → Bool) (k : String) (v : PV A) : Option (PV A × Ty) :=
  if k ∈ ig ∨ v.isIgnore = true then none
  else match newDefault sig k with
    | some d => if eqd d v then none else some (v, sig.tyOf k)
    | none => some (v, sig.tyOf k)

theorem plainInp_eq (sig : Sig A) (ig : List String) (eqd : PV A → PV A → Bool) (k : String) (v : PV A) (inp : Inputs A) :
    plainInp sig ig eqd k v inp = match stored sig ig eqd k v with | none => inp | some x => inp.set k x := by
  unfold plainInp stored
  by_cases h1 : k ∈ ig
  · simp [h1, PV.isIgnore]
  · by_cases h2 : v.isIgnore
    · simp [h1, h2]
    · simp only [h1, h2, if_false, false_or]
      cases newDefault sig k with
      | none => simp
      | some d => by_cases he : eqd d v <;> simp [he]

theorem get?_plainInp (sig : Sig A) (ig : List String) (eqd : PV A → PV A → Bool) (k : String) (v : PV A) (inp : Inputs A) (n : String) :
    (plainInp sig ig eqd k v inp).get? n = (if n = k then stored sig ig eqd k v else none).or (inp.get? n) := by
  rw [plainInp_eq]
  cases stored sig ig eqd k v with
  | none => simp
  | some x =>
    dsimp only
    rw [Dict.get?_set]
    by_cases h : n = k
    · subst h; simp
    · simp [h, Ne.symm h]

theorem get?_foldPlain (sig : Sig A) (ig : List String) (eqd : PV A → PV A → Bool) (V : String → PV A) (ns : List String)
    (inp : Inputs A) (n : String) :
    (ns.foldl (fun inp k => plainInp sig ig eqd k (V k) inp) inp).get? n =
      (if n ∈ ns then stored sig ig eqd n (V n) else none).or (inp.get? n) := by
  induction ns generalizing inp with
  | nil => simp
  | cons k ns ih =>
    rw [List.foldl_cons, ih, get?_plainInp]
    by_cases h : n = k
    · subst h
      by_cases hm : n ∈ ns
      · simp only [hm, if_true, List.mem_cons, true_or]
        cases stored sig ig eqd n (V n) <;> simp
      · simp [hm]
    · simp [h]

/-- What the storage keeps of an element of `*args` or `**kwargs`. -/
def storedVar (ty : Ty) (v : PV A) : Option (PV A × Ty) := if v.isIgnore then none else some (v, ty)

theorem strip_of_not_ignore {v : PV A} (h : v.isIgnore = false) : v.strip = v := by
  cases v <;> first | rfl | simp [PV.isIgnore] at h

theorem get?_addVarPos_aux (k : String) (ty : Ty) (vs : List (PV A)) (j : Nat) (inp : Inputs A) (n : String) :
    ((vs.zipIdx j).foldl (fun inp p => if p.1.isIgnore then inp else inp.set (idxName k p.2) (p.1.strip, ty)) inp).get? n =
      ((vs.zipIdx j).find? (fun p => n = idxName k p.2)).elim (inp.get? n) (fun p => (storedVar ty p.1).or (inp.get? n)) := by
  induction vs generalizing j inp with
  | nil => rfl
  | cons v vs ih =>
    rw [List.zipIdx_cons, List.foldl_cons, ih, List.find?_cons]
    by_cases hn : n = idxName k j
    · simp only [hn, decide_true]
      have : (vs.zipIdx (j + 1)).find? (fun p => idxName k j = idxName k p.2) = none := by
        rw [List.find?_eq_none]
        intro p hp
        have := List.mem_zipIdx hp
        simp only [decide_eq_true_eq]
        intro he
        have := idxName_inj he
        omega
      rw [this]
      simp only [Option.elim_none, Option.elim_some, storedVar]
      cases hi : v.isIgnore
      · simp [strip_of_not_ignore hi]
      · simp
    · simp only [hn, decide_false]
      have : Dict.get? (if v.isIgnore = true then inp else Dict.set inp (idxName k j) (v.strip, ty)) n = inp.get? n := by
        split
        · rfl
        · rw [Dict.get?_set, if_neg (Ne.symm hn)]
      rw [this]

theorem get?_addVarPos_idx (k : String) (ty : Ty) (vs : List (PV A)) (inp : Inputs A) (i : Nat) :
    (addVarPos k ty vs inp).get? (idxName k i) = ((vs[i]?).bind (storedVar ty)).or (inp.get? (idxName k i)) := by
  unfold addVarPos
  rw [get?_addVarPos_aux]
  cases hv : vs[i]? with
  | none =>
    have : (vs.zipIdx 0).find? (fun p => idxName k i = idxName k p.2) = none := by
      rw [List.find?_eq_none]
      intro p hp
      simp only [decide_eq_true_eq]
      intro he
      have h1 := idxName_inj he
      have h2 := List.mk_mem_zipIdx_iff_getElem?.mp (show (p.1, p.2) ∈ vs.zipIdx 0 from hp)
      rw [← h1, hv] at h2
      simp at h2
    rw [this]; simp
  | some v =>
    have : (vs.zipIdx 0).find? (fun p => idxName k i = idxName k p.2) = some (v, i) := by
      rw [List.find?_eq_some_iff_append]
      refine ⟨by simp, ?_⟩
      have hi : i < vs.length := (List.getElem?_eq_some_iff.mp hv).1
      have hg : vs[i] = v := (List.getElem?_eq_some_iff.mp hv).2
      refine ⟨(vs.zipIdx 0).take i, (vs.zipIdx 0).drop (i + 1), ?_, ?_⟩
      · have hl : i < (vs.zipIdx 0).length := by simpa using hi
        have := List.take_append_drop i (vs.zipIdx 0)
        rw [List.drop_eq_getElem_cons hl] at this
        have e : (vs.zipIdx 0)[i] = (v, i) := by simp [hg]
        rw [e] at this
        exact this.symm
      · intro p hp
        have hp' := List.mem_take_iff_getElem.mp hp
        obtain ⟨j, hj, rfl⟩ := hp'
        simp only [List.getElem_zipIdx, Nat.zero_add, Bool.not_eq_true', decide_eq_false_iff_not]
        intro he
        have := idxName_inj he
        omega
    rw [this]
    rfl

theorem get?_addVarPos_ne (k : String) (ty : Ty) (vs : List (PV A)) (inp : Inputs A) (n : String) (h : ∀ i, n ≠ idxName k i) :
    (addVarPos k ty vs inp).get? n = inp.get? n := by
  unfold addVarPos
  rw [get?_addVarPos_aux]
  have : (vs.zipIdx 0).find? (fun p => n = idxName k p.2) = none := by
    rw [List.find?_eq_none]
    intro p hp
    simp [h p.2]
  rw [this]; rfl

theorem get?_addVarKw (ty : Ty) (D : Dict String (PV A)) (hD : D.keys.Nodup) (inp : Inputs A) (n : String) :
    (addVarKw ty D inp).get? n = ((D.get? n).bind (storedVar ty)).or (inp.get? n) := by
  unfold addVarKw
  induction D generalizing inp with
  | nil => simp
  | cons p D ih =>
    obtain ⟨k, v⟩ := p
    simp only [Dict.keys, List.map_cons, List.nodup_cons] at hD
    rw [List.foldl_cons, ih hD.2, Dict.get?_cons]
    by_cases h : k = n
    · subst h
      have : Dict.get? D k = none := Dict.get?_eq_none.mpr hD.1
      simp only [this, if_true, Option.bind_none, Option.none_or, Option.bind_some, storedVar]
      cases hi : v.isIgnore
      · simp [strip_of_not_ignore hi]
      · simp
    · simp only [h, if_false]
      congr 1
      split
      · rfl
      · rw [Dict.get?_set, if_neg h]

theorem parseLoop_boundOf_snd {sig : Sig A} (hw : sig.Wf) (ig : List String) (eqd : PV A → PV A → Bool) (V : String → PV A)
    (vs : List (PV A)) (D : Dict String (PV A)) :
    (parseLoop sig ig eqd (boundOf sig V vs D) []).2 =
      let f := fun inp k => plainInp sig ig eqd k (V k) inp
      let i1 := (names (sig.posOnly ++ sig.posOrKw)).foldl f []
      let i2 := match sig.varPos with | none => i1 | some q => addVarPos q.1 q.2 vs i1
      let i3 := (names sig.kwOnly).foldl f i2
      match sig.varKw with | none => i3 | some q => addVarKw q.2 D i3 := by
  have hp : ∀ ps : List (Param A), (∀ p ∈ ps, p ∈ sig.plain) → ∀ inp, (parseLoop sig ig eqd (tag V ps) inp).2 =
      (names ps).foldl (fun inp k => plainInp sig ig eqd k (V k) inp) inp := by
    intro ps hps inp
    rw [parseLoop_tag]
    · intro k hk
      obtain ⟨p, hp, rfl⟩ := List.mem_map.mp hk
      exact hw.varPos_ne (mem_names (hps p hp))
    · intro k hk
      obtain ⟨p, hp, rfl⟩ := List.mem_map.mp hk
      exact hw.varKw_ne (mem_names (hps p hp))
  unfold boundOf
  simp only [parseLoop_append]
  rw [hp sig.posOnly (by simp +contextual [Sig.plain]), hp sig.posOrKw (by simp +contextual [Sig.plain]),
    hp sig.kwOnly (by simp +contextual [Sig.plain])]
  have e1 : names (sig.posOnly ++ sig.posOrKw) = names sig.posOnly ++ names sig.posOrKw := by simp [names]
  have e2 : ∀ inp, (parseLoop sig ig eqd (sig.varPos.toList.map fun q => (q.1, PV.tup vs)) inp).2 =
      match sig.varPos with | none => inp | some q => addVarPos q.1 q.2 vs inp := by
    intro inp
    cases hv : sig.varPos with
    | none => simp [parseLoop]
    | some q => simp [parseLoop, parseOne_varPos hv]
  have e3 : ∀ inp, (parseLoop sig ig eqd (sig.varKw.toList.map fun q => (q.1, PV.dct D)) inp).2 =
      match sig.varKw with | none => inp | some q => addVarKw q.2 D inp := by
    intro inp
    cases hv : sig.varKw with
    | none => simp [parseLoop]
    | some q => simp [parseLoop, parseOne_varKw hv (hw.var_ne hv)]
  rw [e3, e2, e1, List.foldl_append]

theorem nodup_plainInp (sig : Sig A) (ig : List String) (eqd : PV A → PV A → Bool) (k : String) (v : PV A) {inp : Inputs A}
    (h : inp.keys.Nodup) : (plainInp sig ig eqd k v inp).keys.Nodup := by
  rw [plainInp_eq]
  split
  · exact h
  · exact Dict.nodup_set h _ _

theorem nodup_parseLoop (sig : Sig A) (ig : List String) (eqd : PV A → PV A → Bool) (b : Dict String (PV A)) {inp : Inputs A}
    (h : inp.keys.Nodup) : (parseLoop sig ig eqd b inp).2.keys.Nodup := by
  have hfold : ∀ {X : Type} (f : Inputs A → X → Inputs A) (l : List X) (inp : Inputs A), inp.keys.Nodup →
      (∀ i x, i.keys.Nodup → (f i x).keys.Nodup) → (l.foldl f inp).keys.Nodup := by
    intro X f l
    induction l with
    | nil => intro inp h _; exact h
    | cons x l ih => intro inp h hf; exact ih _ (hf _ _ h) hf
  induction b generalizing inp with
  | nil => exact h
  | cons p b ih =>
    obtain ⟨k, v⟩ := p
    rw [parseLoop]
    refine ih ?_
    unfold parseOne
    split
    · exact hfold _ _ _ h (fun i x hi => by split; exact hi; exact Dict.nodup_set hi _ _)
    · split
      · exact hfold _ _ _ h (fun i x hi => by split; exact hi; exact Dict.nodup_set hi _ _)
      · have := nodup_plainInp sig ig eqd k v h
        rename_i h1 h2
        have e := congrArg (·.2) (parseOne_plain h1 h2 ig eqd v inp)
        unfold parseOne at e
        rw [if_neg h1, if_neg h2] at e
        dsimp only at e ⊢
        rw [e]; exact this

end Args
end Verif
