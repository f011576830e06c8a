import Verif.Spec.ProgramOK
import Verif.Basic.ListRel
/-!
Naming the outputs of a call and putting them back in order.
-/
namespace Verif

/-- The names of `n` outputs. -/
def outNamesOf (names : Option (List String)) (n : Nat) : List String :=
  (List.range n).map (dumpOutputName names)

theorem outNamesOf_some {ns : List String} {n : Nat} (h : ns.length = n) : outNamesOf (some ns) n = ns := by
  subst h
  apply List.ext_getElem?
  intro i
  simp only [outNamesOf, List.getElem?_map]
  by_cases hi : i < ns.length
  · simp [dumpOutputName, hi]
  · simp [hi]

theorem outNamesOf_nodup {names : Option (List String)} {n : Nat} (h : NamesOK names n) : (outNamesOf names n).Nodup := by
  cases names with
  | none =>
    simp only [outNamesOf]
    rw [List.nodup_iff_pairwise_ne, List.pairwise_map]
    exact List.nodup_range.imp (fun hne heq => hne (idxName_inj heq))
  | some ns => rw [outNamesOf_some h.2]; exact h.1

theorem outNamesOf_length (names : Option (List String)) (n : Nat) : (outNamesOf names n).length = n := by
  simp [outNamesOf]

theorem set_new {α : Type} {d : Dict String α} {k : String} {v : α} (h : k ∉ Dict.keys d) : Dict.set d k v = d ++ [(k, v)] := by
  induction d with
  | nil => rfl
  | cons p d ih =>
    obtain ⟨k', v'⟩ := p
    simp only [Dict.keys, List.map_cons, List.mem_cons, not_or] at h
    simp only [Dict.set]
    rw [if_neg (fun hh => h.1 hh.symm), ih h.2]
    rfl

theorem namedOutputs_eq (names : Option (List String)) : ∀ (vs : List Val) (i : Nat) (d : Dict String Val),
    (Dict.keys d ++ (List.range' i vs.length).map (dumpOutputName names)).Nodup →
    namedOutputs names i vs d = d ++ ((List.range' i vs.length).map (dumpOutputName names)).zip vs
  | [], i, d, _ => by simp [namedOutputs]
  | v :: vs, i, d, h => by
    simp only [List.length_cons, List.range'_succ, List.map_cons] at h ⊢
    have hk : dumpOutputName names i ∉ Dict.keys d := by
      intro hm
      rw [List.nodup_append] at h
      exact h.2.2 _ hm _ (by simp) rfl
    rw [namedOutputs, set_new hk, namedOutputs_eq names vs (i + 1)]
    · simp
    · simp only [Dict.keys, List.map_append, List.map_cons, List.map_nil] at h ⊢
      simpa using h

/-- The outputs are named in order. -/
theorem parseReturns_shape {nout : Nout} {names : Option (List String)} {ann : RetAnn} {ret : Val}
    {outs : List (String × Val × Ty)} (h : parseReturns nout names ann ret = .ok outs) :
    ∃ vs, returnsTuple nout ret = .ok vs ∧ (NamesOK names vs.length →
      outs.map (fun p => (p.1, p.2.1)) = (outNamesOf names vs.length).zip vs) := by
  unfold parseReturns at h
  split at h
  · cases h
  · rename_i vs hvs
    refine ⟨vs, hvs, fun hn => ?_⟩
    have hnd := outNamesOf_nodup hn
    have hd := namedOutputs_eq names vs 0 [] (by
      rw [← List.range_eq_range']; simpa [Dict.keys, outNamesOf] using hnd)
    rw [← List.range_eq_range'] at hd
    simp only [List.nil_append] at hd
    rw [hd] at h
    dsimp only at h
    split at h
    · cases h
    · rename_i tys htys
      cases h
      have hk : Dict.keys ((outNamesOf names vs.length).zip vs) = outNamesOf names vs.length := by
        rw [Dict.keys]; exact List.map_fst_zip (by simp [outNamesOf])
      have hlen : tys.length = vs.length := by
        have hann : ∀ (ks : List String) (ts tys : List Ty), annOfTuple ks ts = .ok tys → tys.length = ks.length := by
          intro ks
          induction ks with
          | nil => intro ts tys h; simp only [annOfTuple, Except.ok.injEq] at h; subst h; rfl
          | cons k ks ih =>
            intro ts tys h
            cases ts with
            | nil => simp [annOfTuple] at h
            | cons t ts =>
              simp only [annOfTuple] at h
              split at h
              · cases h; simp [ih _ _ ‹_›]
              · cases h
        change outputTys ann vs.length (Dict.keys ((outNamesOf names vs.length).zip vs)) = _ at htys
        rw [hk] at htys
        unfold outputTys at htys
        split at htys
        · cases htys; simp [outNamesOf]
        · cases htys; simp [outNamesOf]
        · rw [hann _ _ _ htys]; simp [outNamesOf]
        · cases htys
        · split at htys
          · cases htys; simp [outNamesOf]
          · cases htys
      rw [List.map_map]
      have : ((fun p : String × Val × Ty => (p.1, p.2.1)) ∘ fun p : (String × Val) × Ty => (p.1.1, p.1.2, p.2)) = Prod.fst := by
        funext p; rfl
      rw [this]
      exact List.map_fst_zip (by simp [hlen])

theorem byInt_spec {α : Type} : ∀ (d : Dict String α) (acc : Dict Nat α), (∀ k ∈ Dict.keys d, ∃ i, k = outputName i) →
    (Dict.keys d).Nodup → ∃ m, byInt d acc = .ok m ∧
      ∀ i, Dict.get? m i = (Dict.get? d (outputName i)).or (Dict.get? acc i)
  | [], acc, _, _ => ⟨acc, rfl, fun i => by simp⟩
  | (k, v) :: d, acc, hk, hn => by
    obtain ⟨j, rfl⟩ := hk k (by simp [Dict.keys])
    simp only [Dict.keys, List.map_cons, List.nodup_cons] at hn
    obtain ⟨m, hm, hg⟩ := byInt_spec d (Dict.set acc j v) (fun k' hk' => hk k' (by
      simp only [Dict.keys, List.map_cons, List.mem_cons] at hk' ⊢; exact .inr hk')) hn.2
    refine ⟨m, ?_, fun i => ?_⟩
    · simp only [byInt, outputName, parse_idxName]
      exact hm
    · rw [hg, Dict.get?_cons, Dict.get?_set]
      by_cases hij : i = j
      · subst hij
        have : Dict.get? d (outputName i) = none := Dict.get?_eq_none.2 hn.1
        simp [this]
      · have h1 : outputName j ≠ outputName i := fun h => hij (idxName_inj h).symm
        rw [if_neg h1, if_neg (fun h => hij h.symm)]

theorem mapE_all {α β : Type} {f : α → Except Err β} : ∀ {l : List α}, (∀ a ∈ l, ∃ b, f a = .ok b) →
    ∃ bs, mapE f l = .ok bs ∧ All2 (fun a b => f a = .ok b) l bs
  | [], _ => ⟨[], rfl, .nil⟩
  | a :: l, h => by
    obtain ⟨b, hb⟩ := h a (by simp)
    obtain ⟨bs, hbs, ha⟩ := mapE_all (l := l) (fun x hx => h x (List.mem_cons_of_mem _ hx))
    exact ⟨b :: bs, by simp only [mapE, hb, hbs], .cons hb ha⟩

/-- A dictionary with the output names as keys, in any order, is put in order. -/
theorem orderedOutputs_spec {α : Type} {names : Option (List String)} {n : Nat} {d : Dict String α} (hn : NamesOK names n)
    (hd : (Dict.keys d).Nodup) (hk : ∀ k, k ∈ Dict.keys d ↔ k ∈ outNamesOf names n) :
    ∃ rs, orderedOutputs names d = .ok rs ∧ All2 (fun k r => Dict.get? d k = some r) (outNamesOf names n) rs := by
  cases names with
  | some ns =>
    rw [outNamesOf_some hn.2] at hk ⊢
    obtain ⟨rs, h1, h2⟩ := mapE_all (f := fun k => match Dict.get? d k with
        | some v => Except.ok v
        | none => .error .keyError) (l := ns) (fun k hkm => by
      obtain ⟨v, hv⟩ := Dict.mem_keys.1 ((hk k).2 hkm)
      exact ⟨v, by rw [hv]⟩)
    refine ⟨rs, h1, h2.imp (fun k r hkr => ?_)⟩
    split at hkr
    · cases hkr; assumption
    · cases hkr
  | none =>
    obtain ⟨m, hm, hg⟩ := byInt_spec d [] (fun k hkm => by
      have := (hk k).1 hkm
      simp only [outNamesOf, List.mem_map, dumpOutputName] at this
      obtain ⟨i, _, hi⟩ := this
      exact ⟨i, hi.symm⟩) hd
    have hlen : d.length = n := by
      have := ((List.perm_ext_iff_of_nodup hd (outNamesOf_nodup hn)).2 hk).length_eq
      simpa [Dict.keys, outNamesOf] using this
    obtain ⟨rs, h1, h2⟩ := mapE_all (f := fun i => match Dict.get? m i with
        | some v => Except.ok v
        | none => .error .keyError) (l := List.range n) (fun i hi => by
      have : outputName i ∈ Dict.keys d := (hk _).2 (by
        simp only [outNamesOf, List.mem_map, dumpOutputName]; exact ⟨i, hi, rfl⟩)
      obtain ⟨v, hv⟩ := Dict.mem_keys.1 this
      exact ⟨v, by rw [hg, hv]; rfl⟩)
    refine ⟨rs, ?_, ?_⟩
    · simp only [orderedOutputs, hm, hlen]; exact h1
    · simp only [outNamesOf, All2.map_left]
      refine h2.imp (fun i r hir => ?_)
      split at hir
      · cases hir
        rename_i hgi
        rw [hg] at hgi
        simpa [dumpOutputName] using hgi
      · cases hir

end Verif
