import Verif.Model.Versioner
/-!
`hash_dict` identifies exactly the dictionaries that are equal as maps.
-/
namespace Verif

theorem insKey_sorted {α : Type} (p : String × α) {l : List (String × α)} (h : l.Pairwise fun a b => a.1 ≤ b.1) :
    (insKey p l).Pairwise fun a b => a.1 ≤ b.1 := by
  induction l with
  | nil => exact List.pairwise_singleton _ _
  | cons q l ih =>
    rw [List.pairwise_cons] at h
    simp only [insKey]
    split
    · rename_i hle
      rw [List.pairwise_cons]
      refine ⟨?_, List.pairwise_cons.2 h⟩
      intro b hb
      rcases List.mem_cons.1 hb with rfl | hb
      · exact hle
      · exact String.le_trans hle (h.1 b hb)
    · rename_i hle
      rw [List.pairwise_cons]
      refine ⟨?_, ih h.2⟩
      intro b hb
      rcases List.mem_cons.1 ((perm_insKey p l).mem_iff.1 hb) with rfl | hb
      · exact (String.le_total q.1 b.1).resolve_right hle
      · exact h.1 b hb

theorem canon_sorted {α : Type} (l : List (String × α)) : (canon l).Pairwise fun a b => a.1 ≤ b.1 := by
  induction l with
  | nil => exact .nil
  | cons p l ih => exact insKey_sorted p ih

theorem keys_unique {α : Type} {l : List (String × α)} (h : (Dict.keys l).Nodup) {a b : String × α} (ha : a ∈ l) (hb : b ∈ l) (he : a.1 = b.1) :
    a = b := by
  induction l with
  | nil => cases ha
  | cons p l ih =>
    simp only [Dict.keys, List.map_cons, List.nodup_cons] at h
    rcases List.mem_cons.1 ha with ha' | ha' <;> rcases List.mem_cons.1 hb with hb' | hb'
    · rw [ha', hb']
    · subst ha'; exact absurd (List.mem_map.2 ⟨b, hb', he.symm⟩) h.1
    · subst hb'; exact absurd (List.mem_map.2 ⟨a, ha', he⟩) h.1
    · exact ih h.2 ha' hb'

theorem canon_perm {α : Type} {l m : List (String × α)} (h : (Dict.keys l).Nodup) (hp : l.Perm m) : canon l = canon m := by
  refine List.Perm.eq_of_pairwise (le := fun a b => a.1 ≤ b.1) ?_ (canon_sorted l) (canon_sorted m)
    ((perm_canon l).trans (hp.trans (perm_canon m).symm))
  intro a b ha hb h1 h2
  exact keys_unique h (mem_canon.1 ha) (hp.mem_iff.2 (mem_canon.1 hb)) (String.le_antisymm h1 h2)

theorem get?_of_mem {K V : Type} [DecidableEq K] {d : Dict K V} (h : d.keys.Nodup) {k : K} {v : V} (hm : (k, v) ∈ d) : d.get? k = some v := by
  induction d with
  | nil => cases hm
  | cons p d ih =>
    obtain ⟨a, b⟩ := p
    simp only [Dict.keys, List.map_cons, List.nodup_cons] at h
    rw [Dict.get?_cons]
    rcases List.mem_cons.1 hm with hm | hm
    · cases hm; rw [if_pos rfl]
    · have : a ≠ k := by rintro rfl; exact h.1 (List.mem_map.2 ⟨_, hm, rfl⟩)
      rw [if_neg this]
      exact ih h.2 hm

theorem mem_of_get? {K V : Type} [DecidableEq K] {d : Dict K V} {k : K} {v : V} (h : d.get? k = some v) : (k, v) ∈ d := by
  induction d with
  | nil => cases h
  | cons p d ih =>
    obtain ⟨a, b⟩ := p
    rw [Dict.get?_cons] at h
    split at h
    · rename_i he
      cases h; subst he; simp
    · exact List.mem_cons_of_mem _ (ih h)

theorem mem_iff_get? {K V : Type} [DecidableEq K] {d : Dict K V} (h : d.keys.Nodup) {k : K} {v : V} : (k, v) ∈ d ↔ d.get? k = some v :=
  ⟨get?_of_mem h, mem_of_get?⟩

theorem nodup_of_keys {K V : Type} {d : Dict K V} (h : d.keys.Nodup) : d.Nodup := by
  unfold Dict.keys at h
  exact List.Pairwise.of_map (·.1) (fun a b hab he => hab (by rw [he])) h

theorem perm_of_get? {V : Type} {d e : Dict String V} (hd : d.keys.Nodup) (he : e.keys.Nodup) (h : ∀ k, d.get? k = e.get? k) : d.Perm e := by
  classical
  rw [List.perm_ext_iff_of_nodup (nodup_of_keys hd) (nodup_of_keys he)]
  rintro ⟨k, v⟩
  rw [mem_iff_get? hd, mem_iff_get? he, h]

/-- Equal maps have equal hashes. -/
theorem hashDict_congr (H : Val → String) {α : Type} (enc : α → Val) {d e : Dict DepKey α} (hd : d.keys.Nodup) (he : e.keys.Nodup)
    (h : ∀ k, d.get? k = e.get? k) : hashDict H enc d = hashDict H enc e := by
  unfold hashDict
  rw [canon_perm hd (perm_of_get? hd he h)]

theorem enc_inj {α : Type} (enc : α → Val) : ∀ {l m : List (String × α)},
    (l.map fun p => Val.tuple [.str p.1, enc p.2]) = (m.map fun p => Val.tuple [.str p.1, enc p.2]) →
    ∀ k, (Dict.get? l k).map enc = (Dict.get? m k).map enc
  | [], [], _, _ => rfl
  | [], _ :: _, h, _ => by cases h
  | _ :: _, [], h, _ => by cases h
  | (a, x) :: l, (b, y) :: m, h, k => by
    simp only [List.map_cons, List.cons.injEq, Val.tuple.injEq, Val.str.injEq, and_true] at h
    obtain ⟨⟨rfl, h2⟩, h3⟩ := h
    rw [Dict.get?_cons, Dict.get?_cons]
    split
    · rw [Option.map_some, Option.map_some, h2]
    · exact enc_inj enc h3 k

/-- Equal hashes come from equal maps. -/
theorem hashDict_inj {H : Val → String} (hH : Function.Injective H) {α : Type} (enc : α → Val) {d e : Dict DepKey α} (hd : d.keys.Nodup)
    (he : e.keys.Nodup) (h : hashDict H enc d = hashDict H enc e) (k : DepKey) : (d.get? k).map enc = (e.get? k).map enc := by
  have := enc_inj enc (Val.list.inj (hH h)) k
  rwa [get?_canon hd, get?_canon he] at this

theorem encSorted_mem {s t : List String} (h : encSorted s = encSorted t) (x : String) : x ∈ s ↔ x ∈ t := by
  unfold encSorted at h
  have h' := Val.tuple.inj h
  have hi : ∀ {l m : List String}, l.map Val.str = m.map Val.str → l = m := by
    intro l m hlm
    exact List.map_inj_right (fun a b hab => Val.str.inj hab) |>.1 hlm
  have h2 := hi h'
  rw [← List.mem_mergeSort (l := s) (le := fun a b => decide (a ≤ b)), h2, List.mem_mergeSort]

end Verif
