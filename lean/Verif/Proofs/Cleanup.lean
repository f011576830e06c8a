import Verif.Spec.Cleanup
import Verif.Proofs.Backed
/-!
`cleanup_refs`: what it deletes, and that loading the rest gives the same.
-/
namespace Verif

section
variable {V : Type}

theorem sql_drop_self {p p' : SqlDict V} {k : String} (h : p.drop k = .ok p') : ∀ v, p'.get k ≠ .ok v := by
  unfold SqlDict.drop at h
  dsimp only at h
  have he : ∀ (d : Dict String V), (d.erase k).get? k = none := by
    intro d; rw [Dict.get?_erase, if_pos rfl]
  intro v hv
  split at h
  · rename_i ho
    cases h
    simp only [SqlDict.get, he, ho] at hv
    cases hv
  · rename_i j hj
    split at h
    · rename_i hex
      simp only [Joblib.drop, hex, if_true] at h
      cases h
      simp only [SqlDict.get, he, Joblib.get] at hv
      cases hv
    · rename_i hex
      cases h
      simp only [SqlDict.get, he, hj, Joblib.get] at hv
      simp only [Joblib.exists_, Dict.has] at hex
      cases hg : Dict.get? j k with
      | none => rw [hg] at hv; cases hv
      | some w => rw [hg] at hex; exact hex rfl

theorem sql_drop_ok (p : SqlDict V) (k : String) : ∃ p', p.drop k = .ok p' := by
  unfold SqlDict.drop
  dsimp only
  split
  · exact ⟨_, rfl⟩
  · split
    · rename_i hex
      simp only [Joblib.drop, hex, if_true]
      exact ⟨_, rfl⟩
    · exact ⟨_, rfl⟩

theorem sql_get_keys {p : SqlDict V} {k : String} {v : V} (h : p.get k = .ok v) : k ∈ p.keys := by
  unfold SqlDict.get at h
  unfold SqlDict.keys
  cases ho : p.overflow with
  | none =>
    rw [ho] at h
    cases hg : p.rows.get? k with
    | none => rw [hg] at h; cases h
    | some w => exact Dict.mem_keys.2 ⟨w, hg⟩
  | some j =>
    rw [ho] at h
    refine List.mem_append.2 ?_
    cases hg : p.rows.get? k with
    | some w => exact .inl (Dict.mem_keys.2 ⟨w, hg⟩)
    | none =>
      rw [hg] at h
      simp only [Joblib.get] at h
      cases hj : Dict.get? j k with
      | none => rw [hj] at h; cases h
      | some w => exact .inr (Dict.mem_keys.2 ⟨w, hj⟩)

theorem drop_get_ne {d : CachedDict V} {k k' : String} (hk : k' ≠ k) : ((d.drop k).2.get k').1 = (d.get k').1 := by
  obtain ⟨p', hp⟩ := sql_drop_ok d.pers k
  unfold CachedDict.drop
  simp only [hp]
  unfold CachedDict.get
  rw [Dict.get?_erase, if_neg (fun h => hk h.symm), sql_drop_get hp hk]
  cases d.cache.get? k' with
  | some v => rfl
  | none => cases d.pers.get k' <;> rfl

/-- Dropping several keys. -/
structure Dropped (ks : List String) (d d' : CachedDict V) : Prop where
  pers : ∀ k v, d'.pers.get k = .ok v ↔ d.pers.get k = .ok v ∧ k ∉ ks
  get : ∀ k, k ∉ ks → (d'.get k).1 = (d.get k).1

theorem dropped_nil (d : CachedDict V) : Dropped [] d d := ⟨by simp, fun _ _ => rfl⟩

theorem dropped_cons {d d' : CachedDict V} {k : String} {ks : List String} (h : Dropped ks (d.drop k).2 d') : Dropped (k :: ks) d d' := by
  obtain ⟨p', hp⟩ := sql_drop_ok d.pers k
  have hpers : (d.drop k).2.pers = p' := by
    unfold CachedDict.drop; simp only [hp]
  refine ⟨fun k' v => ?_, fun k' hk' => ?_⟩
  · rw [h.pers, hpers]
    by_cases hk : k' = k
    · subst hk
      exact ⟨fun h => absurd h.1 (sql_drop_self hp v), fun h => absurd (List.mem_cons_self ..) h.2⟩
    · rw [sql_drop_get hp hk]
      simp [hk]
  · simp only [List.mem_cons, not_or] at hk'
    rw [h.get k' hk'.2, drop_get_ne hk'.1]

theorem drop_res (d : CachedDict V) (k : String) : (d.drop k).1 = .ok () := by
  obtain ⟨p', hp⟩ := sql_drop_ok d.pers k
  unfold CachedDict.drop; simp only [hp]
end

theorem shapesDrops : ∀ (ks : List String) (s : St), ∃ d', M.forM' shapesDrop ks s = (.ok (), { s with shapes := d' }) ∧ Dropped ks s.shapes d'
  | [], s => ⟨s.shapes, rfl, dropped_nil _⟩
  | k :: ks, s => by
    obtain ⟨d', h1, h2⟩ := shapesDrops ks { s with shapes := (s.shapes.drop k).2 }
    refine ⟨d', ?_, dropped_cons h2⟩
    have : shapesDrop k s = (.ok (), { s with shapes := (s.shapes.drop k).2 }) := by
      unfold shapesDrop; rw [drop_res]
    show M.bind (shapesDrop k) (fun _ => M.forM' shapesDrop ks) s = _
    unfold M.bind
    rw [this]
    exact h1

theorem atomsDrops : ∀ (ks : List String) (s : St), ∃ d', M.forM' atomsDrop ks s = (.ok (), { s with atoms := d' }) ∧ Dropped ks s.atoms d'
  | [], s => ⟨s.atoms, rfl, dropped_nil _⟩
  | k :: ks, s => by
    obtain ⟨d', h1, h2⟩ := atomsDrops ks { s with atoms := (s.atoms.drop k).2 }
    refine ⟨d', ?_, dropped_cons h2⟩
    have : atomsDrop k s = (.ok (), { s with atoms := (s.atoms.drop k).2 }) := by
      unfold atomsDrop; rw [drop_res]
    show M.bind (atomsDrop k) (fun _ => M.forM' atomsDrop ks) s = _
    unfold M.bind
    rw [this]
    exact h1

theorem cleanup_state (s : St) : ∃ d1 d2, cleanupRefs s = (.ok (), { s with shapes := d1, atoms := d2 }) ∧ Dropped (orphans s) s.shapes d1 ∧
    Dropped (unreferencedCids { s with shapes := d1 }) s.atoms d2 := by
  obtain ⟨d1, h1, h2⟩ := shapesDrops (orphans s) s
  obtain ⟨d2, h3, h4⟩ := atomsDrops (unreferencedCids { s with shapes := d1 }) { s with shapes := d1 }
  refine ⟨d1, d2, ?_, h2, h4⟩
  show M.bind (M.read orphans) (fun os => M.bind (M.forM' shapesDrop os) (fun _ => M.bind (M.read unreferencedCids) (fun cs => M.forM' atomsDrop cs))) s = _
  simp only [M.bind, M.read]
  rw [h1]
  simp only
  rw [h3]

variable {W : World}

theorem used_not_orphan {s : St} {h : String} (hu : UsedHid s h) : h ∉ orphans s := by
  obtain ⟨r, hr, rfl⟩ := hu
  intro hm
  have := (List.mem_filter.1 hm).2
  simp only [decide_eq_true_eq] at this
  exact this (List.mem_map.2 ⟨r, hr, rfl⟩)

theorem orphan_of {s : St} {h : String} (hk : h ∈ s.shapes.pers.keys) (hu : ¬ UsedHid s h) : h ∈ orphans s := by
  refine List.mem_filter.2 ⟨hk, ?_⟩
  simp only [decide_eq_true_eq]
  intro hm
  obtain ⟨r, hr, rfl⟩ := List.mem_map.1 hm
  exact hu ⟨r, hr, rfl⟩

/-- A record of a used ref has a used content id. -/
theorem used_cid (hW : W.Good) {s : St} (hi : TableOK W s.calls.pers) {h : String} (hu : UsedHid s h) {r : Ref} (hr : ShapeOK W h r) : UsedCid s r.cid := by
  obtain ⟨row, hrow, rfl⟩ := hu
  obtain ⟨_, _, _, ⟨t, g1, g2, _⟩, _⟩ := hi row hrow
  obtain ⟨hh, t', ht⟩ := hr
  refine ⟨row, hrow, ?_⟩
  have := ht.prov
  rw [hh] at this
  rw [g2, g1.det hW this, ht.cid]

theorem sql_value_key {V : Type} {P : String → V → Prop} {p : SqlDict V} (ha : SqlAll P p) {v : V} (hv : v ∈ p.values) :
    ∃ k ∈ p.keys, P k v := by
  unfold SqlDict.values at hv
  unfold SqlDict.keys
  have key : ∀ (d : Dict String V), DictAll P d → v ∈ d.vals → ∃ k ∈ d.keys, P k v := by
    intro d hd hv
    obtain ⟨q, hq, rfl⟩ := List.mem_map.1 hv
    exact ⟨q.1, List.mem_map.2 ⟨q, hq, rfl⟩, hd q hq⟩
  cases ho : p.overflow with
  | none =>
    rw [ho] at hv
    exact key _ ha.1 hv
  | some j =>
    rw [ho] at hv
    rcases List.mem_append.1 hv with h | h
    · obtain ⟨k, hk, hp⟩ := key _ ha.1 h
      exact ⟨k, List.mem_append_left _ hk, hp⟩
    · obtain ⟨k, hk, hp⟩ := key _ (ha.2 j ho) h
      exact ⟨k, List.mem_append_right _ hk, hp⟩

theorem sql_keys_get {V : Type} {p : SqlDict V} {k : String} (h : k ∈ p.keys) : ∃ v, p.get k = .ok v := by
  unfold SqlDict.keys at h
  unfold SqlDict.get
  cases hg : p.rows.get? k with
  | some w => exact ⟨w, rfl⟩
  | none =>
    have hn : k ∉ p.rows.keys := fun hm => by
      obtain ⟨v, hv⟩ := Dict.mem_keys.1 hm
      rw [hg] at hv; cases hv
    cases ho : p.overflow with
    | none => rw [ho] at h; exact absurd h hn
    | some j =>
      rw [ho] at h
      rcases List.mem_append.1 h with h | h
      · exact absurd h hn
      · obtain ⟨v, hv⟩ := Dict.mem_keys.1 h
        exact ⟨v, by simp [Joblib.get, hv]⟩

theorem unref_iff (hW : W.Good) {s : St} (hi : Inv W s) {d1 : CachedDict Ref} (hd : Dropped (orphans s) s.shapes d1) (hd1 : SqlAll (ShapeOK W) d1.pers) {c : String}
    (hk : c ∈ s.atoms.pers.keys) : c ∉ unreferencedCids { s with shapes := d1 } ↔ UsedCid s c := by
  unfold unreferencedCids
  rw [List.mem_filter]
  simp only [decide_eq_true_eq, not_and]
  refine ⟨fun h => ?_, fun ⟨r, hr, hrc⟩ _ h => ?_⟩
  · by_cases hc : c ∈ s.calls.pers.map (·.refCid)
    · obtain ⟨r, hr, hrc⟩ := List.mem_map.1 hc
      exact ⟨r, hr, hrc⟩
    · have h2 := h hk hc
      have h2 : c ∈ d1.pers.values.map Ref.cid := Classical.byContradiction fun hn => h2 hn
      obtain ⟨r, hr, rfl⟩ := List.mem_map.1 h2
      obtain ⟨h, hh, hs⟩ := sql_value_key hd1 hr
      obtain ⟨v, hv⟩ := sql_keys_get hh
      obtain ⟨h3, h4⟩ := (hd.pers h v).1 hv
      have hu : UsedHid s h := Classical.byContradiction fun hn => h4 (orphan_of (sql_get_keys h3) hn)
      exact used_cid hW hi.pers hu hs
  · exact absurd (List.mem_map.2 ⟨r, hr, hrc⟩) h

/-- Exactly the garbage is deleted. -/
theorem cleanup_exact (hW : W.Good) {s : St} (hi : Inv W s) : ∃ s', cleanupRefs s = (.ok (), s') ∧ GarbageGone s s' ∧
    (∀ h, UsedHid s h → (s'.shapes.get h).1 = (s.shapes.get h).1) ∧ (∀ c, UsedCid s c → (s'.atoms.get c).1 = (s.atoms.get c).1) := by
  obtain ⟨d1, d2, h1, h2, h3⟩ := cleanup_state s
  have hi' : Inv W { s with shapes := d1, atoms := d2 } := by
    have := keeps_cleanupRefs (W := W) s hi
    rw [h1] at this
    exact this.1
  refine ⟨_, h1, ⟨fun h r => ?_, fun c v => ?_, rfl, rfl⟩, fun h hu => h2.get h (used_not_orphan hu), fun c hu => h3.get c ?_⟩
  · rw [h2.pers]
    refine and_congr_right fun hg => ⟨fun hn => ?_, used_not_orphan⟩
    exact Classical.byContradiction fun hu => hn (orphan_of (sql_get_keys hg) hu)
  · rw [h3.pers]
    exact and_congr_right fun hg => unref_iff hW hi h2 hi'.shapes.2 (sql_get_keys hg)
  · by_cases hk : c ∈ s.atoms.pers.keys
    · exact (unref_iff hW hi h2 hi'.shapes.2 hk).2 hu
    · exact fun hm => hk (List.mem_filter.1 hm).1

/-! ### the rest loads as before -/

/-- The two storages answer alike about the refs and values in `hs` and `cs`, which are closed under elements. -/
structure Sim (hs cs : String → Prop) (s s' : St) : Prop where
  shapes : ∀ h, hs h → (s'.shapes.get h).1 = (s.shapes.get h).1
  atoms : ∀ c, cs c → (s'.atoms.get c).1 = (s.atoms.get c).1
  closed : ∀ h, hs h → ∀ r, (s.shapes.get h).1 = .ok r → hs r.hid ∧ cs r.cid ∧ Nested hs r

/-- `m` gives the same result in such storages; the result satisfies `q`. -/
def Sims {α : Type} (hs cs : String → Prop) (m : M α) (q : α → Prop) : Prop :=
  ∀ s s', Sim hs cs s s' → (m s').1 = (m s).1 ∧ Sim hs cs (m s).2 (m s').2 ∧ ∀ a, (m s).1 = .ok a → q a

section
variable {hs cs : String → Prop}

theorem Sims.bind {α β : Type} {m : M α} {f : α → M β} {q : α → Prop} {q' : β → Prop} (h1 : Sims hs cs m q) (h2 : ∀ a, q a → Sims hs cs (f a) q') :
    Sims hs cs (M.bind m f) q' := by
  intro s s' h
  obtain ⟨e, h3, h4⟩ := h1 s s' h
  unfold M.bind
  cases hm : m s with
  | mk x t =>
    cases hm' : m s' with
    | mk x' t' =>
      rw [hm] at h4
      rw [hm, hm'] at e h3
      simp only at e h3 h4
      rw [e]
      cases x with
      | error e => exact ⟨rfl, h3, nofun⟩
      | ok a => exact h2 a (h4 a rfl) t t' h3

theorem Sims.pure {α : Type} {a : α} {q : α → Prop} (h : q a) : Sims hs cs (M.pure a) q := fun _ _ hs => ⟨rfl, hs, fun _ e => by cases e; exact h⟩
theorem Sims.raise {α : Type} {e : Err} {q : α → Prop} : Sims hs cs (M.raise e : M α) q := fun _ _ h => ⟨rfl, h, nofun⟩

theorem Sims.mapM' {α β : Type} {f : α → M β} {q : β → Prop} : ∀ (l : List α), (∀ a ∈ l, Sims hs cs (f a) q) → Sims hs cs (M.mapM' f l) (fun bs => ∀ b ∈ bs, q b)
  | [], _ => Sims.pure (by simp)
  | a :: l, h => Sims.bind (h a (by simp)) fun b hb => Sims.bind (Sims.mapM' l fun x hx => h x (List.mem_cons_of_mem _ hx)) fun bs hbs =>
      Sims.pure (by
        intro x hx
        rcases List.mem_cons.1 hx with rfl | hx
        · exact hb
        · exact hbs x hx)

theorem nesteds_iff {P : String → Prop} : ∀ {rs : List Ref}, Nesteds P rs ↔ ∀ r ∈ rs, P r.hid ∧ Nested P r
  | [] => by simp [Nesteds]
  | r :: rs => by simp [Nesteds, nesteds_iff (rs := rs)]

theorem Sim.shapesGet {h : String} (hh : hs h) : Sims hs cs (shapesGet h) (fun r => hs r.hid ∧ cs r.cid ∧ Nested hs r) := by
  intro s s' hsim
  refine ⟨hsim.shapes h hh, ⟨fun j hj => ?_, hsim.atoms, fun j hj r hr => ?_⟩, fun r hr => hsim.closed h hh r hr⟩
  · simp only [Verif.shapesGet, CachedDict.get_get]; exact hsim.shapes j hj
  · simp only [Verif.shapesGet, CachedDict.get_get] at hr; exact hsim.closed j hj r hr

theorem Sim.atomsGet {c : String} (hc : cs c) : Sims hs cs (atomsGet c) (fun _ => True) := by
  intro s s' hsim
  refine ⟨hsim.atoms c hc, ⟨hsim.shapes, fun j hj => ?_, hsim.closed⟩, fun _ _ => trivial⟩
  simp only [Verif.atomsGet, CachedDict.get_get]; exact hsim.atoms j hj

theorem Sim.atomsSet (c : String) (v : Val) : Sims hs cs (atomsSet c v) (fun _ => True) := by
  intro s s' hsim
  refine ⟨rfl, ⟨hsim.shapes, fun j hj => ?_, hsim.closed⟩, fun _ _ => trivial⟩
  simp only [Verif.atomsSet, CachedDict.set_get, hsim.atoms j hj]

theorem sims_loadRef : ∀ (n : Nat) (h : String) (b : Bool), hs h → Sims hs cs (loadRef n h b) (fun r => hs r.hid ∧ Nested hs r)
  | 0, _, _, _ => Sims.raise
  | n + 1, h, b, hh => by
    refine Sims.bind (Sim.shapesGet hh) (fun r hr => ?_)
    cases r with
    | atom c h' o =>
      dsimp only
      split
      · exact Sims.pure ⟨hr.1, hr.2.2⟩
      · exact Sims.bind (Sim.atomsGet hr.2.1) (fun _ _ => Sims.pure ⟨hr.1, by simp [Nested]⟩)
    | coll k c h' m keys elts =>
      dsimp only
      split
      · obtain ⟨h1, h2, h3⟩ := hr
        have h4 := h3
        simp only [Nested] at h3
        rw [nesteds_iff] at h3
        refine Sims.bind (Sims.mapM' _ (fun e he => sims_loadRef n _ b (h3 e he).1)) (fun es hes => ?_)
        cases k
        · refine Sims.pure ⟨h1, ?_⟩
          simp only [Nested] at h4 ⊢
          exact h4
        · refine Sims.pure ⟨h1, ?_⟩
          simp only [Nested]
          exact nesteds_iff.2 hes
      · exact Sims.raise

mutual
theorem sims_unwrapRef (cfg : Cfg) : ∀ (r : Ref), hs r.hid → Nested hs r → Sims hs cs (unwrapRef cfg r) (fun _ => True)
  | .atom _ _ (some v), _, _ => by rw [unwrapRef]; exact Sims.pure trivial
  | .atom c h none, hh, _ => by
    rw [unwrapRef]
    refine Sims.bind (sims_loadRef _ _ _ hh) (fun r _ => ?_)
    cases r with
    | atom c' h' o =>
      cases o with
      | some v => exact Sims.bind (Sim.atomsSet c v) (fun _ _ => Sims.pure trivial)
      | none => exact Sims.raise
    | coll k c h' m keys elts => exact Sims.raise
  | .coll k _ _ m keys elts, _, hn => by
    rw [unwrapRef]
    split
    · simp only [Nested] at hn
      refine Sims.bind (sims_unwrapRefs cfg elts hn) (fun vs _ => ?_)
      cases k <;> exact Sims.pure trivial
    · exact Sims.raise
theorem sims_unwrapRefs (cfg : Cfg) : ∀ (rs : List Ref), Nesteds hs rs → Sims hs cs (unwrapRefs cfg rs) (fun _ => True)
  | [], _ => by rw [unwrapRefs]; exact Sims.pure trivial
  | r :: rs, h => by
    rw [unwrapRefs]
    simp only [Nesteds] at h
    exact Sims.bind (sims_unwrapRef cfg r h.1.1 h.1.2) fun _ _ => Sims.bind (sims_unwrapRefs cfg rs h.2) fun _ _ => Sims.pure trivial
end

theorem sims_loadValue (cfg : Cfg) (h : String) (b : Bool) (hh : hs h) : Sims hs cs (loadValue cfg h b) (fun _ => True) :=
  Sims.bind (sims_loadRef _ _ _ hh) fun r hr => sims_unwrapRef cfg r hr.1 hr.2
end

theorem store_get {V : Type} {P : String → V → Prop} {d : CachedDict V} (h : StoreAll P d) {k : String} {v : V} (hg : (d.get k).1 = .ok v) : P k v :=
  (h.get k).2 v hg

/-- Every ref used by a call in the database loads and unwraps as before. -/
theorem cleanup_loads (hW : W.Good) {s : St} (hi : Inv W s) (he : EltsUsed s) {s' : St} (hc : cleanupRefs s = (.ok (), s')) {h : String} (hh : UsedHid s h) (b : Bool) :
    (loadValue W.cfg h b s').1 = (loadValue W.cfg h b s).1 := by
  obtain ⟨s1, h1, _, h2, h3⟩ := cleanup_exact hW hi
  rw [hc] at h1
  cases h1
  refine (sims_loadValue (hs := UsedHid s) (cs := UsedCid s) W.cfg h b hh s s' ⟨h2, h3, fun j hj r hr => ?_⟩).1
  have hok := store_get hi.shapes hr
  exact ⟨hok.1 ▸ hj, used_cid hW hi.pers hj hok, he j hj r hr⟩

end Verif
