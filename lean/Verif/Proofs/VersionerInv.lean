import Verif.Proofs.Versioner
/-!
The versioner's invariant and its preservation.
-/
namespace Verif
namespace Versioner

variable {H : Val → String}

/-! ### creating components -/

/-- The three tables have the same components and every history is well formed. -/
structure InvC (H : Val → String) (s : Versioner) : Prop where
  keysD : ∀ k, k ∈ s.dags.keys ↔ k ∈ s.nodes.keys
  keysV : ∀ k, k ∈ s.versions.keys ↔ k ∈ s.nodes.keys
  dagOK : ∀ k d, s.dags.get? k = some d → Dag.OK (Content.hash H) d
  dagHead : ∀ k d, s.dags.get? k = some d → d.head ≠ none
  dagsNodup : s.dags.keys.Nodup

/-- What creating components may change. -/
structure Ext (s t : Versioner) : Prop where
  topology : t.topology = s.topology
  df : t.df = s.df
  strict : t.strict = s.strict
  dags : ∀ k d, s.dags.get? k = some d → t.dags.get? k = some d
  vers : ∀ k vs, s.versions.get? k = some vs → t.versions.get? k = some vs
  versNew : ∀ k vs, t.versions.get? k = some vs → s.versions.get? k = some vs ∨ vs = []
  nodes : ∀ k, k ∈ s.nodes.keys → k ∈ t.nodes.keys

theorem Ext.refl (s : Versioner) : Ext s s := ⟨rfl, rfl, rfl, fun _ _ h => h, fun _ _ h => h, fun _ _ h => .inl h, fun _ h => h⟩

theorem Ext.trans {s t u : Versioner} (h : Ext s t) (g : Ext t u) : Ext s u where
  topology := g.topology.trans h.topology
  df := g.df.trans h.df
  strict := g.strict.trans h.strict
  dags k d hk := g.dags k d (h.dags k d hk)
  vers k vs hk := g.vers k vs (h.vers k vs hk)
  versNew k vs hk := by
    rcases g.versNew k vs hk with hk | hk
    · exact h.versNew k vs hk
    · exact .inr hk
  nodes k hk := g.nodes k (h.nodes k hk)

theorem Ext.dagsLE {s t : Versioner} (h : Ext s t) : DagsLE s.dags t.dags := fun _ _ _ ⟨d, c, h1, h2, h3⟩ => ⟨d, c, h.dags _ _ h1, h2, h3⟩

theorem initComponent_eq (s : Versioner) (k : DepKey) (n : TNode) (c : Content) :
    initComponent H s k n c = { s with nodes := s.nodes.set k n
                                       dags := s.dags.set k ⟨some (c.hash H), [(c.hash H, ⟨[], [], c.hash H, c.hash H, some c⟩)], some (c.hash H)⟩
                                       versions := s.versions.set k [] } := rfl

theorem initComponent_spec {s : Versioner} (hI : InvC H s) {k : DepKey} {n : TNode} {c : Content} (hk : k ∉ s.nodes.keys) :
    InvC H (initComponent H s k n c) ∧ Ext s (initComponent H s k n c) ∧ SemIn (initComponent H s k n c).dags k (c.hash H) (c.hash H) ∧
    k ∈ (initComponent H s k n c).nodes.keys ∧ ∀ k', k' ∈ (initComponent H s k n c).nodes.keys → k' ∈ s.nodes.keys ∨ k' = k := by
  rw [initComponent_eq]
  refine ⟨⟨?_, ?_, ?_, ?_, Dict.nodup_set hI.dagsNodup _ _⟩, ⟨rfl, rfl, rfl, ?_, ?_, ?_, ?_⟩, ?_, ?_, ?_⟩
  · intro x; dsimp only; rw [Dict.mem_keys_set, Dict.mem_keys_set, hI.keysD]
  · intro x; dsimp only; rw [Dict.mem_keys_set, Dict.mem_keys_set, hI.keysV]
  · intro x d hx
    dsimp only at hx
    rw [Dict.get?_set] at hx
    split at hx
    · cases hx
      exact Dag.step_keeps (hash := Content.hash H) (.inl rfl) (.init c)
    · exact hI.dagOK x d hx
  · intro x d hx
    dsimp only at hx
    rw [Dict.get?_set] at hx
    split at hx
    · cases hx
      simp
    · exact hI.dagHead x d hx
  · intro x d hx
    dsimp only
    have : k ≠ x := by
      rintro rfl
      exact hk ((hI.keysD _).1 (Dict.mem_keys.2 ⟨d, hx⟩))
    rw [Dict.get?_set_ne _ _ this, hx]
  · intro x d hx
    dsimp only
    have : k ≠ x := by
      rintro rfl
      exact hk ((hI.keysV _).1 (Dict.mem_keys.2 ⟨d, hx⟩))
    rw [Dict.get?_set_ne _ _ this, hx]
  · intro x d hx
    dsimp only at hx
    rw [Dict.get?_set] at hx
    split at hx
    · cases hx; exact .inr rfl
    · exact .inl hx
  · intro x hx
    dsimp only
    rw [Dict.mem_keys_set]
    exact .inr hx
  · exact ⟨_, _, by dsimp only; rw [Dict.get?_set_self], by dsimp only; rw [Dict.get?_cons, if_pos rfl], rfl⟩
  · dsimp only
    rw [Dict.mem_keys_set]
    exact .inl rfl
  · intro x hx
    dsimp only at hx
    rw [Dict.mem_keys_set] at hx
    exact hx.symm

/-- In a trace whose sources are all known, all new components get a history starting with their content. -/
theorem createComponents_spec : ∀ (trace : List (DepKey × TNode)) {s : Versioner}, InvC H s →
    (∀ k n, (k, n) ∈ trace → (∃ a b, n = .terminal a b) ∨ ∃ c, n.content = some c) →
    ∃ t, createComponents H s trace = (.ok (), t) ∧ InvC H t ∧ Ext s t ∧
      (∀ k, k ∈ t.nodes.keys → k ∈ s.nodes.keys ∨ ∃ n c, (k, n) ∈ trace ∧ n.content = some c) ∧
      (∀ k n c, (k, n) ∈ trace → n.content = some c → k ∈ t.nodes.keys) ∧
      ((Dict.keys trace).Nodup → ∀ k n c, (k, n) ∈ trace → n.content = some c → k ∈ s.nodes.keys ∨ SemIn t.dags k (c.hash H) (c.hash H))
  | [], s, hI, _ => by
    refine ⟨s, rfl, hI, .refl s, fun _ h => .inl h, ?_, ?_⟩
    · intro k n c h; cases h
    · intro _ k n c h; cases h
  | (k0, n0) :: rest, s, hI, hc => by
    have hrest : ∀ k n, (k, n) ∈ rest → (∃ a b, n = .terminal a b) ∨ ∃ c, n.content = some c :=
      fun k n h => hc k n (List.mem_cons_of_mem _ h)
    have lift : ∀ {t : Versioner}, createComponents H s ((k0, n0) :: rest) = createComponents H s rest →
        (∀ c, n0.content = some c → k0 ∈ s.nodes.keys) →
        createComponents H s rest = (.ok (), t) ∧ InvC H t ∧ Ext s t ∧
        (∀ k, k ∈ t.nodes.keys → k ∈ s.nodes.keys ∨ ∃ n c, (k, n) ∈ rest ∧ n.content = some c) ∧
        (∀ k n c, (k, n) ∈ rest → n.content = some c → k ∈ t.nodes.keys) ∧
        ((Dict.keys rest).Nodup → ∀ k n c, (k, n) ∈ rest → n.content = some c → k ∈ s.nodes.keys ∨ SemIn t.dags k (c.hash H) (c.hash H)) →
        ∃ t, createComponents H s ((k0, n0) :: rest) = (.ok (), t) ∧ InvC H t ∧ Ext s t ∧
          (∀ k, k ∈ t.nodes.keys → k ∈ s.nodes.keys ∨ ∃ n c, (k, n) ∈ (k0, n0) :: rest ∧ n.content = some c) ∧
          (∀ k n c, (k, n) ∈ (k0, n0) :: rest → n.content = some c → k ∈ t.nodes.keys) ∧
          ((Dict.keys ((k0, n0) :: rest)).Nodup → ∀ k n c, (k, n) ∈ (k0, n0) :: rest → n.content = some c →
            k ∈ s.nodes.keys ∨ SemIn t.dags k (c.hash H) (c.hash H)) := by
      rintro t he h0 ⟨h1, h2, h3, h4, h5, h6⟩
      refine ⟨t, he.trans h1, h2, h3, ?_, ?_, ?_⟩
      · intro k hk
        rcases h4 k hk with h | ⟨n, c, h, h'⟩
        · exact .inl h
        · exact .inr ⟨n, c, List.mem_cons_of_mem _ h, h'⟩
      · intro k n c hm hcont
        rcases List.mem_cons.1 hm with hm | hm
        · cases hm
          exact h3.nodes _ (h0 c hcont)
        · exact h5 k n c hm hcont
      · intro hnd k n c hm hcont
        simp only [Dict.keys, List.map_cons, List.nodup_cons] at hnd
        rcases List.mem_cons.1 hm with hm | hm
        · cases hm
          exact .inl (h0 c hcont)
        · exact h6 hnd.2 k n c hm hcont
    rcases hc k0 n0 (by simp) with ⟨a, b, rfl⟩ | ⟨c0, hc0⟩
    · obtain ⟨t, ht⟩ := createComponents_spec rest hI hrest
      exact lift (by rw [createComponents]) (by intro c h; cases h) ht
    · have hstep : createComponents H s ((k0, n0) :: rest) =
          if s.nodes.has k0 then createComponents H s rest else createComponents H (initComponent H s k0 n0 c0) rest := by
        cases n0 with
        | terminal a b => cases hc0
        | callable a b => rw [createComponents, hc0]; intro a b h; cases h
        | globalVar a b => rw [createComponents, hc0]; intro a b h; cases h
      by_cases hk : k0 ∈ s.nodes.keys
      · obtain ⟨t, ht⟩ := createComponents_spec rest hI hrest
        exact lift (by rw [hstep, if_pos (Dict.has_iff.2 hk)]) (fun _ _ => hk) ht
      · obtain ⟨i1, i2, i3, i4, i5⟩ := initComponent_spec (n := n0) (c := c0) hI hk
        obtain ⟨t, h1, h2, h3, h4, h5, h6⟩ := createComponents_spec rest i1 hrest
        refine ⟨t, ?_, h2, i2.trans h3, ?_, ?_, ?_⟩
        · rw [hstep, if_neg (by rw [Dict.has_iff]; exact hk), h1]
        · intro k hk'
          rcases h4 k hk' with h | ⟨n, c, h, h'⟩
          · rcases i5 k h with h | rfl
            · exact .inl h
            · exact .inr ⟨n0, c0, by simp, hc0⟩
          · exact .inr ⟨n, c, List.mem_cons_of_mem _ h, h'⟩
        · intro k n c hm hcont
          rcases List.mem_cons.1 hm with hm | hm
          · cases hm
            exact h3.nodes _ i4
          · exact h5 k n c hm hcont
        · intro hnd k n c hm hcont
          simp only [Dict.keys, List.map_cons, List.nodup_cons] at hnd
          rcases List.mem_cons.1 hm with hm | hm'
          · cases hm
            rw [hc0] at hcont
            cases hcont
            exact .inr (h3.dagsLE _ _ _ i3)
          · rcases h6 hnd.2 k n c hm' hcont with h | h
            · rcases i5 k h with h | rfl
              · exact .inl h
              · exact absurd (List.mem_map_of_mem (f := (·.1)) hm') hnd.1
            · exact .inr h

/-! ### the invariant -/

theorem getVersion_ok {versions : Dict DepKey (Dict String Version)} {k : DepKey} {cv : String} {v : Version} :
    getVersion versions k cv = .ok v ↔ ∃ vs, versions.get? k = some vs ∧ vs.get? cv = some v := by
  unfold getVersion
  cases h : versions.get? k with
  | none => simp
  | some vs =>
    dsimp only
    cases h' : vs.get? cv with
    | none => simp [h']
    | some w => simp [h']

/-- The semantic expansions disagree somewhere. -/
def Conflict (a b : Version) : Prop := ∃ k x y, a.semanticExpansion.get? k = some x ∧ b.semanticExpansion.get? k = some y ∧ x ≠ y

structure VInv (H : Val → String) (compOf : String → DepKey) (s : Versioner) : Prop extends InvC H s where
  topo : ∀ k, k ∈ s.nodes.keys → k ∈ s.topology.keys
  vers : ∀ k cv v, getVersion s.versions k cv = .ok v →
    VersionOK H s.dags v ∧ v.contentVersion = cv ∧ v.component = k ∧ ∀ k', k' ∈ v.contentExpansion.keys → k' ∈ s.topology.keys
  vnodup : ∀ k vs, s.versions.get? k = some vs → vs.keys.Nodup
  rows : ∀ r ∈ s.df, ∃ v, getVersion s.versions (compOf r.preCallUid) r.contentVersion = .ok v ∧ v.semanticVersion = r.semanticVersion
  pair : s.df.Pairwise fun a b => a.preCallUid = b.preCallUid → ∀ v w,
    getVersion s.versions (compOf a.preCallUid) a.contentVersion = .ok v →
    getVersion s.versions (compOf b.preCallUid) b.contentVersion = .ok w → Conflict v w

theorem VInv.empty (H : Val → String) (compOf : String → DepKey) (strict : Bool) : VInv H compOf (.empty strict) where
  keysD k := Iff.rfl
  keysV k := Iff.rfl
  dagOK k d h := by cases h
  dagHead k d h := by cases h
  dagsNodup := by simp [Versioner.empty, Dict.keys]
  topo k h := by cases h
  vers k cv v h := by cases h
  vnodup k vs h := by cases h
  rows r h := by cases h
  pair := .nil

variable {compOf : String → DepKey}

theorem str_inj {a b : String} (h : Val.str a = Val.str b) : a = b := by cases h; rfl

/-- Equal semantic versions mean equal semantic expansions. -/
theorem se_of_sv (hH : Function.Injective H) {dags : Dict DepKey (Dag String Content)} {v w : Version} (hv : VersionOK H dags v) (hw : VersionOK H dags w)
    (h : v.semanticVersion = w.semanticVersion) (k : DepKey) : v.semanticExpansion.get? k = w.semanticExpansion.get? k := by
  rw [hv.sv, hw.sv] at h
  have := hashDict_inj hH Val.str hv.seNodup hw.seNodup h k
  cases h1 : v.semanticExpansion.get? k <;> cases h2 : w.semanticExpansion.get? k <;> simp_all

theorem agree_false {a b : Dict DepKey String} (h : agree a b = false) :
    ∃ k x y, a.get? k = some x ∧ b.get? k = some y ∧ x ≠ y := by
  unfold agree at h
  rw [List.all_eq_false] at h
  obtain ⟨p, hp, hx⟩ := h
  have hk : p.1 ∈ Dict.keys a := List.mem_map.2 ⟨p, hp, rfl⟩
  rw [Dict.mem_keys] at hk
  obtain ⟨x, hk⟩ := hk
  cases hb : b.get? p.1 with
  | none => rw [hb] at hx; simp at hx
  | some y =>
    rw [hb] at hx
    refine ⟨p.1, x, y, hk, hb, ?_⟩
    rintro rfl
    simp [hk] at hx

theorem existingExpansions_spec {vs : Dict String Version} : ∀ (rows : List VRow) (acc ex : Dict String (Dict DepKey String)),
    existingExpansions vs rows acc = .ok ex →
    (∀ sv e, acc.get? sv = some e → ex.get? sv = some e) ∧
    (∀ r ∈ rows, ∃ e, ex.get? r.semanticVersion = some e) ∧
    (∀ sv e, ex.get? sv = some e → acc.get? sv = some e ∨
      ∃ r ∈ rows, r.semanticVersion = sv ∧ ∃ v, vs.get? r.contentVersion = some v ∧ e = v.semanticExpansion)
  | [], acc, ex, h => by
    unfold existingExpansions at h
    cases h
    refine ⟨fun _ _ h => h, ?_, fun _ _ h => .inl h⟩
    intro r hr
    cases hr
  | r :: rest, acc, ex, h => by
    unfold existingExpansions at h
    split at h
    · rename_i hh
      obtain ⟨h1, h2, h3⟩ := existingExpansions_spec rest acc ex h
      refine ⟨h1, ?_, ?_⟩
      · intro r' hr'
        rcases List.mem_cons.1 hr' with rfl | hr'
        · rw [Dict.has_iff, Dict.mem_keys] at hh
          obtain ⟨e, he⟩ := hh
          exact ⟨e, h1 _ _ he⟩
        · exact h2 r' hr'
      · intro sv e he
        rcases h3 sv e he with h | ⟨r', hr', h⟩
        · exact .inl h
        · exact .inr ⟨r', List.mem_cons_of_mem _ hr', h⟩
    · rename_i hh
      cases hv : vs.get? r.contentVersion with
      | none => rw [hv] at h; cases h
      | some v =>
        rw [hv] at h
        dsimp only at h
        obtain ⟨h1, h2, h3⟩ := existingExpansions_spec rest _ ex h
        refine ⟨?_, ?_, ?_⟩
        · intro sv e he
          refine h1 sv e ?_
          have : r.semanticVersion ≠ sv := by
            rintro rfl
            exact hh (Dict.has_iff.2 (Dict.mem_keys.2 ⟨e, he⟩))
          rw [Dict.get?_set_ne _ _ this, he]
        · intro r' hr'
          rcases List.mem_cons.1 hr' with rfl | hr'
          · exact ⟨_, h1 _ _ (Dict.get?_set_self _ _ _)⟩
          · exact h2 r' hr'
        · intro sv e he
          rcases h3 sv e he with h | ⟨r', hr', h⟩
          · rw [Dict.get?_set] at h
            split at h
            · rename_i he'
              cases h
              exact .inr ⟨r, by simp, he', v, hv, rfl⟩
            · exact .inl h
          · exact .inr ⟨r', List.mem_cons_of_mem _ hr', h⟩

/-- A version that passes the check conflicts with every version recorded for the call. -/
theorem check_spec (hH : Function.Injective H) {s : Versioner} (hI : VInv H compOf s) {uid : String} {v : Version}
    (h : checkDistinguishable s (compOf uid) uid v = .ok ()) :
    ∀ r ∈ s.df, r.preCallUid = uid → ∀ w, getVersion s.versions (compOf r.preCallUid) r.contentVersion = .ok w → Conflict w v := by
  intro r hr hu w hw
  subst hu
  have hmem : r ∈ s.df.filter (fun x => decide (x.preCallUid = r.preCallUid)) := List.mem_filter.2 ⟨hr, by simp⟩
  unfold checkDistinguishable at h
  obtain ⟨vs, hvs, hvw⟩ := getVersion_ok.1 hw
  cases hf : s.df.filter (fun x => decide (x.preCallUid = r.preCallUid)) with
  | nil => rw [hf] at hmem; cases hmem
  | cons a l =>
    rw [hf] at h
    dsimp only at h
    rw [hvs] at h
    dsimp only at h
    rw [← hf] at h
    cases hx : existingExpansions vs (s.df.filter (fun x => decide (x.preCallUid = r.preCallUid))) [] with
    | error e => rw [hx] at h; cases h
    | ok ex =>
      rw [hx] at h
      dsimp only at h
      split at h
      · cases h
      · rename_i hany
        obtain ⟨_, h2, h3⟩ := existingExpansions_spec _ _ _ hx
        obtain ⟨e, he⟩ := h2 r hmem
        rcases h3 _ _ he with h4 | ⟨r', hr', hsv, v', hv', rfl⟩
        · cases h4
        · rw [List.mem_filter] at hr'
          have hu : r'.preCallUid = r.preCallUid := by simpa using hr'.2
          obtain ⟨v'', hg'', hs''⟩ := hI.rows r' hr'.1
          have hg' : getVersion s.versions (compOf r'.preCallUid) r'.contentVersion = .ok v' := by
            rw [hu]; exact getVersion_ok.2 ⟨vs, hvs, hv'⟩
          rw [hg'] at hg''
          cases hg''
          have hok' := (hI.vers _ _ _ hg').1
          have hok := (hI.vers _ _ _ hw).1
          obtain ⟨w', hw', hsw⟩ := hI.rows r hr
          rw [hw] at hw'
          cases hw'
          have heq := se_of_sv hH hok' hok (by rw [hs'', hsw, hsv])
          rw [Bool.not_eq_true, List.any_eq_false] at hany
          have := hany _ (mem_of_get? he)
          rw [Bool.not_eq_true] at this
          obtain ⟨k, x, y, a1, a2, a3⟩ := agree_false this
          exact ⟨k, x, y, by rw [← heq]; exact a1, a2, a3⟩

theorem getVersion_ext {s t : Versioner} (h : Ext s t) {k : DepKey} {cv : String} {v : Version} :
    getVersion t.versions k cv = .ok v ↔ getVersion s.versions k cv = .ok v := by
  rw [getVersion_ok, getVersion_ok]
  constructor
  · rintro ⟨vs, h1, h2⟩
    rcases h.versNew k vs h1 with h1 | rfl
    · exact ⟨vs, h1, h2⟩
    · cases h2
  · rintro ⟨vs, h1, h2⟩
    exact ⟨vs, h.vers k vs h1, h2⟩

theorem VInv.ext {s t : Versioner} (hI : VInv H compOf s) (hC : InvC H t) (h : Ext s t) (hn : ∀ k, k ∈ t.nodes.keys → k ∈ s.topology.keys) :
    VInv H compOf t where
  toInvC := hC
  topo k hk := by rw [h.topology]; exact hn k hk
  vers k cv v hv := by
    obtain ⟨h1, h2, h3, h4⟩ := hI.vers k cv v ((getVersion_ext h).1 hv)
    refine ⟨h1.mono h.dagsLE, h2, h3, ?_⟩
    rw [h.topology]
    exact h4
  vnodup k vs hk := by
    rcases h.versNew k vs hk with hk | rfl
    · exact hI.vnodup k vs hk
    · simp [Dict.keys]
  rows r hr := by
    rw [h.df] at hr
    obtain ⟨v, hv, hs⟩ := hI.rows r hr
    exact ⟨v, (getVersion_ext h).2 hv, hs⟩
  pair := by
    rw [h.df]
    exact hI.pair.imp fun hab hu v w hv hw => hab hu v w ((getVersion_ext h).1 hv) ((getVersion_ext h).1 hw)

/-- Storing a version: the stored ones stay, the new one, or one equal to it, is there. -/
theorem storeVersion_spec (hH : Function.Injective H) {s t : Versioner} (hI : VInv H compOf s) {v : Version} (hv : VersionOK H s.dags v)
    (ht : ∀ k, k ∈ v.contentExpansion.keys → k ∈ s.topology.keys) (h : storeVersion s v = .ok t) :
    VInv H compOf t ∧ t.topology = s.topology ∧ t.df = s.df ∧ t.strict = s.strict ∧ t.dags = s.dags ∧ t.nodes = s.nodes ∧
    (∀ k cv w, getVersion s.versions k cv = .ok w → getVersion t.versions k cv = .ok w) ∧
    ∃ w, getVersion t.versions v.component v.contentVersion = .ok w ∧ w.semanticVersion = v.semanticVersion ∧
      ∀ k, w.semanticExpansion.get? k = v.semanticExpansion.get? k := by
  unfold storeVersion at h
  cases hc : s.versions.get? v.component with
  | none => rw [hc] at h; cases h
  | some vs =>
    rw [hc] at h
    dsimp only at h
    split at h
    · rename_i hh
      cases h
      rw [Dict.has_iff, Dict.mem_keys] at hh
      obtain ⟨w, hw⟩ := hh
      have hg : getVersion s.versions v.component v.contentVersion = .ok w := getVersion_ok.2 ⟨vs, hc, hw⟩
      obtain ⟨h1, h2, -, -⟩ := hI.vers _ _ _ hg
      obtain ⟨h3, h4⟩ := h1.same hH hv h2
      exact ⟨hI, rfl, rfl, rfl, rfl, rfl, fun _ _ _ h => h, w, hg, h4, h3⟩
    · rename_i hh
      cases h
      have hnew : v.contentVersion ∉ vs.keys := fun hm => hh (Dict.has_iff.2 hm)
      have hget : ∀ k cv w, getVersion (s.versions.set v.component (vs.set v.contentVersion v)) k cv = .ok w ↔
          (k = v.component ∧ cv = v.contentVersion ∧ w = v) ∨ getVersion s.versions k cv = .ok w := by
        intro k cv w
        rw [getVersion_ok, getVersion_ok]
        constructor
        · rintro ⟨xs, h1, h2⟩
          rw [Dict.get?_set] at h1
          split at h1
          · rename_i he
            cases h1
            rw [Dict.get?_set] at h2
            split at h2
            · rename_i he'
              cases h2
              exact .inl ⟨he.symm, he'.symm, rfl⟩
            · exact .inr ⟨vs, by rw [← he]; exact hc, h2⟩
          · exact .inr ⟨xs, h1, h2⟩
        · rintro (⟨rfl, rfl, rfl⟩ | ⟨xs, h1, h2⟩)
          · exact ⟨_, Dict.get?_set_self _ _ _, Dict.get?_set_self _ _ _⟩
          · by_cases hk : v.component = k
            · subst hk
              rw [hc] at h1
              cases h1
              refine ⟨_, Dict.get?_set_self _ _ _, ?_⟩
              rw [Dict.get?_set_ne _ _ (by rintro rfl; exact hnew (Dict.mem_keys.2 ⟨w, h2⟩)), h2]
            · exact ⟨xs, by rw [Dict.get?_set_ne _ _ hk, h1], h2⟩
      have hold : ∀ r ∈ s.df, ∀ w, getVersion (s.versions.set v.component (vs.set v.contentVersion v)) (compOf r.preCallUid) r.contentVersion = .ok w →
          getVersion s.versions (compOf r.preCallUid) r.contentVersion = .ok w := by
        intro r hr w hw
        rcases (hget _ _ _).1 hw with ⟨h1, h2, rfl⟩ | h
        · obtain ⟨u, hu, _⟩ := hI.rows r hr
          rw [h1, h2] at hu
          obtain ⟨xs, h3, h4⟩ := getVersion_ok.1 hu
          rw [hc] at h3
          cases h3
          exact absurd (Dict.mem_keys.2 ⟨u, h4⟩) hnew
        · exact h
      refine ⟨⟨⟨hI.keysD, ?_, hI.dagOK, hI.dagHead, hI.dagsNodup⟩, hI.topo, ?_, ?_, ?_, ?_⟩, rfl, rfl, rfl, rfl, rfl, fun k cv w hw => (hget k cv w).2 (.inr hw), v,
        (hget _ _ _).2 (.inl ⟨rfl, rfl, rfl⟩), rfl, fun _ => rfl⟩
      · intro k
        dsimp only
        rw [Dict.mem_keys_set, hI.keysV]
        constructor
        · rintro (rfl | h)
          · exact (hI.keysV _).1 (Dict.mem_keys.2 ⟨vs, hc⟩)
          · exact h
        · exact .inr
      · intro k cv w hw
        rcases (hget k cv w).1 hw with ⟨rfl, rfl, rfl⟩ | hw
        · exact ⟨hv, rfl, rfl, ht⟩
        · exact hI.vers k cv w hw
      · intro k xs hk
        dsimp only at hk
        rw [Dict.get?_set] at hk
        split at hk
        · cases hk
          exact Dict.nodup_set (hI.vnodup _ _ hc) _ _
        · exact hI.vnodup k xs hk
      · intro r hr
        obtain ⟨w, hw, hs⟩ := hI.rows r hr
        exact ⟨w, (hget _ _ _).2 (.inr hw), hs⟩
      · refine hI.pair.imp_of_mem ?_
        intro a b ha hb hab hu w w' hw hw'
        exact hab hu w w' (hold a ha w hw) (hold b hb w' hw')

/-- What `process_trace` does. -/
theorem processTrace_spec (hH : Function.Injective H) {s : Versioner} (hI : VInv H compOf s) {uid : String} {trace : List (DepKey × TNode)}
    (hnd : (Dict.keys trace).Nodup) (ht : ∀ k n c, (k, n) ∈ trace → n.content = some c → k ∈ s.topology.keys)
    (hc : ∀ k n, (k, n) ∈ trace → (∃ a b, n = .terminal a b) ∨ ∃ c, n.content = some c) :
    ∃ r t, processTrace H s [compOf uid] trace uid = (r, t) ∧ VInv H compOf t ∧ t.topology = s.topology ∧ t.strict = s.strict ∧
      (∀ k d, s.dags.get? k = some d → t.dags.get? k = some d) ∧
      (∀ k n c, (k, n) ∈ trace → n.content = some c → k ∈ t.nodes.keys ∧ (k ∈ s.nodes.keys ∨ SemIn t.dags k (c.hash H) (c.hash H))) ∧
      (∀ k, k ∈ s.nodes.keys → k ∈ t.nodes.keys) ∧
      (∀ k cv w, getVersion s.versions k cv = .ok w → getVersion t.versions k cv = .ok w) ∧
      ((∃ e, r = .error e ∧ t.df = s.df) ∨ ∃ v, r = .ok v ∧ t.df = s.df ++ [⟨uid, v.semanticVersion, v.contentVersion⟩] ∧
        VersionOK H t.dags v ∧ (∀ k n c, (k, n) ∈ trace → n.content = some c → ∃ x, v.semanticExpansion.get? k = some x ∧ SemIn t.dags k (c.hash H) x) ∧
        (∀ k x, v.semanticExpansion.get? k = some x → (∃ n c, (k, n) ∈ trace ∧ n.content = some c ∧ SemIn t.dags k (c.hash H) x) ∨
          ∃ kk dk cv w, (kk, TNode.terminal dk cv) ∈ trace ∧ getVersion s.versions dk cv = .ok w ∧ w.semanticExpansion.get? k = some x) ∧
        (∀ kk dk cv, (kk, TNode.terminal dk cv) ∈ trace → ∃ w, getVersion s.versions dk cv = .ok w ∧
          ∀ k x, w.semanticExpansion.get? k = some x → v.semanticExpansion.get? k = some x) ∧
        ∃ w, getVersion t.versions (compOf uid) v.contentVersion = .ok w ∧ w.semanticVersion = v.semanticVersion ∧
          ∀ k, w.semanticExpansion.get? k = v.semanticExpansion.get? k) := by
  obtain ⟨s1, h1, hC, hE, hn1, hn2, hsem⟩ := createComponents_spec (H := H) trace hI.toInvC hc
  have hI1 : VInv H compOf s1 := hI.ext hC hE fun k hk => by
    rcases hn1 k hk with h | ⟨n, c, h, h'⟩
    · exact hI.topo k h
    · exact ht k n c h h'
  have hcreated : ∀ k n c, (k, n) ∈ trace → n.content = some c → k ∈ s1.nodes.keys ∧ (k ∈ s.nodes.keys ∨ SemIn s1.dags k (c.hash H) (c.hash H)) :=
    fun k n c hm hcont => ⟨hn2 k n c hm hcont, hsem hnd k n c hm hcont⟩
  unfold processTrace
  rw [h1]
  dsimp only
  cases hm : makeVersion H s1 (compOf uid) trace with
  | error e =>
    dsimp only
    exact ⟨_, _, rfl, hI1, hE.topology, hE.strict, hE.dags, hcreated, hE.nodes, fun k cv w h => (getVersion_ext hE).2 h, .inl ⟨e, rfl, hE.df⟩⟩
  | ok v =>
    dsimp only
    obtain ⟨m1, m2, m3, m4, m5⟩ := makeVersion_spec (fun k cv w h => (hI1.vers k cv w h).1) hm
    cases hst : storeVersion s1 v with
    | error e =>
      dsimp only
      exact ⟨_, _, rfl, hI1, hE.topology, hE.strict, hE.dags, hcreated, hE.nodes, fun k cv w h => (getVersion_ext hE).2 h, .inl ⟨e, rfl, hE.df⟩⟩
    | ok s2 =>
      dsimp only
      obtain ⟨t1, t2, t3, t4, t5, t6, t7, w, t8, t9, t10⟩ := storeVersion_spec hH hI1 m1 (fun k hk => by
        rw [hE.topology]
        obtain ⟨x, hx⟩ := Dict.mem_keys.1 ((m1.dom k).1 hk)
        rcases m4 k x hx with ⟨n, c, h, h', _⟩ | ⟨kk, k', cv, w, _, h, h'⟩
        · exact ht k n c h h'
        · have hw := hI1.vers k' cv w h
          have := hw.2.2.2 k ((hw.1.dom k).2 (Dict.mem_keys.2 ⟨x, h'⟩))
          rwa [hE.topology] at this) hst
      have hdags : ∀ k d, s.dags.get? k = some d → s2.dags.get? k = some d := by rw [t5]; exact hE.dags
      have hcreated2 : ∀ k n c, (k, n) ∈ trace → n.content = some c → k ∈ s2.nodes.keys ∧ (k ∈ s.nodes.keys ∨ SemIn s2.dags k (c.hash H) (c.hash H)) := by
        rw [t5, t6]; exact hcreated
      have hnodes2 : ∀ k, k ∈ s.nodes.keys → k ∈ s2.nodes.keys := by rw [t6]; exact hE.nodes
      have hget2 : ∀ k cv w, getVersion s.versions k cv = .ok w → getVersion s2.versions k cv = .ok w :=
        fun k cv w h => t7 k cv w ((getVersion_ext hE).2 h)
      cases hch : checkDistinguishable s2 (compOf uid) uid v with
      | error e =>
        dsimp only
        exact ⟨_, _, rfl, t1, t2.trans hE.topology, t4.trans hE.strict, hdags, hcreated2, hnodes2, hget2, .inl ⟨e, rfl, t3.trans hE.df⟩⟩
      | ok u =>
        dsimp only
        rw [m2] at t8
        refine ⟨_, _, rfl, ⟨⟨t1.keysD, t1.keysV, t1.dagOK, t1.dagHead, t1.dagsNodup⟩, t1.topo, t1.vers, t1.vnodup, ?_, ?_⟩, t2.trans hE.topology, t4.trans hE.strict, hdags, hcreated2, hnodes2, hget2,
          .inr ⟨v, rfl, by dsimp only; rw [t3, hE.df], by rw [t5]; exact m1, ?_, ?_, ?_, w, t8, t9, t10⟩⟩
        · intro r hr
          rcases List.mem_append.1 hr with hr | hr
          · exact t1.rows r hr
          · rw [List.mem_singleton] at hr
            subst hr
            exact ⟨w, t8, t9⟩
        · rw [List.pairwise_append]
          refine ⟨t1.pair, List.pairwise_singleton _ _, ?_⟩
          intro a ha b hb hu x y hx hy
          rw [List.mem_singleton] at hb
          subst hb
          dsimp only at hu hy
          obtain ⟨k, p, q, c1, c2, c3⟩ := check_spec hH t1 hch a ha hu x hx
          rw [t8] at hy
          cases hy
          exact ⟨k, p, q, c1, by rw [t10]; exact c2, c3⟩
        · intro k n c hmem hcont
          dsimp only
          rw [t5]
          exact m3 hnd k n c hmem hcont
        · intro k x hx
          dsimp only
          rw [t5]
          rcases m4 k x hx with h | ⟨kk, k', cv, w, h, h', h''⟩
          · exact .inl h
          · exact .inr ⟨kk, k', cv, w, h, (getVersion_ext hE).1 h', h''⟩
        · intro kk dk cv hmem
          obtain ⟨w, h, h'⟩ := m5 kk dk cv hmem
          exact ⟨w, (getVersion_ext hE).1 h, h'⟩

/-! ### synchronising and dropping -/

theorem syncDags_spec {cs : CodeState} {answer : DepKey → Answer} : ∀ (l l' : List (DepKey × Dag String Content)), syncDags H cs answer l = .ok l' →
    Dict.keys l' = Dict.keys l ∧ ∀ k d, Dict.get? l k = some d → ∃ n c d', cs.get? k = some n ∧ n.content = some c ∧
      ∃ x, d.sync (Content.hash H) c none (answer k) = .ok (d', x) ∧ Dict.get? l' k = some d'
  | [], l', h => by
    unfold syncDags at h
    cases h
    exact ⟨rfl, fun k d h => by cases h⟩
  | (k0, d0) :: rest, l', h => by
    unfold syncDags at h
    cases h1 : cs.get? k0 with
    | none => rw [h1] at h; cases h
    | some n =>
      rw [h1] at h
      dsimp only at h
      cases h2 : n.content with
      | none => rw [h2] at h; cases h
      | some c =>
        rw [h2] at h
        dsimp only at h
        cases h3 : d0.sync (Content.hash H) c none (answer k0) with
        | error e => rw [h3] at h; cases h
        | ok r =>
          rw [h3] at h
          dsimp only at h
          cases h4 : syncDags H cs answer rest with
          | error e => rw [h4] at h; cases h
          | ok ds =>
            rw [h4] at h
            dsimp only at h
            cases h
            obtain ⟨h5, h6⟩ := syncDags_spec rest ds h4
            refine ⟨by simp only [Dict.keys, List.map_cons] at h5 ⊢; rw [h5], ?_⟩
            intro k d hk
            rw [Dict.get?_cons] at hk
            rw [Dict.get?_cons]
            by_cases he : k0 = k
            · subst he
              rw [if_pos rfl] at hk ⊢
              cases hk
              exact ⟨n, c, r.1, h1, h2, r.2, by rw [h3], rfl⟩
            · rw [if_neg he] at hk ⊢
              exact h6 k d hk

theorem sync_old {d d' : Dag String Content} (hd : d.OK (Content.hash H)) {c : Content} {a : Answer} {x : String}
    (h : d.sync (Content.hash H) c none a = .ok (d', x)) :
    d'.OK (Content.hash H) ∧ x = c.hash H ∧ (∀ k o, d.commits.get? k = some o → d'.commits.get? k = some o) ∧ d'.head = some (c.hash H) ∧
      ∃ o, d'.commits.get? (c.hash H) = some o := by
  have hstep : Dag.step (Content.hash H) d (.sync c none a) = d' := by unfold Dag.step; dsimp only; rw [h]
  have hok' : d'.OK (Content.hash H) := by rw [← hstep]; exact Dag.step_keeps hd _
  have hold : ∀ k o, d.commits.get? k = some o → d'.commits.get? k = some o := by
    intro k o ho
    rw [← hstep]
    exact Dag.step_old hd _ ho
  obtain ⟨rfl, hs⟩ := Dag.sync_ok h hd
  refine ⟨hok', rfl, hold, ?_⟩
  rcases hs with ⟨hk, rfl⟩ | ⟨hk, hcm⟩
  · exact ⟨rfl, Dict.mem_keys.1 hk⟩
  · obtain ⟨_, hn, y, ho, b, hc, h1, h2, h3, rfl⟩ := Dag.commit_ok hcm
    exact ⟨rfl, _, by rw [Dag.get?_snoc hn, if_pos rfl]⟩

theorem VInv.sync {s : Versioner} (hI : VInv H compOf s) {cs : CodeState} {answer : DepKey → Answer} {ds : Dict DepKey (Dag String Content)}
    (h : syncDags H cs answer s.dags = .ok ds) :
    VInv H compOf { s with dags := ds } ∧ DagsLE s.dags ds ∧ ∀ k, k ∈ s.nodes.keys → ∃ x, CurSem H ds cs k x := by
  obtain ⟨h1, h2⟩ := syncDags_spec _ _ h
  have hle : DagsLE s.dags ds := by
    rintro k x y ⟨d, c, a1, a2, a3⟩
    obtain ⟨n, c', d', b1, b2, z, b3, b4⟩ := h2 k d a1
    obtain ⟨o1, o2, o3, o4⟩ := sync_old (hI.dagOK k d a1) b3
    exact ⟨d', c, b4, o3 _ _ a2, a3⟩
  refine ⟨⟨⟨?_, hI.keysV, ?_, ?_, by dsimp only; rw [h1]; exact hI.dagsNodup⟩, hI.topo, ?_, hI.vnodup, hI.rows, hI.pair⟩, hle, ?_⟩
  · intro k; dsimp only; rw [h1]; exact hI.keysD k
  · intro k d hk
    dsimp only at hk
    have hk' : k ∈ s.dags.keys := by rw [← h1]; exact Dict.mem_keys.2 ⟨d, hk⟩
    obtain ⟨d0, hd0⟩ := Dict.mem_keys.1 hk'
    obtain ⟨n, c', d', b1, b2, z, b3, b4⟩ := h2 k d0 hd0
    rw [hk] at b4
    cases b4
    exact (sync_old (hI.dagOK k d0 hd0) b3).1
  · intro k d hk
    dsimp only at hk
    have hk' : k ∈ s.dags.keys := by rw [← h1]; exact Dict.mem_keys.2 ⟨d, hk⟩
    obtain ⟨d0, hd0⟩ := Dict.mem_keys.1 hk'
    obtain ⟨n, c', d', b1, b2, z, b3, b4⟩ := h2 k d0 hd0
    rw [hk] at b4
    cases b4
    rw [(sync_old (hI.dagOK k d0 hd0) b3).2.2.2.1]
    simp
  · intro k cv v hv
    obtain ⟨a1, a2⟩ := hI.vers k cv v hv
    exact ⟨a1.mono hle, a2⟩
  · intro k hk
    obtain ⟨d0, hd0⟩ := Dict.mem_keys.1 ((hI.keysD k).2 hk)
    obtain ⟨n, c', d', b1, b2, z, b3, b4⟩ := h2 k d0 hd0
    obtain ⟨_, _, _, _, o, ho⟩ := sync_old (hI.dagOK k d0 hd0) b3
    exact ⟨o.semanticHash, n, c', b1, b2, d', o, b4, ho, rfl⟩

theorem get?_map_val {V W : Type} (f : V → W) (d : Dict DepKey V) (k : DepKey) : Dict.get? (d.map fun p => (p.1, f p.2)) k = (d.get? k).map f :=
  Dict.get?_mapVals f d k

theorem keys_map_val {V W : Type} (f : V → W) (d : Dict DepKey V) : Dict.keys (d.map fun p => (p.1, f p.2)) = d.keys := Dict.keys_mapVals f d

theorem get?_filter_val {V : Type} {d : Dict String V} (hd : d.keys.Nodup) (f : V → Bool) (k : String) :
    Dict.get? (d.filter fun p => f p.2) k = (d.get? k).filter f := by
  have hn : (Dict.keys (d.filter fun p => f p.2)).Nodup := by
    unfold Dict.keys at hd ⊢
    exact hd.sublist (List.filter_sublist.map _)
  apply Option.ext
  intro v
  rw [Dict.get?_eq_some_iff hn, List.mem_filter, Option.filter_eq_some_iff, Dict.get?_eq_some_iff hd]

theorem getVersion_drop {s : Versioner} (hI : VInv H compOf s) {sv : String} {k : DepKey} {cv : String} {v : Version} :
    getVersion (s.dropSemanticVersion sv).versions k cv = .ok v ↔ getVersion s.versions k cv = .ok v ∧ v.semanticVersion ≠ sv := by
  rw [getVersion_ok, getVersion_ok]
  unfold dropSemanticVersion
  dsimp only
  rw [get?_map_val (fun vs : Dict String Version => vs.filter fun q => decide (q.2.semanticVersion ≠ sv))]
  constructor
  · rintro ⟨vs, h1, h2⟩
    cases h3 : s.versions.get? k with
    | none => rw [h3] at h1; cases h1
    | some xs =>
      rw [h3] at h1
      cases h1
      rw [get?_filter_val (hI.vnodup k xs h3) (fun q => decide (q.semanticVersion ≠ sv))] at h2
      rw [Option.filter_eq_some_iff] at h2
      exact ⟨⟨xs, rfl, h2.1⟩, by simpa using h2.2⟩
  · rintro ⟨⟨xs, h3, h4⟩, h5⟩
    rw [h3]
    refine ⟨_, rfl, ?_⟩
    rw [get?_filter_val (hI.vnodup k xs h3) (fun q => decide (q.semanticVersion ≠ sv)), h4]
    simp [Option.filter, h5]

theorem VInv.drop {s : Versioner} (hI : VInv H compOf s) (sv : String) : VInv H compOf (s.dropSemanticVersion sv) where
  keysD := hI.keysD
  keysV k := by
    refine Iff.trans ?_ (hI.keysV k)
    unfold dropSemanticVersion
    dsimp only
    rw [keys_map_val (fun vs : Dict String Version => vs.filter fun q => decide (q.2.semanticVersion ≠ sv))]
  dagOK := hI.dagOK
  dagHead := hI.dagHead
  dagsNodup := hI.dagsNodup
  topo := hI.topo
  vers k cv v hv := hI.vers k cv v ((getVersion_drop hI).1 hv).1
  vnodup k vs hk := by
    unfold dropSemanticVersion at hk
    dsimp only at hk
    rw [get?_map_val (fun vs : Dict String Version => vs.filter fun q => decide (q.2.semanticVersion ≠ sv))] at hk
    cases h3 : s.versions.get? k with
    | none => rw [h3] at hk; cases hk
    | some xs =>
      rw [h3] at hk
      cases hk
      have := hI.vnodup k xs h3
      unfold Dict.keys at this ⊢
      exact this.sublist (List.filter_sublist.map _)
  rows r hr := by
    unfold dropSemanticVersion at hr
    dsimp only at hr
    rw [List.mem_filter] at hr
    obtain ⟨v, h1, h2⟩ := hI.rows r hr.1
    exact ⟨v, (getVersion_drop hI).2 ⟨h1, by rw [h2]; simpa using hr.2⟩, h2⟩
  pair := by
    refine (hI.pair.sublist List.filter_sublist).imp ?_
    intro a b hab hu v w hv hw
    exact hab hu v w ((getVersion_drop hI).1 hv).1 ((getVersion_drop hI).1 hw).1

end Versioner
end Verif
