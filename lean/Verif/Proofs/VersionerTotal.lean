import Verif.Proofs.VersionerRun
/-!
When syncing the code base and registering an execution succeed.
-/
namespace Verif
open Versioner

variable {H : Val → String} {compOf : String → DepKey}

namespace Versioner

/-! ### syncing -/

theorem sync_total {d : Dag String Content} (hd : d.OK (Content.hash H)) (hh : d.head ≠ none) {c : Content} {a : Answer}
    (ha : a = .abort → c.hash H ∈ d.commits.keys) : ∃ r, d.sync (Content.hash H) c none a = .ok r := by
  rcases hd with rfl | ⟨x, r, h1, h2, h3, hg⟩
  · exact absurd rfl hh
  · unfold Dag.sync
    rw [h1]
    dsimp only
    split
    · exact ⟨_, rfl⟩
    · by_cases hk : c.hash H ∈ d.commits.keys
      · rw [if_pos (Dict.has_iff.2 hk)]
        unfold Dag.checkout
        rw [if_pos (Dict.has_iff.2 hk)]
        exact ⟨_, rfl⟩
      · rw [if_neg (by rw [Dict.has_iff]; exact hk)]
        obtain ⟨o, ho⟩ := Dict.mem_keys.1 h2
        obtain ⟨pc, _, _, h4⟩ := hg.content d rfl (d.commits.length + 1) (by omega) x o ho
        unfold Dag.commit
        rw [h1]
        dsimp only
        rw [if_neg (by rw [Dict.has_iff]; exact hk)]
        cases a with
        | abort => exact absurd (ha rfl) hk
        | yes => simp only [Dag.declared, ho, h4]; exact ⟨_, rfl⟩
        | no => simp only [Dag.declared, ho, h4]; exact ⟨_, rfl⟩

theorem sync_abort {d : Dag String Content} {c : Content} (hd : d.OK (Content.hash H)) {r : Dag String Content × String}
    (h : d.sync (Content.hash H) c none .abort = .ok r) : c.hash H ∈ d.commits.keys := by
  obtain ⟨d', k⟩ := r
  obtain ⟨rfl, ⟨h1, _⟩ | ⟨_, h1⟩⟩ := Dag.sync_ok h hd
  · exact h1
  · obtain ⟨_, _, _, _, s, _, _, _, h3, _⟩ := Dag.commit_ok h1
    cases h3

theorem syncDags_total {cs : CodeState} {answer : DepKey → Answer} : ∀ (l : List (DepKey × Dag String Content)),
    (∀ k d, (k, d) ∈ l → ∃ n c, cs.get? k = some n ∧ n.content = some c ∧ ∃ r, d.sync (Content.hash H) c none (answer k) = .ok r) →
    ∃ l', syncDags H cs answer l = .ok l'
  | [], _ => ⟨[], rfl⟩
  | (k, d) :: rest, h => by
    obtain ⟨n, c, h1, h2, r, h3⟩ := h k d (by simp)
    obtain ⟨l', h4⟩ := syncDags_total rest fun k' d' hm => h k' d' (List.mem_cons_of_mem _ hm)
    refine ⟨(k, r.1) :: l', ?_⟩
    unfold syncDags
    rw [h1]
    dsimp only
    rw [h2]
    dsimp only
    rw [h3]
    dsimp only
    rw [h4]

/-! ### registering an execution -/

theorem directDeps_total : ∀ (trace : List (DepKey × TNode)) (acc : Dict DepKey String),
    (∀ k n, (k, n) ∈ trace → ∃ c, n.content = some c) → ∃ d, directDeps H trace acc = .ok d
  | [], acc, _ => ⟨acc, rfl⟩
  | (k, n) :: rest, acc, h => by
    obtain ⟨c, hc⟩ := h k n (by simp)
    obtain ⟨d, hd⟩ := directDeps_total rest (acc.set k (c.hash H)) fun k' n' hm => h k' n' (List.mem_cons_of_mem _ hm)
    refine ⟨d, ?_⟩
    cases n with
    | terminal a b => cases hc
    | callable a b => unfold directDeps contentHash; dsimp only; rw [hc]; exact hd
    | globalVar a b => unfold directDeps contentHash; dsimp only; rw [hc]; exact hd

theorem semanticDirect_total {dags : Dict DepKey (Dag String Content)} : ∀ (l : List (DepKey × String)) (acc : Dict DepKey String),
    (∀ k h, (k, h) ∈ l → ∃ x, SemIn dags k h x) → ∃ d, semanticDirect dags l acc = .ok d
  | [], acc, _ => ⟨acc, rfl⟩
  | (k, h) :: rest, acc, hl => by
    obtain ⟨x, d, c, h1, h2, h3⟩ := hl k h (by simp)
    obtain ⟨r, hr⟩ := semanticDirect_total (dags := dags) rest (acc.set k c.semanticHash) fun k' h' hm => hl k' h' (List.mem_cons_of_mem _ hm)
    refine ⟨r, ?_⟩
    unfold semanticDirect
    rw [h1]
    dsimp only
    rw [h2]
    exact hr

theorem no_pointers {trace : List (DepKey × TNode)} (h : ∀ k n, (k, n) ∈ trace → ∃ c, n.content = some c) : pointers (memoizedDeps trace) = [] := by
  rw [List.eq_nil_iff_forall_not_mem]
  rintro ⟨dk, cv⟩ hm
  obtain ⟨k, hk⟩ := (mem_pointers trace dk cv).1 hm
  obtain ⟨c, hc⟩ := h k _ hk
  cases hc

theorem makeVersion_total {s : Versioner} {component : DepKey} {trace : List (DepKey × TNode)}
    (hc : ∀ k n, (k, n) ∈ trace → ∃ c, n.content = some c ∧ ∃ x, SemIn s.dags k (c.hash H) x) : ∃ v, makeVersion H s component trace = .ok v := by
  have hc' : ∀ k n, (k, n) ∈ trace → ∃ c, n.content = some c := fun k n hm => let ⟨c, h, _⟩ := hc k n hm; ⟨c, h⟩
  obtain ⟨direct, hd⟩ := directDeps_total (H := H) trace [] hc'
  obtain ⟨d1, d2, _, _⟩ := directDeps_spec trace [] direct hd (by simp [Dict.keys])
  obtain ⟨sd, hs⟩ := semanticDirect_total (dags := s.dags) direct [] (by
    intro k h hm
    rcases d2 k h (get?_of_mem d1 hm) with h1 | ⟨n, c, h1, h2, rfl⟩
    · cases h1
    · obtain ⟨c', h3, h4⟩ := hc k n h1
      rw [h2] at h3
      cases h3
      exact h4)
  unfold makeVersion
  rw [hd]
  dsimp only
  rw [no_pointers hc']
  unfold contentExpansionLoop
  dsimp only
  rw [hs]
  unfold semanticPointers
  exact ⟨_, rfl⟩

theorem existingExpansions_total {vs : Dict String Version} : ∀ (rows : List VRow) (acc : Dict String (Dict DepKey String)),
    (∀ r ∈ rows, ∃ v, vs.get? r.contentVersion = some v) → ∃ ex, existingExpansions vs rows acc = .ok ex
  | [], acc, _ => ⟨acc, rfl⟩
  | r :: rest, acc, h => by
    unfold existingExpansions
    split
    · exact existingExpansions_total rest acc fun r' hr' => h r' (List.mem_cons_of_mem _ hr')
    · obtain ⟨v, hv⟩ := h r (by simp)
      rw [hv]
      exact existingExpansions_total rest _ fun r' hr' => h r' (List.mem_cons_of_mem _ hr')

theorem agree_conflict {a b : Dict DepKey String} {k : DepKey} {x y : String} (h1 : a.get? k = some x) (h2 : b.get? k = some y) (h : x ≠ y) :
    agree a b = false := by
  unfold agree
  rw [List.all_eq_false]
  refine ⟨(k, x), mem_of_get? h1, ?_⟩
  dsimp only
  rw [h2, h1]
  simp [h]

/-- A version in conflict with all versions recorded for the call passes the check. -/
theorem check_total {s : Versioner} (hI : VInv H compOf s) {uid : String} {v : Version}
    (h : ∀ r ∈ s.df, r.preCallUid = uid → ∀ w, getVersion s.versions (compOf uid) r.contentVersion = .ok w → Conflict w v) :
    checkDistinguishable s (compOf uid) uid v = .ok () := by
  unfold checkDistinguishable
  cases hf : s.df.filter (fun r => decide (r.preCallUid = uid)) with
  | nil => rfl
  | cons a l =>
    dsimp only
    have hmem : ∀ r, r ∈ a :: l → r ∈ s.df ∧ r.preCallUid = uid := by
      intro r hr
      rw [← hf, List.mem_filter] at hr
      exact ⟨hr.1, by simpa using hr.2⟩
    have hver : ∀ r, r ∈ a :: l → ∃ w, getVersion s.versions (compOf uid) r.contentVersion = .ok w ∧ w.semanticVersion = r.semanticVersion := by
      intro r hr
      obtain ⟨h1, h2⟩ := hmem r hr
      obtain ⟨w, hw, hw'⟩ := hI.rows r h1
      rw [h2] at hw
      exact ⟨w, hw, hw'⟩
    obtain ⟨w0, hw0, _⟩ := hver a (by simp)
    obtain ⟨vs, hvs, _⟩ := getVersion_ok.1 hw0
    rw [hvs]
    dsimp only
    obtain ⟨ex, hex⟩ := existingExpansions_total (vs := vs) (a :: l) [] (by
      intro r hr
      obtain ⟨w, hw, _⟩ := hver r hr
      obtain ⟨vs', hvs', hw''⟩ := getVersion_ok.1 hw
      rw [hvs] at hvs'
      cases hvs'
      exact ⟨w, hw''⟩)
    rw [hex]
    dsimp only
    obtain ⟨_, _, h3⟩ := existingExpansions_spec _ _ _ hex
    rw [if_neg]
    rw [Bool.not_eq_true, List.any_eq_false]
    rintro ⟨sv, e⟩ hm
    rw [Bool.not_eq_true]
    dsimp only
    have hnd : ∀ (rows : List VRow) (acc ex : Dict String (Dict DepKey String)), existingExpansions vs rows acc = .ok ex → acc.keys.Nodup → ex.keys.Nodup := by
      intro rows
      induction rows with
      | nil => intro acc ex h hn; unfold existingExpansions at h; cases h; exact hn
      | cons r rest ih =>
        intro acc ex h hn
        unfold existingExpansions at h
        split at h
        · exact ih acc ex h hn
        · cases hv : vs.get? r.contentVersion with
          | none => rw [hv] at h; cases h
          | some v' => rw [hv] at h; exact ih _ ex h (Dict.nodup_set hn _ _)
    rcases h3 sv e (get?_of_mem (hnd _ _ _ hex (by simp [Dict.keys])) hm) with h4 | ⟨r, hr, _, w, hw, rfl⟩
    · cases h4
    · obtain ⟨h5, h6⟩ := hmem r hr
      obtain ⟨k, x, y, c1, c2, c3⟩ := h r h5 h6 w (getVersion_ok.2 ⟨vs, hvs, hw⟩)
      exact agree_conflict c1 c2 c3

end Versioner

/-- An execution whose trace fits the code state, uses no memoized call, and conflicts with all versions recorded for the call
is registered. -/
theorem executed_total (hH : Function.Injective H) {st : VSt} (hI : StInv H compOf st) {uid : String} {trace trace' : Dict DepKey TNode}
    {edges : List (DepKey × DepKey)} (hnd : trace.keys.Nodup) (hterm : ∀ k n, (k, n) ∈ trace → ∀ a b, n ≠ .terminal a b)
    (hhyp : applyHypothesis st.versioner.strict st.codeState trace = .ok trace') (hroot : compOf uid ∈ trace'.keys)
    (hconf : ∀ r ∈ st.versioner.df, r.preCallUid = uid → ∀ w, getVersion st.versioner.versions (compOf uid) r.contentVersion = .ok w →
      ∃ k x y n, w.semanticExpansion.get? k = some x ∧ (k, n) ∈ trace' ∧ CurSem H st.versioner.dags st.codeState k y ∧ x ≠ y) :
    ∃ v st', st.executed H uid [compOf uid] trace edges = (.ok v, st') := by
  obtain ⟨a1, a2, a3⟩ := applyHypothesis_spec _ _ hhyp
  have hnd' : (Dict.keys trace').Nodup := hnd.sublist a3
  have hcont : ∀ k n, (k, n) ∈ trace' → ∃ c, n.content = some c := by
    intro k n hm
    obtain ⟨n0, h0, h1⟩ := a1 k n hm
    rcases hypNode_some h1 with ⟨⟨a, b, rfl⟩, rfl⟩ | ⟨a, b, rfl, rfl, _⟩ | ⟨src, rt, rt', rep, rfl, rfl, _⟩
    · exact absurd rfl (hterm k _ h0 a b)
    · exact ⟨_, rfl⟩
    · exact ⟨_, rfl⟩
  -- a node whose component the code state knows has the code state's content
  have hsame : ∀ k n c, (k, n) ∈ trace' → n.content = some c → ∀ n', st.codeState.get? k = some n' → n'.content = some c := by
    intro k n c hm hc n' hn'
    obtain ⟨n0, h0, h1⟩ := a1 k n hm
    rcases hypNode_some h1 with ⟨⟨a, b, rfl⟩, rfl⟩ | ⟨a, b, rfl, rfl, hg⟩ | ⟨src, rt, rt', rep, rfl, rfl, hg⟩
    · cases hc
    · rw [hg n' hn', hc]
    · rw [hg] at hn'
      cases hn'
      exact hc
  have htk : ∀ k, k ∈ (st.versioner.updateTopology trace' edges).topology.keys ↔
      k ∈ st.versioner.topology.keys ∨ ∃ n, (k, n) ∈ trace' ∧ ∀ a b, n ≠ .terminal a b :=
    fun k => topologyFold_keys trace' st.versioner.topology k
  have hsub : ∀ k, k ∈ st.versioner.topology.keys → k ∈ (st.versioner.updateTopology trace' edges).topology.keys :=
    fun k hk => (htk k).2 (.inl hk)
  have hI1 : VInv H compOf (st.versioner.updateTopology trace' edges) :=
    ⟨⟨hI.inv.keysD, hI.inv.keysV, hI.inv.dagOK, hI.inv.dagHead, hI.inv.dagsNodup⟩, fun k hk => hsub k (hI.inv.topo k hk), fun k cv v hv => by
      obtain ⟨b1, b2, b3, b4⟩ := hI.inv.vers k cv v hv
      exact ⟨b1, b2, b3, fun k' hk' => hsub k' (b4 k' hk')⟩, hI.inv.vnodup, hI.inv.rows, hI.inv.pair⟩
  obtain ⟨s1, h1, hC, hE, hn1, hn2, hsem⟩ := createComponents_spec (H := H) trace' hI1.toInvC fun k n hm => .inr (hcont k n hm)
  have hnonterm : ∀ {n : TNode} {c : Content}, n.content = some c → ∀ a b, n ≠ .terminal a b := by
    rintro n c h a b rfl
    cases h
  have hIs1 : VInv H compOf s1 := hI1.ext hC hE fun k hk => by
    rcases hn1 k hk with h | ⟨n, c, h, h'⟩
    · exact hI1.topo k h
    · exact (htk k).2 (.inr ⟨n, h, hnonterm h'⟩)
  have hle : DagsLE st.versioner.dags s1.dags := hE.dagsLE
  have hcommitted : ∀ k n, (k, n) ∈ trace' → ∃ c, n.content = some c ∧ ∃ x, SemIn s1.dags k (c.hash H) x := by
    intro k n hm
    obtain ⟨c, hc⟩ := hcont k n hm
    refine ⟨c, hc, ?_⟩
    rcases hsem hnd' k n c hm hc with h | h
    · obtain ⟨x, n', c', e1, e2, e3⟩ := hI.sync k (hI.inv.topo k h)
      rw [hsame k n c hm hc n' e1] at e2
      cases e2
      exact ⟨x, hle _ _ _ e3⟩
    · exact ⟨_, h⟩
  obtain ⟨v, hv⟩ := makeVersion_total (component := compOf uid) hcommitted
  obtain ⟨m1, m2, m3, m4, m5⟩ := makeVersion_spec (fun k cv w h => (hIs1.vers k cv w h).1) hv
  obtain ⟨n0, hn0⟩ := Dict.mem_keys.1 hroot
  obtain ⟨c0, hc0⟩ := hcont _ _ (mem_of_get? hn0)
  have hroot1 : compOf uid ∈ s1.versions.keys := (hIs1.keysV _).2 (hn2 _ n0 c0 (mem_of_get? hn0) hc0)
  obtain ⟨vs, hvs⟩ := Dict.mem_keys.1 hroot1
  have hstore : ∃ s2, storeVersion s1 v = .ok s2 := by
    unfold storeVersion
    rw [m2, hvs]
    dsimp only
    split
    · exact ⟨_, rfl⟩
    · exact ⟨_, rfl⟩
  obtain ⟨s2, hs2⟩ := hstore
  obtain ⟨t1, t2, t3, t4, t5, t6, t7, w, t8, t9, t10⟩ := storeVersion_spec hH hIs1 m1 (fun k hk => by
    rw [hE.topology]
    obtain ⟨x, hx⟩ := Dict.mem_keys.1 ((m1.dom k).1 hk)
    rcases m4 k x hx with ⟨n, c, h, h', _⟩ | ⟨kk, k', cv, w, h, _⟩
    · exact (htk k).2 (.inr ⟨n, h, hnonterm h'⟩)
    · obtain ⟨c, hc⟩ := hcont _ _ h
      cases hc) hs2
  have hcheck : checkDistinguishable s2 (compOf uid) uid v = .ok () := by
    refine check_total t1 ?_
    intro r hr hu w' hw'
    rw [t3, hE.df] at hr
    obtain ⟨w'', hw'', _⟩ := hI.inv.rows r hr
    rw [hu] at hw''
    have := t7 _ _ _ ((getVersion_ext hE).2 hw'')
    rw [hw'] at this
    cases this
    obtain ⟨k, x, y, n, b1, b2, b3, b4⟩ := hconf r hr hu w' hw''
    obtain ⟨c, hc⟩ := hcont k n b2
    obtain ⟨z, hz, hz'⟩ := m3 hnd' k n c b2 hc
    refine ⟨k, x, z, b1, hz, ?_⟩
    obtain ⟨n', c', e1, e2, e3⟩ := b3
    rw [hsame k n c b2 hc n' e1] at e2
    cases e2
    rw [hz'.unique (hle _ _ _ e3)]
    exact b4
  unfold VSt.executed
  rw [hhyp]
  dsimp only
  unfold processTrace
  dsimp only
  rw [h1]
  dsimp only
  rw [hv]
  dsimp only
  rw [hs2]
  dsimp only
  rw [hcheck]
  exact ⟨_, _, rfl⟩

end Verif
