import Verif.Props.Versioner
import Verif.Props.CodeHistory
import Verif.Spec.Inspect
/-!
`present_dependencies` shows each dependency once.
-/
namespace Verif.Props

open Verif Versioner

theorem insertBy_perm {α : Type} (le : α → α → Bool) (x : α) : ∀ (l : List α), (insertBy le x l).Perm (x :: l)
  | [] => .refl _
  | y :: l => by
    unfold insertBy
    split
    · exact .refl _
    · exact ((insertBy_perm le x l).cons y).trans (List.Perm.swap ..)

theorem sortBy_perm {α : Type} (le : α → α → Bool) : ∀ (l : List α), (sortBy le l).Perm l
  | [] => .refl _
  | x :: l => (insertBy_perm le x _).trans ((sortBy_perm le l).cons x)

theorem listed_append (a b : List PItem) : listed (a ++ b) = listed a ++ listed b := List.filterMap_append ..

theorem listed_info (b : Bool) (k : DepKey) (h sem : String) : listed (if b then [.info k h sem] else []) = [] := by cases b <;> rfl

theorem listed_class (b : Bool) (c : String) : listed (if b then [.inClass c] else []) = [] := by cases b <;> rfl

variable {parts : DepKey → String × String} {fuel : Nat} {s : Versioner} {info : Bool}

/-- What is shown for the component. -/
def ShownAs (fuel : Nat) (s : Versioner) (l : List (DepKey × TNode × String × String)) (r : List (DepKey × String)) : Prop :=
  r.map (·.1) = l.map (·.1) ∧ ∀ k t, (k, t) ∈ r → ∃ p ∈ l, p.1 = k ∧ presentable fuel s k p.2.2.1 = .ok t

theorem ShownAs.cons {p : DepKey × TNode × String × String} {l : List (DepKey × TNode × String × String)} {r : List (DepKey × String)} {t : String}
    (h : ShownAs fuel s l r) (ht : presentable fuel s p.1 p.2.2.1 = .ok t) : ShownAs fuel s (p :: l) ((p.1, t) :: r) := by
  refine ⟨by simp [h.1], fun k t' hm => ?_⟩
  rcases List.mem_cons.1 hm with he | hm
  · cases he; exact ⟨p, List.mem_cons_self .., rfl, ht⟩
  · obtain ⟨q, h1, h2⟩ := h.2 k t' hm
    exact ⟨q, List.mem_cons_of_mem _ h1, h2⟩

theorem presentGlobals_ok : ∀ (l : List (DepKey × TNode × String × String)), (∀ p ∈ l, ∃ t, presentable fuel s p.1 p.2.2.1 = .ok t) →
    ∃ r, presentGlobals fuel s info l = .ok r ∧ ShownAs fuel s l (listed r)
  | [], _ => ⟨[], rfl, rfl, fun _ _ h => by cases h⟩
  | (k, n, h, sem) :: l, hl => by
    obtain ⟨t, ht⟩ := hl _ (List.mem_cons_self ..)
    obtain ⟨r, h1, h2⟩ := presentGlobals_ok l fun p hp => hl p (List.mem_cons_of_mem _ hp)
    unfold presentGlobals
    dsimp only at ht
    rw [ht, h1]
    refine ⟨_, rfl, ?_⟩
    rw [listed_append, listed_info]
    exact h2.cons (p := (k, n, h, sem)) ht

theorem presentFunctions_ok : ∀ (l : List (DepKey × TNode × String × String)) (prev : Option String), (∀ p ∈ l, ∃ t, presentable fuel s p.1 p.2.2.1 = .ok t) →
    ∃ r, presentFunctions parts fuel s info prev l = .ok r ∧ ShownAs fuel s l (listed r)
  | [], _, _ => ⟨[], rfl, rfl, fun _ _ h => by cases h⟩
  | (k, n, h, sem) :: l, prev, hl => by
    obtain ⟨t, ht⟩ := hl _ (List.mem_cons_self ..)
    obtain ⟨r, h1, h2⟩ := presentFunctions_ok l (some (parts k).2) fun p hp => hl p (List.mem_cons_of_mem _ hp)
    unfold presentFunctions
    dsimp only at ht
    rw [ht, h1]
    refine ⟨_, rfl, ?_⟩
    rw [listed_append, listed_append, listed_info, listed_class]
    exact h2.cons (p := (k, n, h, sem)) ht

/-- What is needed for the component to be shown. -/
def Showable (fuel : Nat) (s : Versioner) (commits : Dict DepKey String) (k : DepKey) : Prop :=
  ∃ h n d c t, commits.get? k = some h ∧ s.nodes.get? k = some n ∧ n.content ≠ none ∧ s.dags.get? k = some d ∧ d.commits.get? h = some c ∧
    presentable fuel s k h = .ok t

theorem moduleCommits_ok {commits : Dict DepKey String} : ∀ (ks : List DepKey), (∀ k ∈ ks, Showable fuel s commits k) →
    ∃ l, moduleCommits s commits ks = .ok l ∧ l.map (·.1) = ks ∧
      ∀ p ∈ l, commits.get? p.1 = some p.2.2.1 ∧ p.2.1.content ≠ none ∧ ∃ t, presentable fuel s p.1 p.2.2.1 = .ok t
  | [], _ => ⟨[], rfl, rfl, fun _ h => by cases h⟩
  | k :: ks, hk => by
    obtain ⟨h, n, d, c, t, h1, h2, h3, h4, h5, h6⟩ := hk k (List.mem_cons_self ..)
    obtain ⟨l, g1, g2, g3⟩ := moduleCommits_ok ks fun k hk' => hk k (List.mem_cons_of_mem _ hk')
    unfold moduleCommits
    rw [h1, h2, h4]
    dsimp only
    rw [h5, g1]
    refine ⟨_, rfl, by simp [g2], fun p hp => ?_⟩
    rcases List.mem_cons.1 hp with rfl | hp
    · exact ⟨h1, h3, t, h6⟩
    · exact g3 p hp

theorem filter_perm {α : Type} (p q : α → Bool) : ∀ (l : List α), (∀ x ∈ l, q x = !p x) → (l.filter p ++ l.filter q).Perm l
  | [], _ => .refl _
  | x :: l, h => by
    have ih := filter_perm p q l fun y hy => h y (List.mem_cons_of_mem _ hy)
    have hx := h x (List.mem_cons_self ..)
    cases hp : p x with
    | true =>
      rw [hp] at hx
      simp only [List.filter_cons, hp, hx, if_true, List.cons_append, Bool.not_true, Bool.false_eq_true, if_false]
      exact ih.cons x
    | false =>
      rw [hp] at hx
      simp only [List.filter_cons, hp, hx, if_true, Bool.not_false, Bool.false_eq_true, if_false]
      exact List.perm_middle.trans (ih.cons x)

theorem presentModule_ok {commits : Dict DepKey String} (m : String) (ks : List DepKey) (hk : ∀ k ∈ ks, Showable fuel s commits k) :
    ∃ r, presentModule parts fuel s info commits m ks = .ok r ∧ ((listed r).map (·.1)).Perm ks ∧
      ∀ k t, (k, t) ∈ listed r → ∃ h, commits.get? k = some h ∧ presentable fuel s k h = .ok t := by
  obtain ⟨l, h1, h2, h3⟩ := moduleCommits_ok ks hk
  unfold presentModule
  rw [h1]
  dsimp only
  generalize hA : sortBy (fun (a b : DepKey × TNode × String × String) => keyLe parts a.1 b.1) (l.filter fun p => match p.2.1 with | .globalVar _ _ => true | _ => false) = A
  generalize hB : sortBy (fun (a b : DepKey × TNode × String × String) => keyLe parts a.1 b.1) (l.filter fun p => match p.2.1 with | .callable _ _ => true | _ => false) = B
  have hpA : A.Perm (l.filter fun p => match p.2.1 with | .globalVar _ _ => true | _ => false) := hA ▸ sortBy_perm ..
  have hpB : B.Perm (l.filter fun p => match p.2.1 with | .callable _ _ => true | _ => false) := hB ▸ sortBy_perm ..
  have hmA : ∀ p ∈ A, p ∈ l := fun p hp => (List.mem_filter.1 (hpA.mem_iff.1 hp)).1
  have hmB : ∀ p ∈ B, p ∈ l := fun p hp => (List.mem_filter.1 (hpB.mem_iff.1 hp)).1
  obtain ⟨a, a1, a2⟩ := presentGlobals_ok (fuel := fuel) (s := s) (info := info) A fun p hp => (h3 p (hmA p hp)).2.2
  obtain ⟨b, b1, b2⟩ := presentFunctions_ok (parts := parts) (fuel := fuel) (s := s) (info := info) B none fun p hp => (h3 p (hmB p hp)).2.2
  rw [a1, b1]
  refine ⟨_, rfl, ?_⟩
  have hl : listed (PItem.inModule m :: a ++ PItem.blank :: b) = listed a ++ listed b := by
    rw [List.cons_append]
    show listed (a ++ PItem.blank :: b) = _
    rw [listed_append]
    rfl
  rw [hl]
  constructor
  · rw [List.map_append, a2.1, b2.1, ← List.map_append, ← h2]
    refine ((hpA.append hpB).trans (filter_perm _ _ l fun p hp => ?_)).map _
    obtain ⟨_, hc, _⟩ := h3 p hp
    cases hn : p.2.1 with
    | callable => rfl
    | globalVar => rfl
    | terminal => rw [hn] at hc; exact absurd rfl hc
  · intro k t hm
    rcases List.mem_append.1 hm with hm | hm
    · obtain ⟨p, g1, rfl, g2⟩ := a2.2 k t hm
      exact ⟨_, (h3 p (hmA p g1)).1, g2⟩
    · obtain ⟨p, g1, rfl, g2⟩ := b2.2 k t hm
      exact ⟨_, (h3 p (hmB p g1)).1, g2⟩

theorem presentModules_ok {commits : Dict DepKey String} : ∀ (g : List (String × List DepKey)), (∀ k ∈ g.flatMap (·.2), Showable fuel s commits k) →
    ∃ r, presentModules parts fuel s info commits g = .ok r ∧ ((listed r).map (·.1)).Perm (g.flatMap (·.2)) ∧
      ∀ k t, (k, t) ∈ listed r → ∃ h, commits.get? k = some h ∧ presentable fuel s k h = .ok t
  | [], _ => ⟨[], rfl, .refl _, fun _ _ h => by cases h⟩
  | (m, ks) :: g, hk => by
    obtain ⟨a, a1, a2, a3⟩ := presentModule_ok (parts := parts) (info := info) m ks fun k h => hk k (by simp only [List.flatMap_cons, List.mem_append]; exact .inl h)
    obtain ⟨b, b1, b2, b3⟩ := presentModules_ok g fun k h => hk k (by simp only [List.flatMap_cons, List.mem_append]; exact .inr h)
    unfold presentModules
    rw [a1, b1]
    refine ⟨_, rfl, ?_, fun k t hm => ?_⟩
    · rw [listed_append, List.map_append, List.flatMap_cons]
      exact a2.append b2
    · rw [listed_append, List.mem_append] at hm
      exact hm.elim (a3 k t) (b3 k t)

/-! ### the groups -/

theorem flat_set {K α : Type} [DecidableEq K] (m : K) (x : α) : ∀ (g : Dict K (List α)),
    ((g.set m (((g.get? m).getD []) ++ [x])).flatMap (·.2)).Perm (x :: g.flatMap (·.2))
  | [] => by simp [Dict.set, Dict.get?]
  | (n, l) :: g => by
    rw [Dict.get?_cons, Dict.set]
    by_cases h : n = m
    · rw [if_pos h, if_pos h]
      simp only [Option.getD_some, List.flatMap_cons, List.append_assoc]
      exact List.perm_middle
    · rw [if_neg h, if_neg h]
      simp only [List.flatMap_cons]
      exact ((flat_set m x g).append_left l).trans List.perm_middle

theorem groupBy_perm_aux (parts : DepKey → String × String) : ∀ (ks : List DepKey) (acc : Dict String (List DepKey)),
    ((ks.foldl (fun acc k => Dict.set acc (parts k).1 (((acc.get? (parts k).1).getD []) ++ [k])) acc).flatMap (·.2)).Perm (acc.flatMap (·.2) ++ ks)
  | [], acc => by simp
  | k :: ks, acc => by
    refine (groupBy_perm_aux parts ks _).trans ?_
    refine ((flat_set (parts k).1 k acc).append_right ks).trans ?_
    exact List.perm_middle.symm

theorem groupBy_perm (ks : List DepKey) : ((groupByModule parts ks).flatMap (·.2)).Perm ks := groupBy_perm_aux parts ks []

theorem flatMap_sorted {K α : Type} (le : α → α → Bool) : ∀ (g : List (K × List α)),
    ((g.map fun p => (p.1, sortBy le p.2)).flatMap (·.2)).Perm (g.flatMap (·.2))
  | [] => .refl _
  | (k, l) :: g => by
    simp only [List.map_cons, List.flatMap_cons]
    exact (sortBy_perm le l).append (flatMap_sorted le g)

theorem canonicalGroups_ok {ks : List DepKey} (h : ∀ k ∈ ks, k ∈ s.nodes.keys) :
    ∃ g, canonicalGroups s parts ks = .ok g ∧ (g.flatMap (·.2)).Perm ks := by
  unfold canonicalGroups
  rw [if_neg]
  · refine ⟨_, rfl, ?_⟩
    exact ((sortBy_perm _ _).flatMap_right _).trans ((flatMap_sorted _ _).trans (groupBy_perm ks))
  · intro hany
    obtain ⟨k, hk, hn⟩ := List.any_eq_true.1 hany
    rw [Dict.has_iff.2 (h k hk)] at hn
    cases hn

theorem presentDependencies_ok {commits : Dict DepKey String} (hk : ∀ k ∈ commits.keys, Showable fuel s commits k) :
    ∃ r, presentDependencies parts fuel s info commits = .ok r ∧ ((listed r).map (·.1)).Perm commits.keys ∧
      ∀ k t, (k, t) ∈ listed r → ∃ h, commits.get? k = some h ∧ presentable fuel s k h = .ok t := by
  obtain ⟨g, h1, h2⟩ := canonicalGroups_ok (s := s) (parts := parts) (ks := commits.keys) fun k h => by
    obtain ⟨_, n, _, _, _, _, hn, _⟩ := hk k h
    exact Dict.mem_keys.2 ⟨n, hn⟩
  obtain ⟨r, g1, g2, g3⟩ := presentModules_ok (parts := parts) (fuel := fuel) (s := s) (info := info) g fun k h => hk k (h2.mem_iff.1 h)
  unfold presentDependencies
  rw [h1]
  exact ⟨r, g1, g2.trans h2, g3⟩

/-! ### components always have a content -/

structure NodesOK (s : Versioner) : Prop where
  content : ∀ k n, s.nodes.get? k = some n → n.content ≠ none
  vers : s.versions.keys.Nodup

variable {H : Val → String}

theorem createComponents_nodes : ∀ (l : List (DepKey × TNode)) (s : Versioner), NodesOK s → NodesOK (createComponents H s l).2
  | [], _, h => h
  | (k, n) :: l, s, h => by
    unfold createComponents
    split
    · exact createComponents_nodes l s h
    · split
      · exact createComponents_nodes l s h
      · split
        · exact h
        · next c hc =>
          refine createComponents_nodes l _ ?_
          rw [initComponent_eq]
          refine ⟨?_, Dict.nodup_set h.vers _ _⟩
          intro x m hm
          dsimp only at hm
          rw [Dict.get?_set] at hm
          split at hm
          · cases hm; rw [hc]; simp
          · exact h.content x m hm

theorem storeVersion_nodes {s t : Versioner} {v : Version} (h : storeVersion s v = .ok t) (hs : NodesOK s) : NodesOK t := by
  unfold storeVersion at h
  split at h
  · cases h
  · split at h
    · cases h; exact hs
    · cases h; exact ⟨hs.content, Dict.nodup_set hs.vers _ _⟩

theorem processTrace_nodes {s : Versioner} (h : NodesOK s) (roots : List DepKey) (l : List (DepKey × TNode)) (uid : String) :
    NodesOK (processTrace H s roots l uid).2 := by
  unfold processTrace
  split
  · have hc := createComponents_nodes (H := H) l s h
    cases hcr : createComponents H s l with
    | mk r s1 =>
      rw [hcr] at hc
      cases r with
      | error e => exact hc
      | ok u =>
        dsimp only
        split
        · exact hc
        · split
          · exact hc
          · next s2 hs2 =>
            have hn := storeVersion_nodes hs2 hc
            split
            · exact hn
            · exact ⟨hn.content, hn.vers⟩
  · exact h

theorem step_nodes {st : VSt} (h : NodesOK st.versioner) (ev : VEvent) : NodesOK (st.step H ev).versioner := by
  cases ev with
  | enter cs answer =>
    unfold VSt.step syncCodebase
    dsimp only
    cases syncDags H cs answer st.versioner.dags <;> exact ⟨h.content, h.vers⟩
  | executed uid roots trace edges =>
    unfold VSt.step VSt.executed
    dsimp only
    split
    · exact h
    · next tr _ => exact processTrace_nodes (s := updateTopology st.versioner tr edges) ⟨h.content, h.vers⟩ roots tr uid
  | dropVersion sv => exact ⟨h.content, by unfold VSt.step dropSemanticVersion; dsimp only; rw [keys_map_val]; exact h.vers⟩

theorem run_nodes (evs : List VEvent) : ∀ {st : VSt}, NodesOK st.versioner → NodesOK (st.run H evs).versioner := by
  induction evs with
  | nil => exact fun h => h
  | cons ev evs ih => exact fun h => ih (step_nodes h ev)

/-! ### recorded versions can be shown -/

variable {compOf : String → DepKey}

/-- Every commit can be read. -/
theorem commit_content {s : Versioner} (hI : InvC H s) (hf : Shallow fuel s) {k : DepKey} {d : Dag String Content} {h : String} {o : Commit String Content}
    (hd : s.dags.get? k = some d) (ho : d.commits.get? h = some o) : ∃ c, d.getContent fuel h = .ok c ∧ c.hash H = h := by
  obtain ⟨_, r, _, _, _, hg⟩ := (hI.dagOK k d hd).grown (Dict.mem_keys.2 ⟨o, ho⟩)
  obtain ⟨c, _, h2, h3⟩ := hg.content d rfl fuel (hf k d hd) h o ho
  exact ⟨c, h3, h2⟩

/-- The semantic version of a commit is a commit. -/
theorem semantic_commit {s : Versioner} (hI : InvC H s) {k h x : String} (h1 : SemIn s.dags k h x) : SemIn s.dags k x x := by
  obtain ⟨d, c, hd, hc, rfl⟩ := h1
  obtain ⟨_, r, _, _, _, hg⟩ := (hI.dagOK k d hd).grown (Dict.mem_keys.2 ⟨c, hc⟩)
  obtain ⟨vo, g1, g2⟩ := sem_fix hg h c hc
  exact ⟨d, vo, hd, g1, g2⟩

theorem VersionOK.semIn {dags : Dict DepKey (Dag String Content)} {v : Version} (hv : VersionOK H dags v) {k x : String}
    (hx : v.semanticExpansion.get? k = some x) : ∃ h hs, v.contentExpansion.get? k = some hs ∧ h ∈ hs ∧ SemIn dags k h x := by
  obtain ⟨hs, hhs⟩ := Dict.mem_keys.1 ((hv.dom k).2 (Dict.mem_keys.2 ⟨x, hx⟩))
  obtain ⟨hne, hall⟩ := hv.sem k hs hhs
  cases hs with
  | nil => exact absurd rfl hne
  | cons h tl =>
    obtain ⟨y, h1, h2⟩ := hall h (List.mem_cons_self ..)
    rw [hx] at h1; cases h1
    exact ⟨h, _, hhs, List.mem_cons_self .., h2⟩

theorem showable {s : Versioner} (hI : InvC H s) (hN : NodesOK s) (hf : Shallow fuel s) {v : Version} (hv : VersionOK H s.dags v) :
    ∀ k ∈ v.semanticExpansion.keys, Showable fuel s v.semanticExpansion k := by
  intro k hk
  obtain ⟨x, hx⟩ := Dict.mem_keys.1 hk
  obtain ⟨h, hs, _, _, hsem⟩ := VersionOK.semIn hv hx
  obtain ⟨d, o, hd, ho, _⟩ := semantic_commit hI hsem
  obtain ⟨c, hc, _⟩ := commit_content hI hf hd ho
  obtain ⟨n, hn⟩ := Dict.mem_keys.1 ((hI.keysD k).1 (Dict.mem_keys.2 ⟨d, hd⟩))
  refine ⟨x, n, d, o, c.presentable, hx, hn, hN.content k n hn, hd, ho, ?_⟩
  unfold presentable
  rw [hd]
  dsimp only
  rw [hc]

theorem present_faithful {s : Versioner} (hI : InvC H s) (hN : NodesOK s) (hf : Shallow fuel s) {v w : Version} (hv : VersionOK H s.dags v)
    (hw : VersionOK H s.dags w) (hvw : ∀ k, v.semanticExpansion.get? k = w.semanticExpansion.get? k) :
    ∃ l, presentDependencies parts fuel s info v.semanticExpansion = .ok l ∧ Faithful H fuel s w l := by
  obtain ⟨l, h1, h2, h3⟩ := presentDependencies_ok (parts := parts) (info := info) (showable hI hN hf hv)
  refine ⟨l, h1, h2.nodup_iff.2 hv.seNodup, fun k => ?_, fun k t hm => ?_⟩
  · rw [h2.mem_iff, hw.dom, Dict.mem_keys, Dict.mem_keys, hvw]
  · obtain ⟨x, hx, ht⟩ := h3 k t hm
    obtain ⟨h, hs, _, _, hsem⟩ := VersionOK.semIn hv hx
    obtain ⟨d, o, hd, ho, ho'⟩ := semantic_commit hI hsem
    obtain ⟨c, hc, hch⟩ := commit_content hI hf hd ho
    unfold presentable at ht
    rw [hd] at ht
    dsimp only at ht
    rw [hc] at ht
    cases ht
    refine ⟨c, x, ⟨d, o, hd, hch ▸ ho, ho', hch ▸ hc⟩, rfl, fun hs' hhs' h' hh' => ?_⟩
    obtain ⟨y, g1, g2⟩ := (hw.sem k hs' hhs').2 h' hh'
    rw [← hvw, hx] at g1; cases g1
    exact g2

/-! ### `get_code` -/

theorem flat_get? {id : String} : ∀ (vs : Dict DepKey (Dict String Version)) (acc : Dict String Version),
    (∃ p ∈ vs, id ∈ Dict.keys p.2) ∨ id ∈ acc.keys →
    ∃ v, (vs.foldl (fun acc p => p.2.foldl (fun acc q => Dict.set acc q.1 q.2) acc) acc).get? id = some v ∧
      ((∃ p ∈ vs, (id, v) ∈ p.2) ∨ acc.get? id = some v)
  | [], acc, h => by
    rcases h with ⟨_, h, _⟩ | h
    · cases h
    · obtain ⟨v, hv⟩ := Dict.mem_keys.1 h
      exact ⟨v, hv, .inr hv⟩
  | p :: vs, acc, h => by
    have inner : ∀ (l : List (String × Version)) (acc : Dict String Version), (id ∈ Dict.keys l ∨ id ∈ acc.keys) →
        ∃ v, (l.foldl (fun acc q => Dict.set acc q.1 q.2) acc).get? id = some v ∧ ((id, v) ∈ l ∨ acc.get? id = some v) := by
      intro l
      induction l with
      | nil =>
        rintro acc (h | h)
        · cases h
        · obtain ⟨v, hv⟩ := Dict.mem_keys.1 h
          exact ⟨v, hv, .inr hv⟩
      | cons q l ih =>
        intro acc h
        obtain ⟨v, h1, h2⟩ := ih (acc.set q.1 q.2) (by
          rw [Dict.mem_keys_set]
          rcases h with h | h
          · rcases List.mem_cons.1 h with h | h
            · exact .inr (.inl h)
            · exact .inl h
          · exact .inr (.inr h))
        refine ⟨v, h1, ?_⟩
        rcases h2 with h2 | h2
        · exact .inl (List.mem_cons_of_mem _ h2)
        · rw [Dict.get?_set] at h2
          split at h2
          · next he => cases h2; left; rw [← he]; exact List.mem_cons_self ..
          · exact .inr h2
    by_cases hid : (∃ p ∈ vs, id ∈ Dict.keys p.2)
    · obtain ⟨v, h1, h2⟩ := flat_get? vs (p.2.foldl (fun acc q => Dict.set acc q.1 q.2) acc) (.inl hid)
      refine ⟨v, h1, ?_⟩
      rcases h2 with ⟨q, hq, h2⟩ | h2
      · exact .inl ⟨q, List.mem_cons_of_mem _ hq, h2⟩
      · by_cases hk : id ∈ Dict.keys p.2 ∨ id ∈ acc.keys
        · obtain ⟨v', h3, h4⟩ := inner p.2 acc hk
          rw [h2] at h3; cases h3
          exact h4.imp (fun h => ⟨p, List.mem_cons_self .., h⟩) fun h => h
        · exfalso
          have hno : ∀ (l : List (String × Version)) (acc : Dict String Version), id ∉ Dict.keys l → id ∉ acc.keys →
              id ∉ (l.foldl (fun acc q => Dict.set acc q.1 q.2) acc).keys := by
            intro l
            induction l with
            | nil => exact fun _ _ h => h
            | cons q l ih =>
              intro acc hl ha
              refine ih _ (fun h => hl (List.mem_cons_of_mem _ h)) ?_
              rw [Dict.mem_keys_set]
              rintro (h | h)
              · exact hl (h ▸ List.mem_cons_self ..)
              · exact ha h
          exact hno p.2 acc (fun h => hk (.inl h)) (fun h => hk (.inr h)) (Dict.mem_keys.2 ⟨v, h2⟩)
    · have hk : id ∈ Dict.keys p.2 ∨ id ∈ acc.keys := by
        rcases h with ⟨q, hq, h⟩ | h
        · rcases List.mem_cons.1 hq with rfl | hq
          · exact .inl h
          · exact absurd ⟨q, hq, h⟩ hid
        · exact .inr h
      obtain ⟨v', h3, h4⟩ := inner p.2 acc hk
      obtain ⟨v, h1, h2⟩ := flat_get? vs (p.2.foldl (fun acc q => Dict.set acc q.1 q.2) acc) (.inr (Dict.mem_keys.2 ⟨v', h3⟩))
      refine ⟨v, h1, ?_⟩
      rcases h2 with ⟨q, hq, h2⟩ | h2
      · exact .inl ⟨q, List.mem_cons_of_mem _ hq, h2⟩
      · rw [h2] at h3; cases h3
        exact h4.imp (fun h => ⟨p, List.mem_cons_self .., h⟩) fun h => h

theorem flat_none {id : String} : ∀ (vs : Dict DepKey (Dict String Version)) (acc : Dict String Version),
    (∀ p ∈ vs, id ∉ Dict.keys p.2) → id ∉ acc.keys →
    (vs.foldl (fun acc p => p.2.foldl (fun acc q => Dict.set acc q.1 q.2) acc) acc).get? id = none
  | [], acc, _, h => Dict.get?_eq_none.2 h
  | p :: vs, acc, hv, h => by
    have hno : ∀ (l : List (String × Version)) (acc : Dict String Version), id ∉ Dict.keys l → id ∉ acc.keys →
        id ∉ (l.foldl (fun acc q => Dict.set acc q.1 q.2) acc).keys := by
      intro l
      induction l with
      | nil => exact fun _ _ h => h
      | cons q l ih =>
        intro acc hl ha
        refine ih _ (fun h => hl (List.mem_cons_of_mem _ h)) ?_
        rw [Dict.mem_keys_set]
        rintro (h | h)
        · exact hl (h ▸ List.mem_cons_self ..)
        · exact ha h
    exact flat_none vs _ (fun q hq => hv q (List.mem_cons_of_mem _ hq)) (hno p.2 acc (hv p (List.mem_cons_self ..)) h)

theorem find_none {dags : Dict DepKey (Dag String Content)} (hn : dags.keys.Nodup) {id : String}
    (h : ∀ k d, dags.get? k = some d → id ∉ d.commits.keys) : dags.find? (fun p => p.2.commits.has id) = none := by
  rw [List.find?_eq_none]
  intro p hp hh
  exact h p.1 p.2 (get?_of_mem hn hp) (Dict.has_iff.1 hh)

theorem showLoop_ok {s : Versioner} {Q : Version → List PItem → Prop} : ∀ (vs : List (String × Version)),
    (∀ p ∈ vs, ∃ l, presentDependencies parts fuel s info p.2.semanticExpansion = .ok l ∧ Q p.2 l) →
    ∃ L, vs.foldr (fun p acc =>
      match presentDependencies parts fuel s info p.2.semanticExpansion, acc with
      | .error e, _ => .error e
      | .ok _, .error e => .error e
      | .ok t, .ok l => .ok ((p.2.contentVersion, p.2.semanticVersion, t) :: l)) (.ok []) = (.ok L : Except Err (List (String × String × List PItem))) ∧
      L.map (fun x => (x.1, x.2.1)) = vs.map (fun p => (p.2.contentVersion, p.2.semanticVersion)) ∧
      ∀ x ∈ L, ∃ p ∈ vs, x.1 = p.2.contentVersion ∧ Q p.2 x.2.2
  | [], _ => ⟨[], rfl, rfl, fun _ h => by cases h⟩
  | p :: vs, h => by
    obtain ⟨L, h1, h2, h3⟩ := showLoop_ok vs fun q hq => h q (List.mem_cons_of_mem _ hq)
    obtain ⟨l, g1, g2⟩ := h p (List.mem_cons_self ..)
    rw [List.foldr_cons, h1, g1]
    refine ⟨_, rfl, by simp [h2], fun x hx => ?_⟩
    rcases List.mem_cons.1 hx with rfl | hx
    · exact ⟨p, List.mem_cons_self .., rfl, g2⟩
    · obtain ⟨q, hq, hq'⟩ := h3 x hx
      exact ⟨q, List.mem_cons_of_mem _ hq, hq'⟩

end Verif.Props
