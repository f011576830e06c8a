import Verif.Model.ChangeNotice
import Verif.Props.Inspect
/-!
C92: what is said about a change of code before the user is asked.

Specification: `HeadMeaning` is the semantic version of the code of a component that was seen last, `DependsOn` says that a recorded version
depends on the component with this meaning, and `Valid` that the code has all dependencies of a version with the meaning they had (the
calls of exactly these versions are found, C32 and C33).
-/
namespace Verif.Props

open Verif Versioner

variable {H : Val → String} {compOf : String → DepKey}

/-- The code of component `k` seen last has the semantic version `x`. -/
def HeadMeaning (s : Versioner) (k : DepKey) (x : String) : Prop :=
  ∃ d h, s.dags.get? k = some d ∧ d.head = some h ∧ SemIn s.dags k h x

/-- The version depends on component `k` with the meaning of its code seen last. -/
def DependsOn (s : Versioner) (k : DepKey) (v : Version) : Prop := ∃ x, HeadMeaning s k x ∧ v.semanticExpansion.get? k = some x

/-- The code of component `k` in `cs` was never seen. -/
def IsNew (H : Val → String) (s : Versioner) (cs : CodeState) (k : DepKey) : Prop :=
  ∃ d n h, s.dags.get? k = some d ∧ cs.get? k = some n ∧ IdentifiedBy H n h ∧ h ∉ d.commits.keys

/-- The code of component `k` in `cs` is the one seen last. -/
def IsCurrent (H : Val → String) (s : Versioner) (cs : CodeState) (k : DepKey) : Prop :=
  ∃ d n h, s.dags.get? k = some d ∧ cs.get? k = some n ∧ IdentifiedBy H n h ∧ d.head = some h

/-- The code seen last has every dependency of the version with the meaning it had. -/
def WasValid (s : Versioner) (v : Version) : Prop := ∀ k x, v.semanticExpansion.get? k = some x → HeadMeaning s k x

/-- The code `cs` has every dependency of the version with the meaning it had. -/
def Valid (H : Val → String) (s : Versioner) (cs : CodeState) (v : Version) : Prop :=
  ∀ k x, v.semanticExpansion.get? k = some x → CurrentVersion H s.dags cs k x

/-! ### lemmas -/

theorem identified_content {n : TNode} {h : String} : IdentifiedBy H n h ↔ ∃ c, n.content = some c ∧ c.hash H = h := by
  constructor
  · rintro (⟨src, rt, rfl, rfl⟩ | ⟨r, rfl⟩)
    · exact ⟨.code src, rfl, rfl⟩
    · exact ⟨.gv h r, rfl, rfl⟩
  · rintro ⟨c, h2, rfl⟩
    match n, h2 with
    | .callable (some src) rt, h2 => cases h2; exact .inl ⟨src, rt, rfl, rfl⟩
    | .globalVar h r, h2 => cases h2; exact .inr ⟨r, rfl⟩

theorem mem_of_mem_set {V : Type} {d : Dict String V} {k x : String} {v w : V} (h : (x, w) ∈ d.set k v) : (x, w) = (k, v) ∨ (x, w) ∈ d := by
  induction d with
  | nil => simp only [Dict.set, List.mem_singleton] at h; exact .inl h
  | cons p d ih =>
    obtain ⟨a, b⟩ := p
    simp only [Dict.set] at h
    split at h
    · rcases List.mem_cons.1 h with h | h
      · exact .inl h
      · exact .inr (List.mem_cons_of_mem _ h)
    · rcases List.mem_cons.1 h with h | h
      · exact .inr (by rw [h]; simp)
      · exact (ih h).imp id (List.mem_cons_of_mem _)

theorem mem_setAll {x : String} {w : Version} : ∀ (l : List (String × Version)) (acc : Dict String Version),
    (x, w) ∈ l.foldl (fun acc q => Dict.set acc q.1 q.2) acc → (x, w) ∈ l ∨ (x, w) ∈ acc
  | [], _, h => .inr h
  | q :: l, acc, h => by
    rcases mem_setAll l _ h with h | h
    · exact .inl (List.mem_cons_of_mem _ h)
    · rcases mem_of_mem_set h with h | h
      · exact .inl (by rw [h]; simp)
      · exact .inr h

theorem mem_flat {x : String} {w : Version} : ∀ (vs : Dict DepKey (Dict String Version)) (acc : Dict String Version),
    (x, w) ∈ vs.foldl (fun acc p => p.2.foldl (fun acc q => Dict.set acc q.1 q.2) acc) acc → (∃ p ∈ vs, (x, w) ∈ p.2) ∨ (x, w) ∈ acc
  | [], _, h => .inr h
  | p :: vs, acc, h => by
    rcases mem_flat vs _ h with ⟨q, hq, h⟩ | h
    · exact .inl ⟨q, List.mem_cons_of_mem _ hq, h⟩
    · rcases mem_setAll _ _ h with h | h
      · exact .inl ⟨p, by simp, h⟩
      · exact .inr h

theorem mem_notices {s : Versioner} {cs : CodeState} {answer : DepKey → Answer} {x : Notice} : ∀ (l : List (DepKey × Dag String Content)),
    x ∈ notices H s cs answer l → ∃ dag n c h vs, (x.component, dag) ∈ l ∧ cs.get? x.component = some n ∧ n.content = some c ∧
      c.hash H ∉ dag.commits.keys ∧ dag.head = some h ∧ s.dependentVersions x.component h = .ok vs ∧ x.dependents = vs.map presentation
  | [], hx => by cases hx
  | (k, dag) :: rest, hx => by
    have lift : x ∈ notices H s cs answer rest → ∃ dag' n c h vs, (x.component, dag') ∈ (k, dag) :: rest ∧ cs.get? x.component = some n ∧
        n.content = some c ∧ c.hash H ∉ dag'.commits.keys ∧ dag'.head = some h ∧ s.dependentVersions x.component h = .ok vs ∧
        x.dependents = vs.map presentation := by
      intro h
      obtain ⟨dag', n, c, h', vs, h1, h2⟩ := mem_notices rest h
      exact ⟨dag', n, c, h', vs, List.mem_cons_of_mem _ h1, h2⟩
    unfold notices at hx
    cases h1 : cs.get? k with
    | none => rw [h1] at hx; cases hx
    | some n =>
      rw [h1] at hx
      dsimp only at hx
      cases h2 : n.content with
      | none => rw [h2] at hx; cases hx
      | some c =>
        rw [h2] at hx
        dsimp only at hx
        have go : x ∈ (match dag.sync (Content.hash H) c none (answer k) with
            | .error _ => []
            | .ok _ => notices H s cs answer rest) → x ∈ notices H s cs answer rest := by
          intro h
          split at h
          · cases h
          · exact h
        split at hx
        · exact lift (go hx)
        · rename_i hn
          cases h3 : dag.head with
          | none => rw [h3] at hx; exact lift (go hx)
          | some h =>
            rw [h3] at hx
            dsimp only at hx
            cases h4 : s.dependentVersions k h with
            | error e => rw [h4] at hx; cases hx
            | ok vs =>
              rw [h4] at hx
              dsimp only at hx
              rcases List.mem_cons.1 hx with rfl | hx
              · exact ⟨dag, n, c, h, vs, by simp, h1, h2, fun hk => hn (Dict.has_iff.2 hk), h3, h4, rfl⟩
              · exact lift (go hx)

theorem notices_all {s : Versioner} {cs : CodeState} {answer : DepKey → Answer} : ∀ (l l' : List (DepKey × Dag String Content)),
    syncDags H cs answer l = .ok l' → (∀ k dag h, (k, dag) ∈ l → dag.head = some h → ∃ vs, s.dependentVersions k h = .ok vs) →
    ∀ k dag n c h, (k, dag) ∈ l → cs.get? k = some n → n.content = some c → c.hash H ∉ dag.commits.keys → dag.head = some h →
    ∃ x ∈ notices H s cs answer l, x.component = k
  | [], _, _, _ => fun k dag n c h hm => by cases hm
  | (k0, d0) :: rest, l', hs, hd => by
    intro k dag n c h hm h1 h2 h3 h4
    unfold syncDags at hs
    unfold notices
    cases g1 : cs.get? k0 with
    | none => rw [g1] at hs; cases hs
    | some n0 =>
      rw [g1] at hs
      dsimp only at hs ⊢
      cases g2 : n0.content with
      | none => rw [g2] at hs; cases hs
      | some c0 =>
        rw [g2] at hs
        dsimp only at hs ⊢
        cases g3 : d0.sync (Content.hash H) c0 none (answer k0) with
        | error e => rw [g3] at hs; cases hs
        | ok r =>
          rw [g3] at hs
          dsimp only at hs ⊢
          cases g4 : syncDags H cs answer rest with
          | error e => rw [g4] at hs; cases hs
          | ok ds =>
            have ih := notices_all rest ds g4 fun k dag h hm => hd k dag h (List.mem_cons_of_mem _ hm)
            rcases List.mem_cons.1 hm with hm | hm
            · cases hm
              rw [h1] at g1
              cases g1
              rw [h2] at g2
              cases g2
              rw [if_neg fun hk => h3 (Dict.has_iff.1 hk), h4]
              dsimp only
              obtain ⟨vs, hvs⟩ := hd k0 d0 h (by simp) h4
              rw [hvs]
              exact ⟨_, List.mem_cons_self, rfl⟩
            · obtain ⟨x, hx, he⟩ := ih k dag n c h hm h1 h2 h3 h4
              split
              · exact ⟨x, hx, he⟩
              · cases g5 : d0.head with
                | none => exact ⟨x, hx, he⟩
                | some h0 =>
                  dsimp only
                  obtain ⟨vs, hvs⟩ := hd k0 d0 h0 (by simp) g5
                  rw [hvs]
                  exact ⟨x, List.mem_cons_of_mem _ hx, he⟩

theorem notices_sublist {s : Versioner} {cs : CodeState} {answer : DepKey → Answer} : ∀ (l : List (DepKey × Dag String Content)),
    ((notices H s cs answer l).map Notice.component).Sublist (Dict.keys l)
  | [] => List.Sublist.refl _
  | (k, dag) :: rest => by
    have ih := notices_sublist (s := s) (cs := cs) (answer := answer) rest
    unfold notices
    simp only [Dict.keys, List.map_cons] at ih ⊢
    cases cs.get? k with
    | none => simp
    | some n =>
      dsimp only
      cases n.content with
      | none => simp
      | some c =>
        dsimp only
        have go : (List.map Notice.component (match dag.sync (Content.hash H) c none (answer k) with
            | .error _ => []
            | .ok _ => notices H s cs answer rest)).Sublist (List.map Prod.fst rest) := by
          split
          · simp
          · exact ih
        split
        · exact go.cons _
        · cases dag.head with
          | none => exact go.cons _
          | some h =>
            dsimp only
            cases s.dependentVersions k h with
            | error e => simp
            | ok vs => exact go.cons_cons _

theorem head_sem {s : Versioner} (hI : InvC H s) {k : DepKey} {d : Dag String Content} (hd : s.dags.get? k = some d) :
    ∃ h o, d.head = some h ∧ d.commits.get? h = some o ∧ o.semanticHash ∈ d.commits.keys := by
  rcases hI.dagOK k d hd with rfl | ⟨h, r, h1, h2, _, hg⟩
  · exact absurd rfl (hI.dagHead k _ hd)
  · obtain ⟨o, ho⟩ := Dict.mem_keys.1 h2
    exact ⟨h, o, h1, ho, (hg.entries.2 h o ho).sem⟩

theorem headMeaning_iff {s : Versioner} {k : DepKey} {d : Dag String Content} {h : String} {o : Commit String Content}
    (hd : s.dags.get? k = some d) (hh : d.head = some h) (ho : d.commits.get? h = some o) {x : String} :
    HeadMeaning s k x ↔ o.semanticHash = x := by
  constructor
  · rintro ⟨d', h', h1, h2, d2, c, h3, h4, rfl⟩
    rw [hd] at h1 h3
    cases h1; cases h3
    rw [hh] at h2
    cases h2
    rw [ho] at h4
    cases h4
    rfl
  · rintro rfl
    exact ⟨d, h, hd, hh, d, o, hd, ho, rfl⟩

/-! ### theorems -/

/-- C92, a change is announced for exactly the known components whose code was never seen (entering succeeds; if the user
aborts, the announcements up to there have been made). -/
theorem C92_announced_iff (hH : Function.Injective H) (strict : Bool) {evs : List VEvent} (hev : ∀ ev ∈ evs, ev.Legal compOf)
    {cs : CodeState} {answer : DepKey → Answer} {s' : Versioner} (h : syncCodebase H (after H strict evs).versioner cs answer = (.ok (), s'))
    (k : DepKey) :
    (∃ x ∈ notices H (after H strict evs).versioner cs answer (after H strict evs).versioner.dags, x.component = k) ↔
      IsNew H (after H strict evs).versioner cs k := by
  have hI := (after_inv hH strict hev).inv
  generalize (after H strict evs).versioner = s at hI h
  unfold syncCodebase at h
  cases hs : syncDags H cs answer s.dags with
  | error e => rw [hs] at h; cases h
  | ok ds =>
    constructor
    · rintro ⟨x, hx, rfl⟩
      obtain ⟨dag, n, c, hh, vs, h1, h2, h3, h4, h5, h6⟩ := mem_notices _ hx
      exact ⟨dag, n, c.hash H, get?_of_mem hI.dagsNodup h1, h2, identified_content.2 ⟨c, h3, rfl⟩, h4⟩
    · rintro ⟨d, n, hh, h1, h2, h3, h4⟩
      obtain ⟨c, h5, rfl⟩ := identified_content.1 h3
      obtain ⟨hd, o, g1, g2, _⟩ := head_sem hI.toInvC h1
      refine notices_all s.dags ds hs ?_ k d n c hd (mem_of_get? h1) h2 h5 h4 g1
      intro k' d' h' hm hh'
      have hd' := get?_of_mem hI.dagsNodup hm
      obtain ⟨h'', o', e1, e2, _⟩ := head_sem hI.toInvC hd'
      rw [hh'] at e1
      cases e1
      unfold dependentVersions
      rw [hd']
      dsimp only
      rw [e2]
      exact ⟨_, rfl⟩

/-- C92, no change is announced twice. -/
theorem C92_announced_once (hH : Function.Injective H) (strict : Bool) {evs : List VEvent} (hev : ∀ ev ∈ evs, ev.Legal compOf)
    (cs : CodeState) (answer : DepKey → Answer) :
    ((notices H (after H strict evs).versioner cs answer (after H strict evs).versioner.dags).map Notice.component).Nodup :=
  (notices_sublist _).nodup (after_inv hH strict hev).inv.dagsNodup

/-- C92, what is listed as dependent: only recorded versions that depend on the component with its present meaning; and of every such version
the two ids are listed. Partial: not always under the name of its op (`C92_refuted_component`); it is, if no other op has a version with the
same content id. -/
theorem C92_listed_partial (hH : Function.Injective H) (strict : Bool) {evs : List VEvent} (hev : ∀ ev ∈ evs, ev.Legal compOf)
    {cs : CodeState} {answer : DepKey → Answer} {x : Notice}
    (hx : x ∈ notices H (after H strict evs).versioner cs answer (after H strict evs).versioner.dags) :
    (∀ e ∈ x.dependents, ∃ v, getVersion (after H strict evs).versioner.versions e.1 e.2.1 = .ok v ∧ v.semanticVersion = e.2.2 ∧
      DependsOn (after H strict evs).versioner x.component v) ∧
    (∀ op cv v, getVersion (after H strict evs).versioner.versions op cv = .ok v → DependsOn (after H strict evs).versioner x.component v →
      ∃ op', (op', cv, v.semanticVersion) ∈ x.dependents) ∧
    (∀ op cv v, getVersion (after H strict evs).versioner.versions op cv = .ok v → DependsOn (after H strict evs).versioner x.component v →
      (∀ op' w, getVersion (after H strict evs).versioner.versions op' cv = .ok w → op' = op) → (op, cv, v.semanticVersion) ∈ x.dependents) := by
  have hI := (after_inv hH strict hev).inv
  have hN := after_nodes (H := H) strict evs
  generalize (after H strict evs).versioner = s at hI hN hx
  obtain ⟨dag, n, c, hh, vs, h1, h2, h3, h4, h5, h6, h7⟩ := mem_notices _ hx
  have hd := get?_of_mem hI.dagsNodup h1
  obtain ⟨h', o, e1, e2, _⟩ := head_sem hI.toInvC hd
  rw [h5] at e1
  cases e1
  have hm := fun y => headMeaning_iff (x := y) hd h5 e2
  unfold dependentVersions at h6
  rw [hd] at h6
  dsimp only at h6
  rw [e2] at h6
  dsimp only at h6
  cases h6
  have recd : ∀ id w, (id, w) ∈ s.flatVersions → ∃ op, getVersion s.versions op id = .ok w := by
    intro id w hw
    rcases mem_flat _ _ hw with ⟨p, hp, hw⟩ | hw
    · have hpv := get?_of_mem hN.vers hp
      exact ⟨p.1, getVersion_ok.2 ⟨p.2, hpv, get?_of_mem (hI.vnodup _ _ hpv) hw⟩⟩
    · cases hw
  have A : ∀ e ∈ x.dependents, ∃ v, getVersion s.versions e.1 e.2.1 = .ok v ∧ v.semanticVersion = e.2.2 ∧ DependsOn s x.component v := by
    intro e he
    rw [h7] at he
    obtain ⟨v, hv, rfl⟩ := List.mem_map.1 he
    obtain ⟨hv, hs⟩ := List.mem_filter.1 hv
    obtain ⟨⟨id, w⟩, hw, rfl⟩ := List.mem_map.1 hv
    obtain ⟨op, hop⟩ := recd id w hw
    obtain ⟨_, a2, a3, _⟩ := hI.vers _ _ _ hop
    refine ⟨w, ?_, rfl, o.semanticHash, (hm _).2 rfl, of_decide_eq_true hs⟩
    show getVersion s.versions w.component w.contentVersion = .ok w
    rw [a2, a3]
    exact hop
  have B : ∀ op cv v, getVersion s.versions op cv = .ok v → DependsOn s x.component v → ∃ op', (op', cv, v.semanticVersion) ∈ x.dependents := by
    rintro op cv v hv ⟨y, hy, hvy⟩
    rw [hm] at hy
    subst hy
    obtain ⟨hvok, hcv, _, _⟩ := hI.vers _ _ _ hv
    obtain ⟨vs', hvs, hvv⟩ := getVersion_ok.1 hv
    obtain ⟨w, g1, g2⟩ := flat_get? (id := cv) s.versions [] (.inl ⟨(op, vs'), mem_of_get? hvs, Dict.mem_keys.2 ⟨v, hvv⟩⟩)
    have hmem : (cv, w) ∈ s.flatVersions := mem_of_get? g1
    obtain ⟨op', hop'⟩ := recd cv w hmem
    obtain ⟨hwok, hwcv, hwc, _⟩ := hI.vers _ _ _ hop'
    have S := VersionOK.same hH hwok hvok (hwcv.trans hcv.symm)
    refine ⟨w.component, ?_⟩
    rw [h7]
    refine List.mem_map.2 ⟨w, List.mem_filter.2 ⟨List.mem_map.2 ⟨_, hmem, rfl⟩, decide_eq_true ?_⟩, ?_⟩
    · rw [S.1]; exact hvy
    · rw [presentation, hwcv, S.2]
  refine ⟨A, B, fun op cv v hv hdep huniq => ?_⟩
  obtain ⟨op', hop'⟩ := B op cv v hv hdep
  obtain ⟨w, hw, _⟩ := A _ hop'
  cases huniq op' w hw
  exact hop'

/-- C92, what the answers decide: take a recorded version that was valid for the code seen last, and let no component go back to earlier code.
After entering the version is valid for the new code exactly if every announced change under which its id is listed was answered with "no".
(Partial: going back to earlier code is not announced, `C92_refuted_back`.) -/
theorem C92_answers_decide_partial (hH : Function.Injective H) (strict : Bool) {evs : List VEvent} (hev : ∀ ev ∈ evs, ev.Legal compOf)
    {cs : CodeState} {answer : DepKey → Answer} {s' : Versioner} (h : syncCodebase H (after H strict evs).versioner cs answer = (.ok (), s'))
    {op : DepKey} {cv : String} {v : Version} (hv : getVersion (after H strict evs).versioner.versions op cv = .ok v)
    (hval : WasValid (after H strict evs).versioner v)
    (hback : ∀ k, k ∈ v.semanticExpansion.keys → IsCurrent H (after H strict evs).versioner cs k ∨ IsNew H (after H strict evs).versioner cs k) :
    Valid H s' cs v ↔ ∀ x ∈ notices H (after H strict evs).versioner cs answer (after H strict evs).versioner.dags,
      (∃ e ∈ x.dependents, e.2.1 = cv) → answer x.component = .no := by
  have hann := C92_announced_iff hH strict hev h
  have hlist := fun x hx => C92_listed_partial (cs := cs) (answer := answer) hH strict hev (x := x) hx
  have hI := (after_inv hH strict hev).inv
  generalize (after H strict evs).versioner = s at hI h hv hval hback hann hlist
  unfold syncCodebase at h
  cases hs : syncDags H cs answer s.dags with
  | error e => rw [hs] at h; cases h
  | ok ds =>
    rw [hs] at h
    cases h
    obtain ⟨_, hspec⟩ := syncDags_spec _ _ hs
    obtain ⟨hvok, hcv, _, _⟩ := hI.vers _ _ _ hv
    -- one component of the version
    have one : ∀ k x, v.semanticExpansion.get? k = some x →
        (IsNew H s cs k → (CurrentVersion H ds cs k x ↔ answer k = .no)) ∧ (IsCurrent H s cs k → CurrentVersion H ds cs k x) := by
      intro k x hx
      obtain ⟨d, hd, h1, h2, _, o, h3, h4, h5⟩ := hval k x hx
      rw [h1] at h3
      cases h3
      obtain ⟨n, c, d', g1, g2, y, g3, g4⟩ := hspec k d h1
      rw [currentVersion_iff]
      have cur : CurSem H ds cs k x ↔ ∃ o', d'.commits.get? (c.hash H) = some o' ∧ o'.semanticHash = x := by
        constructor
        · rintro ⟨n', c', a1, a2, d2, o', a3, a4, a5⟩
          rw [g1] at a1; cases a1
          rw [g2] at a2; cases a2
          rw [g4] at a3; cases a3
          exact ⟨o', a4, a5⟩
        · rintro ⟨o', a1, a2⟩
          exact ⟨n, c, g1, g2, d', o', g4, a1, a2⟩
      rw [cur]
      obtain ⟨rfl, hsy⟩ := Dag.sync_ok g3 (hI.dagOK k d h1)
      constructor
      · rintro ⟨d0, n0, h0, a1, a2, a3, a4⟩
        rw [h1] at a1; cases a1
        rw [g1] at a2; cases a2
        obtain ⟨c0, a5, rfl⟩ := identified_content.1 a3
        rw [g2] at a5; cases a5
        rcases hsy with ⟨b1, _⟩ | ⟨b1, b2⟩
        · exact absurd b1 a4
        · obtain ⟨_, hn, hd', ho', b, hc, e1, e2, e3, rfl⟩ := Dag.commit_ok b2
          rw [h2] at e1; cases e1
          rw [h4] at e2; cases e2
          simp only [Dag.get?_snoc hn, if_true, Option.some.injEq, exists_eq_left']
          obtain ⟨h'', o'', f1, f2, f3⟩ := head_sem hI.toInvC h1
          rw [h2] at f1; cases f1
          rw [h4] at f2; cases f2
          cases ha : answer k with
          | yes =>
            rw [ha] at e3
            cases e3
            simp only [if_true, reduceCtorEq, iff_false]
            intro he
            rw [← h5] at he
            exact hn (he ▸ f3)
          | no => rw [ha] at e3; cases e3; simpa using h5
          | abort => rw [ha] at e3; cases e3
      · rintro ⟨d0, n0, h0, a1, a2, a3, a4⟩
        rw [h1] at a1; cases a1
        rw [g1] at a2; cases a2
        obtain ⟨c0, a5, rfl⟩ := identified_content.1 a3
        rw [g2] at a5; cases a5
        rw [h2] at a4; cases a4
        rcases hsy with ⟨b1, rfl⟩ | ⟨b1, b2⟩
        · exact ⟨o, h4, h5⟩
        · exact absurd (Dict.mem_keys.2 ⟨o, h4⟩) b1
    constructor
    · rintro V x hx ⟨e, he, hecv⟩
      obtain ⟨w, w1, w2, y, w3, w4⟩ := (hlist x hx).1 e he
      obtain ⟨hwok, hwcv, _, _⟩ := hI.vers _ _ _ w1
      have S := VersionOK.same hH hwok hvok (hwcv.trans (hecv.trans hcv.symm))
      rw [S.1] at w4
      exact ((one x.component y w4).1 ((hann x.component).1 ⟨x, hx, rfl⟩)).1 (V _ _ w4)
    · intro hno k x hx
      rcases hback k (Dict.mem_keys.2 ⟨x, hx⟩) with hc | hn
      · exact (one k x hx).2 hc
      · refine ((one k x hx).1 hn).2 ?_
        obtain ⟨y, hy, rfl⟩ := (hann k).2 hn
        obtain ⟨op', ho⟩ := (hlist y hy).2.1 op cv v hv ⟨x, hval _ _ hx, hx⟩
        exact hno y hy ⟨_, ho, rfl⟩

/-- C92, no answer makes a version valid that was not: with no component going back to earlier code, the versions valid for the new code are
exactly those that were valid and whose id is listed only under changes answered with "no". -/
theorem C92_valid_iff_partial (hH : Function.Injective H) (strict : Bool) {evs : List VEvent} (hev : ∀ ev ∈ evs, ev.Legal compOf)
    {cs : CodeState} {answer : DepKey → Answer} {s' : Versioner} (h : syncCodebase H (after H strict evs).versioner cs answer = (.ok (), s'))
    {op : DepKey} {cv : String} {v : Version} (hv : getVersion (after H strict evs).versioner.versions op cv = .ok v)
    (hback : ∀ k, k ∈ v.semanticExpansion.keys → IsCurrent H (after H strict evs).versioner cs k ∨ IsNew H (after H strict evs).versioner cs k) :
    Valid H s' cs v ↔ WasValid (after H strict evs).versioner v ∧
      ∀ x ∈ notices H (after H strict evs).versioner cs answer (after H strict evs).versioner.dags,
        (∃ e ∈ x.dependents, e.2.1 = cv) → answer x.component = .no := by
  have key : Valid H s' cs v → WasValid (after H strict evs).versioner v := by
    have hI := (after_inv hH strict hev).inv
    generalize (after H strict evs).versioner = s at hI h hv hback
    intro V
    unfold syncCodebase at h
    cases hs : syncDags H cs answer s.dags with
    | error e => rw [hs] at h; cases h
    | ok ds =>
      rw [hs] at h
      cases h
      obtain ⟨_, hspec⟩ := syncDags_spec _ _ hs
      obtain ⟨hvok, hcv, _, _⟩ := hI.vers _ _ _ hv
      intro k x hx
      obtain ⟨d, h1⟩ : ∃ d, s.dags.get? k = some d := by
        rcases hback k (Dict.mem_keys.2 ⟨x, hx⟩) with ⟨d, _, _, h1, _⟩ | ⟨d, _, _, h1, _⟩ <;> exact ⟨d, h1⟩
      obtain ⟨hd, o, h2, h4, h5⟩ := head_sem hI.toInvC h1
      rw [headMeaning_iff h1 h2 h4]
      -- the meaning recorded in the version is a commit
      have hxk : x ∈ d.commits.keys := by
        obtain ⟨hs', hce⟩ := Dict.mem_keys.1 ((hvok.dom k).2 (Dict.mem_keys.2 ⟨x, hx⟩))
        obtain ⟨hne, hall⟩ := hvok.sem k hs' hce
        obtain ⟨y, hy⟩ := List.exists_mem_of_ne_nil _ hne
        obtain ⟨z, hz, d2, o2, a1, a2, a3⟩ := hall y hy
        rw [hx] at hz; cases hz
        rw [h1] at a1; cases a1
        rcases hI.dagOK k d h1 with rfl | ⟨_, r, _, _, _, hg⟩
        · cases a2
        · rw [← a3]; exact (hg.entries.2 y o2 a2).sem
      obtain ⟨n, c, d', g1, g2, y, g3, g4⟩ := hspec k d h1
      have hV := V k x hx
      rw [currentVersion_iff] at hV
      obtain ⟨n', c', a1, a2, d2, o', a3, a4, a5⟩ := hV
      rw [g1] at a1; cases a1
      rw [g2] at a2; cases a2
      rw [show (ds.get? k = some d') from g4] at a3; cases a3
      obtain ⟨rfl, hsy⟩ := Dag.sync_ok g3 (hI.dagOK k d h1)
      rcases hsy with ⟨b1, rfl⟩ | ⟨b1, b2⟩
      · rcases hback k (Dict.mem_keys.2 ⟨x, hx⟩) with ⟨d0, n0, h0, c1, c2, c3, c4⟩ | ⟨d0, n0, h0, c1, c2, c3, c4⟩
        · rw [h1] at c1; cases c1
          rw [g1] at c2; cases c2
          obtain ⟨c0, c5, rfl⟩ := identified_content.1 c3
          rw [g2] at c5; cases c5
          rw [h2] at c4; cases c4
          rw [show d.commits.get? (c.hash H) = some o' from a4] at h4
          cases h4
          exact a5
        · rw [h1] at c1; cases c1
          rw [g1] at c2; cases c2
          obtain ⟨c0, c5, rfl⟩ := identified_content.1 c3
          rw [g2] at c5; cases c5
          exact absurd b1 c4
      · obtain ⟨_, hn, hd', ho', b, hc, e1, e2, e3, rfl⟩ := Dag.commit_ok b2
        rw [h2] at e1; cases e1
        rw [h4] at e2; cases e2
        rw [Dag.get?_snoc hn, if_pos rfl] at a4
        cases a4
        dsimp only at a5
        cases b with
        | true => rw [if_pos rfl] at a5; exact absurd (a5 ▸ hxk) hn
        | false => simpa using a5
  constructor
  · intro V
    exact ⟨key V, (C92_answers_decide_partial hH strict hev h hv (key V) hback).1 V⟩
  · rintro ⟨W, A⟩
    exact (C92_answers_decide_partial hH strict hev h hv W hback).2 A

/-! ### concrete histories -/

/-- `f(1)` is run, which calls `g` and reads `G` -/
def ranOnce : List VEvent := [.enter (codeOf "def g" "0") (fun _ => .yes), fCall ["f"]]

theorem ranOnce_legal : ∀ ev ∈ ranOnce, ev.Legal (fun _ => "f") := by
  intro ev h
  simp only [ranOnce, List.mem_cons, List.not_mem_nil, or_false] at h
  rcases h with rfl | rfl
  · show List.Nodup _; decide
  · exact ⟨rfl, by decide⟩

/-- Then `g` is changed: the change is announced, with the version of `f` as dependent. -/
example : notices encH (after encH true ranOnce).versioner (codeOf "def g2" "0") (fun _ => .yes) (after encH true ranOnce).versioner.dags =
    [⟨"g", [("f", cvOf "def g", svOf "def g")]⟩] := by decide +kernel

/-- The version was valid, and after the answer "no" it still is; after "yes" it is not. -/
example : ((getVersion (after encH true ranOnce).versioner.versions "f" (cvOf "def g")).toOption.map fun v => v.semanticExpansion.keys) =
      some ["f", "g", "G"] ∧
    ((after encH true ranOnce).versioner.dags.map fun p => (p.1, p.2.head)) =
      [("f", some (encH (.str "def f"))), ("g", some (encH (.str "def g"))), ("G", some "0")] ∧
    (syncCodebase encH (after encH true ranOnce).versioner (codeOf "def g2" "0") (fun _ => .no)).1.toOption = some () ∧
    (lookupCall encH (syncCodebase encH (after encH true ranOnce).versioner (codeOf "def g2" "0") (fun _ => .no)).2 "f" "f(1)"
      (codeOf "def g2" "0")).map (Option.map (·.2)) = .ok (some (svOf "def g")) ∧
    lookupCall encH (syncCodebase encH (after encH true ranOnce).versioner (codeOf "def g2" "0") (fun _ => .yes)).2 "f" "f(1)"
      (codeOf "def g2" "0") = .ok none := by
  refine ⟨by decide +kernel, by decide +kernel, by decide +kernel, by decide +kernel, by decide +kernel⟩

def wasValidB (s : Versioner) (v : Version) : Bool := v.semanticExpansion.all fun p =>
  match s.dags.get? p.1 with
  | none => false
  | some d => match d.head with
    | none => false
    | some h => match d.commits.get? h with
      | none => false
      | some o => decide (o.semanticHash = p.2)

theorem wasValid_of {s : Versioner} {v : Version} (h : wasValidB s v = true) : WasValid s v := by
  intro k x hx
  have := List.all_eq_true.1 h (k, x) (mem_of_get? hx)
  dsimp only at this
  split at this
  · cases this
  · rename_i d hd
    split at this
    · cases this
    · rename_i c hc
      split at this
      · cases this
      · rename_i o ho
        exact ⟨d, c, hd, hc, d, o, hd, ho, of_decide_eq_true this⟩

def aheadB (H : Val → String) (s : Versioner) (cs : CodeState) (v : Version) : Bool := v.semanticExpansion.keys.all fun k =>
  match s.dags.get? k, cs.get? k with
  | some d, some n => match n.content with
    | none => false
    | some c => decide (d.head = some (c.hash H)) || !d.commits.has (c.hash H)
  | _, _ => false

theorem ahead_of {s : Versioner} {cs : CodeState} {v : Version} (h : aheadB H s cs v = true) :
    ∀ k, k ∈ v.semanticExpansion.keys → IsCurrent H s cs k ∨ IsNew H s cs k := by
  intro k hk
  have := List.all_eq_true.1 h k hk
  split at this
  · rename_i d n hd hn
    split at this
    · cases this
    · rename_i c hc
      rw [Bool.or_eq_true] at this
      rcases this with this | this
      · exact .inl ⟨d, n, _, hd, hn, identified_content.2 ⟨c, hc, rfl⟩, of_decide_eq_true this⟩
      · refine .inr ⟨d, n, _, hd, hn, identified_content.2 ⟨c, hc, rfl⟩, fun hk => ?_⟩
        rw [Dict.has_iff.2 hk] at this
        cases this
  · cases this

/-- The hypotheses of `C92_answers_decide_partial` are met here: the version of `f(1)` is kept by the answer "no". -/
example : ∃ v, getVersion (after encH true ranOnce).versioner.versions "f" (cvOf "def g") = .ok v ∧
    Valid encH (syncCodebase encH (after encH true ranOnce).versioner (codeOf "def g2" "0") (fun _ => .no)).2 (codeOf "def g2" "0") v := by
  have hex : ((getVersion (after encH true ranOnce).versioner.versions "f" (cvOf "def g")).toOption.any fun v =>
      wasValidB (after encH true ranOnce).versioner v && aheadB encH (after encH true ranOnce).versioner (codeOf "def g2" "0") v) = true := by
    decide +kernel
  cases hv : getVersion (after encH true ranOnce).versioner.versions "f" (cvOf "def g") with
  | error e => rw [hv] at hex; cases hex
  | ok v =>
    rw [hv] at hex
    have hex : (wasValidB _ v && aheadB encH _ _ v) = true := hex
    rw [Bool.and_eq_true] at hex
    obtain ⟨h1, h2⟩ := hex
    have hok : (syncCodebase encH (after encH true ranOnce).versioner (codeOf "def g2" "0") (fun _ => .no)).1 = .ok () := by decide +kernel
    exact ⟨v, rfl, (C92_answers_decide_partial (fun u v => encH_inj u v) true ranOnce_legal (Prod.ext hok rfl) hv (wasValid_of h1) (ahead_of h2)).2
      fun _ _ _ => rfl⟩

/-- `g` is changed, `f(1)` run again, and `g` is about to be changed back -/
def ranTwice : List VEvent := ranOnce ++ [.enter (codeOf "def g2" "0") (fun _ => .yes), fCall ["f"]]

def staleB (s : Versioner) (v : Version) (k : DepKey) : Bool :=
  match v.semanticExpansion.get? k, s.dags.get? k with
  | some x, some d => match d.head with
    | none => false
    | some h => match d.commits.get? h with
      | none => false
      | some o => decide (o.semanticHash ≠ x)
  | _, _ => false

theorem stale_of {s : Versioner} {v : Version} {k : DepKey} (h : staleB s v k = true) : ¬ WasValid s v := by
  intro W
  unfold staleB at h
  split at h
  · rename_i x d hx hd
    split at h
    · cases h
    · rename_i c hc
      split at h
      · cases h
      · rename_i o ho
        exact of_decide_eq_true h ((headMeaning_iff hd hc ho).1 (W k x hx))
  · cases h

theorem ranTwice_legal : ∀ ev ∈ ranTwice, ev.Legal (fun _ => "f") := by
  intro ev h
  rcases List.mem_append.1 h with h | h
  · exact ranOnce_legal ev h
  · simp only [List.mem_cons, List.not_mem_nil, or_false] at h
    rcases h with rfl | rfl
    · show List.Nodup _; decide
    · exact ⟨rfl, by decide⟩

/-- The hypotheses of `C92_valid_iff_partial` are met here: with a third `g` and the answer "no" to everything, the version made with the first
`g` stays invalid. -/
example : ∃ v, getVersion (after encH true ranTwice).versioner.versions "f" (cvOf "def g") = .ok v ∧
    ¬ Valid encH (syncCodebase encH (after encH true ranTwice).versioner (codeOf "def g3" "0") (fun _ => .no)).2 (codeOf "def g3" "0") v := by
  have hex : ((getVersion (after encH true ranTwice).versioner.versions "f" (cvOf "def g")).toOption.any fun v =>
      staleB (after encH true ranTwice).versioner v "g" && aheadB encH (after encH true ranTwice).versioner (codeOf "def g3" "0") v) = true := by
    decide +kernel
  cases hv : getVersion (after encH true ranTwice).versioner.versions "f" (cvOf "def g") with
  | error e => rw [hv] at hex; cases hex
  | ok v =>
    rw [hv] at hex
    have hex : (staleB _ v "g" && aheadB encH _ _ v) = true := hex
    rw [Bool.and_eq_true] at hex
    obtain ⟨h1, h2⟩ := hex
    have hok : (syncCodebase encH (after encH true ranTwice).versioner (codeOf "def g3" "0") (fun _ => .no)).1 = .ok () := by decide +kernel
    exact ⟨v, rfl, fun V => stale_of h1
      ((C92_valid_iff_partial (fun u v => encH_inj u v) true ranTwice_legal (Prod.ext hok rfl) hv (ahead_of h2)).1 V).1⟩

/-- Refutation: going back to earlier code is not announced, although a version that was valid is not any more. -/
theorem C92_refuted_back :
    (lookupCall encH (after encH true ranTwice).versioner "f" "f(1)" (codeOf "def g2" "0")).map (Option.map (·.2)) = .ok (some (svOf "def g2")) ∧
    notices encH (after encH true ranTwice).versioner (codeOf "def g" "0") (fun _ => .yes) (after encH true ranTwice).versioner.dags = [] ∧
    (lookupCall encH (syncCodebase encH (after encH true ranTwice).versioner (codeOf "def g" "0") (fun _ => .yes)).2 "f" "f(1)"
      (codeOf "def g" "0")).map (Option.map (·.2)) = .ok (some (svOf "def g")) := by
  refine ⟨by decide +kernel, by decide +kernel, by decide +kernel⟩

/-- two ops that call each other -/
def pingCode (g : String) : CodeState := [("f", .callable (some "def f") "bf"), ("g", .callable (some g) "bg")]

def cvF0 : String := hashDict encH encSorted [("f", [encH (.str "def f")])]
def cvFG : String := hashDict encH encSorted [("f", [encH (.str "def f")]), ("g", [encH (.str "def g")])]

/-- `f(2)` calls `g(1)`, which calls `f(0)` -/
def pingPong : List VEvent :=
  [.enter (pingCode "def g") (fun _ => .yes), .executed "f(0)" ["f"] [("f", .callable none "bf")] [],
   .executed "g(1)" ["g"] [("g", .callable none "bg"), ("@f", .terminal "f" cvF0)] [],
   .executed "f(2)" ["f"] [("f", .callable none "bf"), ("@g", .terminal "g" cvFG)] []]

theorem pingPong_legal : ∀ ev ∈ pingPong, ev.Legal (fun uid => if uid = "g(1)" then "g" else "f") := by
  intro ev h
  simp only [pingPong, List.mem_cons, List.not_mem_nil, or_false] at h
  rcases h with rfl | rfl | rfl | rfl
  · show List.Nodup _; decide
  · exact ⟨by decide, by decide⟩
  · exact ⟨by decide, by decide⟩
  · exact ⟨by decide, by decide⟩

/-- Refutation: of two ops that call each other both have a version that depends on `g`, but only one of them is listed when `g` changes,
because the list is made by content ids, which do not say of which op a version is. -/
theorem C92_refuted_component :
    ((after encH true pingPong).versioner.versions.map fun p => (p.1, p.2.map fun q => (q.1, q.2.semanticExpansion.keys))) =
      [("f", [(cvF0, ["f"]), (cvFG, ["f", "g"])]), ("g", [(cvFG, ["g", "f"])])] ∧
    ((notices encH (after encH true pingPong).versioner (pingCode "def g2") (fun _ => .yes) (after encH true pingPong).versioner.dags).map
      fun x => (x.component, x.dependents.map fun e => (e.1, e.2.1))) = [("g", [("g", cvFG)])] := by
  refine ⟨by decide +kernel, by decide +kernel⟩

end Verif.Props
