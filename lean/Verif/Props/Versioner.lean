import Verif.Proofs.VersionerTotal
import Verif.Basic.Encode
/-!
C32, C33, C34, C35, C36, C37: versions of calls.

`VSt.run H ⟨.empty strict, []⟩ evs` is the state of a versioned storage after any sequence of context entries (with any code
and any answers at the prompts), executions (with any traces) and drops of versions. `SemIn dags k h x`: in the histories,
content `h` of component `k` was declared to be semantic version `x`. `CurrentVersion H dags cs k x`: in the code state `cs`,
component `k`, identified by the source of a function or the hash of the value of a global, has the semantic version `x` (`CurSem` is the
same in terms of the model). `Legal`: the trace of a call has the op's own function as its only root, and
one node per dependency; a code state has one node per dependency.
-/
namespace Verif.Props
open Verif Versioner

variable {H : Val → String} {compOf : String → DepKey}

/-- The state after `evs`. -/
def after (H : Val → String) (strict : Bool) (evs : List VEvent) : VSt := VSt.run H ⟨.empty strict, []⟩ evs

/-- The execution of `uid` after `pre` was registered as version `v`. -/
def Registered (H : Val → String) (compOf : String → DepKey) (strict : Bool) (pre : List VEvent) (uid : String) (trace : Dict DepKey TNode)
    (edges : List (DepKey × DepKey)) (v : Version) : Prop :=
  ((after H strict pre).executed H uid [compOf uid] trace edges).1 = .ok v

theorem after_inv (hH : Function.Injective H) (strict : Bool) {evs : List VEvent} (hev : ∀ ev ∈ evs, ev.Legal compOf) :
    StInv H compOf (after H strict evs) := (run_inv hH evs (.empty H compOf strict) hev).1

theorem dags_grow (hH : Function.Injective H) (strict : Bool) {pre post : List VEvent} (hev : ∀ ev ∈ pre ++ post, ev.Legal compOf) :
    DagsLE (after H strict pre).versioner.dags (after H strict (pre ++ post)).versioner.dags := by
  unfold after
  rw [VSt.run_append]
  exact (run_inv hH post (after_inv hH strict fun e he => hev e (by simp [he])) fun e he => hev e (by simp [he])).2

/-- The state right after a registered execution, and the version found in any later state. -/
theorem registered_spec (hH : Function.Injective H) (strict : Bool) {pre post : List VEvent} {uid : String} {trace : Dict DepKey TNode}
    {edges : List (DepKey × DepKey)} {v : Version} (hev : ∀ ev ∈ pre ++ .executed uid [compOf uid] trace edges :: post, ev.Legal compOf)
    (hreg : Registered H compOf strict pre uid trace edges v) :
    let st := after H strict (pre ++ .executed uid [compOf uid] trace edges :: post)
    VersionOK H st.versioner.dags v ∧
    (∀ k n h, (k, n) ∈ trace → RecordedAs H (after H strict pre).codeState k n h →
      ∃ x, v.semanticExpansion.get? k = some x ∧ SemIn st.versioner.dags k h x) ∧
    (∀ kk dk cv, (kk, TNode.terminal dk cv) ∈ trace → ∃ w, getVersion (after H strict pre).versioner.versions dk cv = .ok w ∧
      ∀ k x, w.semanticExpansion.get? k = some x → v.semanticExpansion.get? k = some x) ∧
    ((∀ sv, .dropVersion sv ∈ post → sv ≠ v.semanticVersion) → ⟨uid, v.semanticVersion, v.contentVersion⟩ ∈ st.versioner.df ∧
      ∃ w, getVersion st.versioner.versions (compOf uid) v.contentVersion = .ok w ∧ ∀ k, w.semanticExpansion.get? k = v.semanticExpansion.get? k) := by
  intro st
  have hpre : StInv H compOf (after H strict pre) := after_inv hH strict fun e he => hev e (by simp [he])
  have hnd : trace.keys.Nodup := (hev (.executed uid [compOf uid] trace edges) (by simp)).2
  obtain ⟨r, st', h1, h2, h3, h4, h5, h6⟩ := executed_spec hH hpre (uid := uid) (edges := edges) hnd
  unfold Registered at hreg
  rw [h1] at hreg
  dsimp only at hreg
  have hst : st = st'.run H post := by
    show after H strict _ = _
    unfold after
    rw [VSt.run_append]
    show VSt.run H (VSt.step H (after H strict pre) _) post = _
    unfold VSt.step
    dsimp only
    rw [h1]
  obtain ⟨hstI, hle⟩ := run_inv hH post h2 (fun e he => hev e (by simp [he]))
  rw [← hst] at hstI hle
  rcases h6 with ⟨e, he, _⟩ | ⟨v', hv', a1, a2, a3, a4, a5, w, a6, a7, a8⟩
  · rw [he] at hreg; cases hreg
  · rw [hv'] at hreg
    cases hreg
    refine ⟨a2.mono hle, ?_, a5, ?_⟩
    · intro k n h hm hr
      obtain ⟨x, hx, hx'⟩ := a3 k n h hm hr
      exact ⟨x, hx, hle _ _ _ hx'⟩
    · intro hdrop
      obtain ⟨b1, b2⟩ := row_stays hH post h2 (fun e he => hev e (by simp [he])) ⟨uid, v.semanticVersion, v.contentVersion⟩
        (by rw [a1]; simp) hdrop w a6
      rw [← hst] at b1 b2
      exact ⟨b1, w, b2, a8⟩

/-! ### C32 -/

/-- C32: a lookup that finds a version finds one registered by an earlier execution of this very call; every function that
execution entered and every global it read has, in the current code, the semantic version it had in the code executed. The
same holds for the dependencies of every memoized call it used. -/
theorem C32_hit_means_dependencies_match (hH : Function.Injective H) (strict : Bool) {evs : List VEvent} (hev : ∀ ev ∈ evs, ev.Legal compOf)
    {cs : CodeState} (hcs : cs.keys.Nodup) {uid cv sv : String}
    (hit : lookupCall H (after H strict evs).versioner (compOf uid) uid cs = .ok (some (cv, sv))) :
    ∃ pre post trace edges v, evs = pre ++ .executed uid [compOf uid] trace edges :: post ∧ Registered H compOf strict pre uid trace edges v ∧
      v.contentVersion = cv ∧ v.semanticVersion = sv ∧
      (∀ k n h, (k, n) ∈ trace → RecordedAs H (after H strict pre).codeState k n h →
        ∃ x, SemIn (after H strict evs).versioner.dags k h x ∧ CurrentVersion H (after H strict evs).versioner.dags cs k x) ∧
      (∀ kk dk cv', (kk, TNode.terminal dk cv') ∈ trace → ∃ w, getVersion (after H strict pre).versioner.versions dk cv' = .ok w ∧
        ∀ k x, w.semanticExpansion.get? k = some x → CurrentVersion H (after H strict evs).versioner.dags cs k x) := by
  have hI := after_inv hH strict hev
  obtain ⟨r, hr, rfl, rfl, rfl, w, hw, hsv, hm⟩ := lookupCall_sound hH hI.inv hcs hit
  obtain ⟨pre, post, trace, edges, v, st', he, hx, h1, h2⟩ := row_origin hH ⟨.empty strict, []⟩ rfl (.empty H compOf strict) evs hev r hr
  have hreg : Registered H compOf strict pre r.preCallUid trace edges v := by
    unfold Registered after
    rw [hx]
  subst he
  obtain ⟨b1, b2, b3, _⟩ := registered_spec hH strict hev hreg
  have hse := ((hI.inv.vers _ _ _ hw).1.same hH b1 (by rw [(hI.inv.vers _ _ _ hw).2.1, h2])).1
  refine ⟨pre, post, trace, edges, v, rfl, hreg, h2, h1, ?_, ?_⟩
  · intro k n h hmem hrec
    obtain ⟨x, hx, hx'⟩ := b2 k n h hmem hrec
    exact ⟨x, hx', currentVersion_iff.mpr (hm k x (by rw [hse]; exact hx))⟩
  · intro kk dk cv' hmem
    obtain ⟨u, hu, hu'⟩ := b3 kk dk cv' hmem
    exact ⟨u, hu, fun k x hk => currentVersion_iff.mpr (hm k x (by rw [hse]; exact hu' k x hk))⟩

/-! ### C33 -/

/-- C33: a registered execution whose version was not dropped is found again in any later state and context whose code gives
every dependency of the version its recorded semantic version - whatever else was executed, changed or declared meanwhile. -/
theorem C33_unchanged_code_hits (hH : Function.Injective H) (strict : Bool) {pre post : List VEvent} {uid : String} {trace : Dict DepKey TNode}
    {edges : List (DepKey × DepKey)} {v : Version} (hev : ∀ ev ∈ pre ++ .executed uid [compOf uid] trace edges :: post, ev.Legal compOf)
    (hreg : Registered H compOf strict pre uid trace edges v) (hdrop : ∀ sv, .dropVersion sv ∈ post → sv ≠ v.semanticVersion)
    (hcode : ∀ k x, v.semanticExpansion.get? k = some x →
      CurrentVersion H (after H strict (pre ++ .executed uid [compOf uid] trace edges :: post)).versioner.dags
        (after H strict (pre ++ .executed uid [compOf uid] trace edges :: post)).codeState k x) :
    lookupCall H (after H strict (pre ++ .executed uid [compOf uid] trace edges :: post)).versioner (compOf uid) uid
      (after H strict (pre ++ .executed uid [compOf uid] trace edges :: post)).codeState = .ok (some (v.contentVersion, v.semanticVersion)) := by
  have hI := after_inv hH strict hev
  obtain ⟨b1, b2, b3, b4⟩ := registered_spec hH strict hev hreg
  obtain ⟨hr, w, hw, hse⟩ := b4 hdrop
  exact lookupCall_complete hH hI.inv hI.csNodup hr hw hI.sync (fun k x hx => currentVersion_iff.mp (hcode k x (by rw [← hse]; exact hx)))

/-- C33: right after an execution was registered, the call is found, provided the memoized calls it used were found under the
current code themselves. -/
theorem C33_found_right_after (hH : Function.Injective H) (strict : Bool) {pre : List VEvent} {uid : String} {trace : Dict DepKey TNode}
    {edges : List (DepKey × DepKey)} {v : Version} (hev : ∀ ev ∈ pre ++ [.executed uid [compOf uid] trace edges], ev.Legal compOf)
    (hreg : Registered H compOf strict pre uid trace edges v)
    (hmemo : ∀ kk dk cv w, (kk, TNode.terminal dk cv) ∈ trace → getVersion (after H strict pre).versioner.versions dk cv = .ok w →
      ∀ k x, w.semanticExpansion.get? k = some x → CurrentVersion H (after H strict pre).versioner.dags (after H strict pre).codeState k x) :
    lookupCall H (after H strict (pre ++ [.executed uid [compOf uid] trace edges])).versioner (compOf uid) uid
      (after H strict (pre ++ [.executed uid [compOf uid] trace edges])).codeState = .ok (some (v.contentVersion, v.semanticVersion)) := by
  refine C33_unchanged_code_hits (post := []) hH strict hev hreg (fun sv h => absurd h List.not_mem_nil) ?_
  have hpre : StInv H compOf (after H strict pre) := after_inv hH strict fun e he => hev e (by simp [he])
  have hnd : trace.keys.Nodup := (hev (.executed uid [compOf uid] trace edges) (by simp)).2
  obtain ⟨r, st', h1, h2, h3, h4, h5, h6⟩ := executed_spec hH hpre (uid := uid) (edges := edges) hnd
  unfold Registered at hreg
  rw [h1] at hreg
  have hst : after H strict (pre ++ [.executed uid [compOf uid] trace edges]) = st' := by
    unfold after
    rw [VSt.run_append, VSt.run_one]
    show VSt.step H (after H strict pre) _ = _
    unfold VSt.step
    dsimp only
    rw [h1]
  rw [hst]
  rcases h6 with ⟨e, he, _⟩ | ⟨v', hv', a1, a2, a3, a4, a5, w, a6, a7, a8⟩
  · rw [he] at hreg; cases hreg
  · rw [hv'] at hreg
    cases hreg
    intro k x hx
    rw [currentVersion_iff]
    rcases a4 k x hx with h | ⟨kk, dk, cv, w, b1, b2, b3⟩
    · exact h
    · obtain ⟨n, c, c1, c2, c3⟩ := currentVersion_iff.mp (hmemo kk dk cv w b1 b2 k x b3)
      exact ⟨n, c, h5 k n c1, c2, h3 _ _ _ c3⟩

/-! ### C34 -/

/-- The row's version fits the code state: every dependency has its recorded semantic version. -/
def Compatible (H : Val → String) (compOf : String → DepKey) (s : Versioner) (cs : CodeState) (r : VRow) : Prop :=
  ∃ v, getVersion s.versions (compOf r.preCallUid) r.contentVersion = .ok v ∧ ∀ k x, v.semanticExpansion.get? k = some x → CurSem H s.dags cs k x

theorem conflict_symm {v w : Version} (h : Conflict v w) : Conflict w v :=
  let ⟨k, x, y, h1, h2, h3⟩ := h; ⟨k, y, x, h2, h1, fun h => h3 h.symm⟩

/-- Distinct rows of one call are in conflict. -/
theorem rows_conflict {s : Versioner} (hI : VInv H compOf s) {r r' : VRow} (hr : r ∈ s.df) (hr' : r' ∈ s.df) (hne : r ≠ r')
    (hu : r.preCallUid = r'.preCallUid) {v w : Version} (hv : getVersion s.versions (compOf r.preCallUid) r.contentVersion = .ok v)
    (hw : getVersion s.versions (compOf r'.preCallUid) r'.contentVersion = .ok w) : Conflict v w := by
  have := hI.pair
  obtain ⟨l1, l2, hl⟩ := List.append_of_mem hr
  rw [hl, List.pairwise_append, List.pairwise_cons] at this
  rw [hl] at hr'
  rcases List.mem_append.1 hr' with h | h
  · exact conflict_symm (this.2.2 r' h r (by simp) hu.symm w v hw hv)
  · rcases List.mem_cons.1 h with h | h
    · exact absurd h.symm hne
    · exact this.2.1.1 r' h hu v w hv hw

/-- C34: whatever was executed, at most one recorded version of a call fits any given code state. -/
theorem C34_matching_version_unique (hH : Function.Injective H) (strict : Bool) {evs : List VEvent} (hev : ∀ ev ∈ evs, ev.Legal compOf)
    (cs : CodeState) {r r' : VRow} (hr : r ∈ (after H strict evs).versioner.df) (hr' : r' ∈ (after H strict evs).versioner.df)
    (hu : r.preCallUid = r'.preCallUid) (hc : Compatible H compOf (after H strict evs).versioner cs r)
    (hc' : Compatible H compOf (after H strict evs).versioner cs r') : r = r' := by
  apply Classical.byContradiction
  intro hne
  obtain ⟨v, hv, hm⟩ := hc
  obtain ⟨w, hw, hm'⟩ := hc'
  obtain ⟨k, x, y, h1, h2, h3⟩ := rows_conflict (after_inv hH strict hev).inv hr hr' hne hu hv hw
  exact h3 ((hm k x h1).unique (hm' k y h2))

/-- C34: a call is never recorded twice under the same version. -/
theorem C34_rows_nodup (hH : Function.Injective H) (strict : Bool) {evs : List VEvent} (hev : ∀ ev ∈ evs, ev.Legal compOf) :
    (after H strict evs).versioner.df.Nodup := by
  have hI := (after_inv hH strict hev).inv
  refine hI.pair.imp_of_mem ?_
  rintro a b ha hb hab rfl
  obtain ⟨v, hv, _⟩ := hI.rows a ha
  obtain ⟨k, x, y, h1, h2, h3⟩ := hab rfl v v hv hv
  rw [h1] at h2
  cases h2
  exact h3 rfl

theorem VInv.perm {s : Versioner} (hI : VInv H compOf s) {rows : List VRow} (hp : rows.Perm s.df) : VInv H compOf { s with df := rows } where
  keysD := hI.keysD
  keysV := hI.keysV
  dagOK := hI.dagOK
  dagHead := hI.dagHead
  dagsNodup := hI.dagsNodup
  topo := hI.topo
  vers := hI.vers
  vnodup := hI.vnodup
  rows r hr := hI.rows r (hp.mem_iff.1 hr)
  pair := by
    dsimp only
    refine (hp.pairwise_iff ?_).2 hI.pair
    intro a b hab hu v w hv hw
    exact conflict_symm (hab hu.symm w v hw hv)

theorem lookupCall_ok {s : Versioner} (hI : VInv H compOf s) {cs : CodeState} (hcs : cs.keys.Nodup) {hs : Dict DepKey String}
    (h1 : codestateSemanticHashes H s cs = .ok (some hs)) (uid : String) : ∃ o, lookupCall H s (compOf uid) uid cs = .ok o := by
  obtain ⟨hk, _⟩ := codestate_spec hcs h1
  unfold lookupCall
  rw [h1]
  dsimp only
  cases h2 : s.df.filter (fun x => decide (x.preCallUid = uid)) with
  | nil => exact ⟨none, rfl⟩
  | cons a l =>
    have hmem : ∀ r, r ∈ a :: l → ∃ v, getVersion s.versions (compOf uid) r.contentVersion = .ok v := by
      intro r hr
      rw [← h2, List.mem_filter] at hr
      obtain ⟨v, hv, _⟩ := hI.rows r hr.1
      rw [show r.preCallUid = uid by simpa using hr.2] at hv
      exact ⟨v, hv⟩
    obtain ⟨v0, hv0⟩ := hmem a (by simp)
    obtain ⟨vs, hvs, _⟩ := getVersion_ok.1 hv0
    dsimp only
    rw [hvs]
    dsimp only
    rcases lookupLoop_total (H := H) (hs := hs) (vs := vs) (a :: l) (by
      intro r hr
      obtain ⟨v, hv⟩ := hmem r hr
      obtain ⟨vs', hvs', hv'⟩ := getVersion_ok.1 hv
      rw [hvs] at hvs'
      cases hvs'
      obtain ⟨d, hd⟩ := restrict_total (hs := hs) v.contentExpansion.keys fun k hk' => hk k ((hI.vers _ _ _ hv).2.2.2 k hk')
      exact ⟨v, d, hv', hd⟩) with ⟨cv, sv, h⟩ | ⟨h, _⟩
    · exact ⟨_, h⟩
    · exact ⟨_, h⟩

theorem codestate_congr (H : Val → String) (a b : Versioner) (cs : CodeState) (ht : a.topology = b.topology) (hd : a.dags = b.dags) :
    codestateSemanticHashes H a cs = codestateSemanticHashes H b cs := by
  have : ∀ (l : List (DepKey × TNode)) (acc : Dict DepKey String), semanticHashesLoop H a l acc = semanticHashesLoop H b l acc := by
    intro l
    induction l with
    | nil => intro acc; rfl
    | cons p l ih =>
      intro acc
      obtain ⟨k, n⟩ := p
      unfold semanticHashesLoop
      simp only [ih, ht, hd]
  unfold codestateSemanticHashes
  rw [this, ht]

/-- What one versioner finds, another one with the same code history and that row finds. -/
theorem lookup_fwd (hH : Function.Injective H) {cs : CodeState} (hcs : cs.keys.Nodup) {a b : Versioner} (ha : VInv H compOf a) (hb : VInv H compOf b)
    {uid cv sv : String} (hsub : ∀ r, r ∈ a.df → r.semanticVersion = sv → r ∈ b.df)
    (hvs : ∀ k v, v.semanticVersion = sv → getVersion a.versions k cv = .ok v → getVersion b.versions k cv = .ok v) (hds : a.dags = b.dags)
    (htop : a.topology = b.topology) {hs : Dict DepKey String} (hh : codestateSemanticHashes H a cs = .ok (some hs))
    (h : lookupCall H a (compOf uid) uid cs = .ok (some (cv, sv))) : lookupCall H b (compOf uid) uid cs = .ok (some (cv, sv)) := by
  obtain ⟨r, hr, rfl, rfl, rfl, v, hv, hsv, hm⟩ := lookupCall_sound hH ha hcs h
  refine lookupCall_complete hH hb hcs (hsub r hr rfl) (hvs _ v hsv hv) ?_ (by rw [← hds]; exact hm)
  rw [← hds, ← htop]
  intro k hk
  obtain ⟨h1, h2⟩ := codestate_spec hcs hh
  obtain ⟨x, hx⟩ := Dict.mem_keys.1 (h1 k hk)
  exact ⟨x, h2 k x hx⟩

/-- C34: the outcome of a lookup does not depend on the order in which the recorded rows are tried. -/
theorem C34_order_independent (hH : Function.Injective H) (strict : Bool) {evs : List VEvent} (hev : ∀ ev ∈ evs, ev.Legal compOf)
    {cs : CodeState} (hcs : cs.keys.Nodup) (uid : String) {rows : List VRow} (hp : rows.Perm (after H strict evs).versioner.df) :
    lookupCall H { (after H strict evs).versioner with df := rows } (compOf uid) uid cs =
      lookupCall H (after H strict evs).versioner (compOf uid) uid cs := by
  have hI := (after_inv hH strict hev).inv
  generalize (after H strict evs).versioner = s at *
  have hI' : VInv H compOf { s with df := rows } := VInv.perm hI hp
  have hcode := codestate_congr H { s with df := rows } s cs rfl rfl
  cases h1 : codestateSemanticHashes H s cs with
  | error e => unfold lookupCall; rw [hcode, h1]
  | ok o =>
    cases o with
    | none => unfold lookupCall; rw [hcode, h1]
    | some hs =>
      obtain ⟨o, ho⟩ := lookupCall_ok hI hcs h1 uid
      obtain ⟨o', ho'⟩ := lookupCall_ok hI' hcs (hcode.trans h1) uid
      rw [ho, ho']
      cases o with
      | some p =>
        have := lookup_fwd hH hcs hI hI' (fun r hr _ => hp.mem_iff.2 hr) (fun _ _ _ h => h) rfl rfl h1 ho
        rw [this] at ho'
        exact ho'.symm
      | none =>
        cases o' with
        | none => rfl
        | some p =>
          have := lookup_fwd hH hcs hI' hI (fun r hr _ => hp.mem_iff.1 hr) (fun _ _ _ h => h) rfl rfl (hcode.trans h1) ho'
          rw [this] at ho
          exact ho

/-! ### C35 -/

/-- C35: if syncing fails for any component, nothing changes: neither the histories of the other components nor anything else. -/
theorem C35_failed_sync_changes_nothing (H : Val → String) (strict : Bool) (evs : List VEvent) (cs : CodeState) (answer : DepKey → Answer)
    {e : Err} {s' : Versioner} (hfail : (after H strict evs).versioner.syncCodebase H cs answer = (.error e, s')) :
    s' = (after H strict evs).versioner ∧ after H strict (evs ++ [.enter cs answer]) = after H strict evs := by
  have h1 : s' = (after H strict evs).versioner := by
    unfold syncCodebase at hfail
    cases h : syncDags H cs answer (after H strict evs).versioner.dags with
    | error e => rw [h] at hfail; cases hfail; rfl
    | ok ds => rw [h] at hfail; cases hfail
  refine ⟨h1, ?_⟩
  subst h1
  rw [after, VSt.run_append, VSt.run_one]
  show VSt.step H (after H strict evs) _ = _
  unfold VSt.step
  dsimp only
  rw [hfail]

/-- C35: syncing succeeds exactly if the code state has content for every known component and the user does not abort on any
content not seen before. Then every component is at its current content, all in one step, every commit made before is still
there as it was, and nothing but the histories changes. -/
theorem C35_sync_all_or_nothing (hH : Function.Injective H) (strict : Bool) {evs : List VEvent} (hev : ∀ ev ∈ evs, ev.Legal compOf)
    (cs : CodeState) (answer : DepKey → Answer) :
    ((∃ s', (after H strict evs).versioner.syncCodebase H cs answer = (.ok (), s')) ↔
      ∀ k d, (after H strict evs).versioner.dags.get? k = some d → ∃ n c, cs.get? k = some n ∧ n.content = some c ∧
        (answer k = .abort → c.hash H ∈ d.commits.keys)) ∧
    ∀ s', (after H strict evs).versioner.syncCodebase H cs answer = (.ok (), s') →
      s' = { (after H strict evs).versioner with dags := s'.dags } ∧ s'.dags.keys = (after H strict evs).versioner.dags.keys ∧
      ∀ k d, (after H strict evs).versioner.dags.get? k = some d → ∃ n c d', cs.get? k = some n ∧ n.content = some c ∧ s'.dags.get? k = some d' ∧
        d'.head = some (c.hash H) ∧ (∃ o, d'.commits.get? (c.hash H) = some o) ∧ ∀ h o, d.commits.get? h = some o → d'.commits.get? h = some o := by
  have hI := (after_inv hH strict hev).inv
  generalize (after H strict evs).versioner = s at *
  constructor
  · constructor
    · rintro ⟨s', h⟩ k d hd
      unfold syncCodebase at h
      cases h1 : syncDags H cs answer s.dags with
      | error e => rw [h1] at h; cases h
      | ok ds =>
        obtain ⟨n, c, d', h2, h3, x, h4, h5⟩ := (syncDags_spec _ _ h1).2 k d hd
        refine ⟨n, c, h2, h3, fun ha => ?_⟩
        rw [ha] at h4
        exact sync_abort (hI.dagOK k d hd) h4
    · intro h
      have := syncDags_total (H := H) (cs := cs) (answer := answer) s.dags
      obtain ⟨l', hl'⟩ := this (by
        intro k d hm
        have hget := get?_of_mem hI.dagsNodup hm
        obtain ⟨n, c, h1, h2, h3⟩ := h k d hget
        exact ⟨n, c, h1, h2, sync_total (hI.dagOK k d hget) (hI.dagHead k d hget) h3⟩)
      exact ⟨_, by unfold syncCodebase; rw [hl']⟩
  · intro s' h
    unfold syncCodebase at h
    cases h1 : syncDags H cs answer s.dags with
    | error e => rw [h1] at h; cases h
    | ok ds =>
      rw [h1] at h
      cases h
      obtain ⟨h2, h3⟩ := syncDags_spec _ _ h1
      refine ⟨rfl, h2, ?_⟩
      intro k d hd
      obtain ⟨n, c, d', e1, e2, x, e3, e4⟩ := h3 k d hd
      obtain ⟨o1, o2, o3, o4, o5⟩ := sync_old (hI.dagOK k d hd) e3
      exact ⟨n, c, d', e1, e2, e4, o4, o5, o3⟩

/-- C35: an execution whose trace does not fit the code state is rejected without any effect on versions, histories, topology
or code state. -/
theorem C35_rejected_trace_changes_nothing (H : Val → String) (st : VSt) (uid : String) (roots : List DepKey) (trace : Dict DepKey TNode)
    (edges : List (DepKey × DepKey)) {k : DepKey} {n : TNode} (hm : (k, n) ∈ trace)
    (hbad : (∃ rep rt, n = .callable rep rt ∧ st.codeState.get? k = none ∧ st.versioner.strict = true) ∨
      (∃ a b a' b', n = .globalVar a b ∧ st.codeState.get? k = some (.globalVar a' b') ∧ (a ≠ a' ∨ b ≠ b'))) :
    ∃ e, st.executed H uid roots trace edges = (.error e, st) := by
  have hrej : ∃ e, hypNode st.versioner.strict st.codeState k n = .error e := by
    unfold hypNode
    rcases hbad with ⟨rep, rt, rfl, h1, h2⟩ | ⟨a, b, a', b', rfl, h1, h2⟩
    · dsimp only
      rw [h1, h2]
      exact ⟨_, rfl⟩
    · dsimp only
      rw [h1]
      dsimp only
      rw [if_neg]
      · exact ⟨_, rfl⟩
      · intro h
        cases h
        rcases h2 with h2 | h2 <;> exact h2 rfl
  have hall : ∀ l : List (DepKey × TNode), (k, n) ∈ l → ∃ e, applyHypothesis st.versioner.strict st.codeState l = .error e := by
    intro l
    induction l with
    | nil => intro h; cases h
    | cons p l ih =>
      intro h
      obtain ⟨k0, n0⟩ := p
      unfold applyHypothesis
      cases h0 : hypNode st.versioner.strict st.codeState k0 n0 with
      | error e => exact ⟨e, rfl⟩
      | ok o =>
        dsimp only
        rcases List.mem_cons.1 h with h | h
        · cases h
          obtain ⟨e, he⟩ := hrej
          rw [he] at h0
          cases h0
        · obtain ⟨e, he⟩ := ih h
          rw [he]
          exact ⟨e, rfl⟩
  obtain ⟨e, he⟩ := hall trace hm
  refine ⟨e, ?_⟩
  unfold VSt.executed
  rw [he]

/-! ### C36 -/

/-- C36 fails: `drop_calls` leaves the versioner's row. As long as that row fits the code, an execution of the call (without
memoized calls) can not be registered again: whatever the trace, it ends in an exception. -/
theorem C36_dropped_call_not_recomputable (hH : Function.Injective H) (strict : Bool) {evs : List VEvent} (hev : ∀ ev ∈ evs, ev.Legal compOf)
    {r : VRow} (hr : r ∈ (after H strict evs).versioner.df) (hc : Compatible H compOf (after H strict evs).versioner (after H strict evs).codeState r)
    {trace : Dict DepKey TNode} (hnd : trace.keys.Nodup) (hterm : ∀ k n, (k, n) ∈ trace → ∀ a b, n ≠ .terminal a b) (edges : List (DepKey × DepKey))
    (calls : List (String × String)) (hgone : (r.preCallUid, r.semanticVersion) ∉ calls) :
    ∃ e s', VStore.call H ⟨after H strict evs, calls⟩ (compOf r.preCallUid) r.preCallUid trace edges = (.error e, s') := by
  have hI := after_inv hH strict hev
  generalize after H strict evs = st at *
  obtain ⟨v, hv, hm⟩ := hc
  have hl := lookupCall_complete hH hI.inv hI.csNodup hr hv hI.sync hm
  unfold VStore.call
  dsimp only
  rw [hl]
  dsimp only
  rw [if_neg hgone]
  unfold VStore.execute
  dsimp only
  obtain ⟨res, st', h1, h2, h3, h4, h5, h6⟩ := executed_spec hH hI (uid := r.preCallUid) (edges := edges) hnd
  rw [h1]
  rcases h6 with ⟨e, rfl, _⟩ | ⟨v', rfl, a1, a2, a3, a4, a5, w, a6, a7, a8⟩
  · exact ⟨e, _, rfl⟩
  · exfalso
    have hpair := h2.inv.pair
    rw [a1, List.pairwise_append] at hpair
    obtain ⟨k, x, y, c1, c2, c3⟩ := hpair.2.2 r hr _ (List.mem_singleton.2 rfl) rfl v w (h4 _ _ _ hv) a6
    rw [a8] at c2
    obtain ⟨n, c, d1, d2, d3⟩ := hm k x c1
    rcases a4 k y c2 with hcur | ⟨kk, dk, cv, w', hmem, _⟩
    · exact c3 (CurSem.unique ⟨n, c, h5 k n d1, d2, h3 _ _ _ d3⟩ hcur)
    · exact hterm kk _ hmem dk cv rfl

/-- C36 (partial: after `drop_version` instead of `drop_calls`, for executions without memoized calls): once the version is
dropped, executing again with the dependencies the version had is registered. Missing: `drop_calls`, for which it is false. -/
theorem C36_recomputable_after_drop_version_partial (hH : Function.Injective H) (strict : Bool) {evs : List VEvent} (hev : ∀ ev ∈ evs, ev.Legal compOf)
    {r : VRow} (hr : r ∈ (after H strict evs).versioner.df) {v : Version}
    (hv : getVersion (after H strict evs).versioner.versions (compOf r.preCallUid) r.contentVersion = .ok v)
    (hc : ∀ k x, v.semanticExpansion.get? k = some x → CurSem H (after H strict evs).versioner.dags (after H strict evs).codeState k x)
    {trace trace' : Dict DepKey TNode} (hnd : trace.keys.Nodup) (hterm : ∀ k n, (k, n) ∈ trace → ∀ a b, n ≠ .terminal a b)
    (hhyp : applyHypothesis (after H strict evs).versioner.strict (after H strict evs).codeState trace = .ok trace')
    (hroot : compOf r.preCallUid ∈ trace'.keys) (hdeps : ∀ k, k ∈ v.semanticExpansion.keys → k ∈ trace'.keys) (edges : List (DepKey × DepKey))
    (calls : List (String × String)) :
    ∃ sv s', VStore.execute H (VStore.dropVersion ⟨after H strict evs, calls⟩ r.semanticVersion) (compOf r.preCallUid) r.preCallUid trace edges =
      (.ok (true, sv), s') := by
  have hI := after_inv hH strict hev
  have hI' := (step_inv hH hI (ev := .dropVersion r.semanticVersion) trivial).1
  unfold VSt.step at hI'
  dsimp only at hI'
  generalize after H strict evs = st at *
  unfold VStore.execute VStore.dropVersion
  dsimp only
  obtain ⟨v', hv', hsv⟩ := hI.inv.rows r hr
  rw [hv] at hv'
  cases hv'
  obtain ⟨w, st', h⟩ := executed_total hH hI' (uid := r.preCallUid) (trace := trace) (trace' := trace') (edges := edges) hnd hterm hhyp hroot (by
    intro r' hr' hu w hw
    dsimp only at hr' hw ⊢
    have hr'' : r' ∈ st.versioner.df ∧ r'.semanticVersion ≠ r.semanticVersion := by
      unfold dropSemanticVersion at hr'
      rw [List.mem_filter] at hr'
      exact ⟨hr'.1, by simpa using hr'.2⟩
    have hw' := ((getVersion_drop hI.inv).1 hw).1
    obtain ⟨k, x, y, c1, c2, c3⟩ := rows_conflict hI.inv hr''.1 hr (fun h => hr''.2 (by rw [h])) hu (by rw [hu]; exact hw') hv
    obtain ⟨n, hn⟩ := Dict.mem_keys.1 (hdeps k (Dict.mem_keys.2 ⟨y, c2⟩))
    exact ⟨k, x, y, n, c1, mem_of_get? hn, hc k y c2, c3⟩)
  rw [h]
  exact ⟨_, _, rfl⟩

/-! ### C37 -/

/-- C37 (partial: the versioner; for the deletion of the stored calls and of their dependents see `C37_drop_version_calls_partial`): after dropping a semantic version, a lookup (for any call, under any code) finds nothing where it found that version,
and otherwise gives exactly what it gave before. -/
theorem C37_lookups_after_drop_version_partial (hH : Function.Injective H) (strict : Bool) {evs : List VEvent} (hev : ∀ ev ∈ evs, ev.Legal compOf)
    {cs : CodeState} (hcs : cs.keys.Nodup) (uid sv : String) :
    (∀ cv, lookupCall H (after H strict evs).versioner (compOf uid) uid cs = .ok (some (cv, sv)) →
      lookupCall H (after H strict (evs ++ [.dropVersion sv])).versioner (compOf uid) uid cs = .ok none) ∧
    ((∀ cv, lookupCall H (after H strict evs).versioner (compOf uid) uid cs ≠ .ok (some (cv, sv))) →
      lookupCall H (after H strict (evs ++ [.dropVersion sv])).versioner (compOf uid) uid cs =
        lookupCall H (after H strict evs).versioner (compOf uid) uid cs) := by
  have hI := (after_inv hH strict hev).inv
  have he : (after H strict (evs ++ [.dropVersion sv])).versioner = (after H strict evs).versioner.dropSemanticVersion sv := by
    unfold after
    rw [VSt.run_append, VSt.run_one]
    rfl
  rw [he]
  generalize (after H strict evs).versioner = s at *
  have hI' : VInv H compOf (s.dropSemanticVersion sv) := hI.drop sv
  have hcode := codestate_congr H (s.dropSemanticVersion sv) s cs rfl rfl
  have hback : ∀ r, r ∈ (s.dropSemanticVersion sv).df → r ∈ s.df ∧ r.semanticVersion ≠ sv := by
    intro r hr
    unfold dropSemanticVersion at hr
    rw [List.mem_filter] at hr
    exact ⟨hr.1, by simpa using hr.2⟩
  have hfound : ∀ hs, codestateSemanticHashes H s cs = .ok (some hs) → ∀ p, lookupCall H (s.dropSemanticVersion sv) (compOf uid) uid cs = .ok (some p) →
      lookupCall H s (compOf uid) uid cs = .ok (some p) ∧ p.2 ≠ sv := by
    intro hs hh p hp
    obtain ⟨cv, sv'⟩ := p
    refine ⟨lookup_fwd hH hcs hI' hI (fun r hr _ => (hback r hr).1) (fun k v _ h => ((getVersion_drop hI).1 h).1) rfl rfl (hcode.trans hh) hp, ?_⟩
    obtain ⟨r, hr, _, _, rfl, _⟩ := lookupCall_sound hH hI' hcs hp
    exact (hback r hr).2
  cases h1 : codestateSemanticHashes H s cs with
  | error e =>
    have a1 : lookupCall H s (compOf uid) uid cs = .error e := by unfold lookupCall; rw [h1]
    have a2 : lookupCall H (s.dropSemanticVersion sv) (compOf uid) uid cs = .error e := by unfold lookupCall; rw [hcode, h1]
    rw [a1, a2]
    exact ⟨fun cv h => (by cases h), fun _ => rfl⟩
  | ok o =>
    cases o with
    | none =>
      have a1 : lookupCall H s (compOf uid) uid cs = .ok none := by unfold lookupCall; rw [h1]
      have a2 : lookupCall H (s.dropSemanticVersion sv) (compOf uid) uid cs = .ok none := by unfold lookupCall; rw [hcode, h1]
      rw [a1, a2]
      exact ⟨fun cv h => (by cases h), fun _ => rfl⟩
    | some hs =>
      obtain ⟨o', ho'⟩ := lookupCall_ok hI' hcs (hcode.trans h1) uid
      constructor
      · intro cv h
        cases o' with
        | none => exact ho'
        | some p =>
          obtain ⟨a1, a2⟩ := hfound hs h1 p ho'
          rw [h] at a1
          cases a1
          exact absurd rfl a2
      · intro hne
        obtain ⟨o, ho⟩ := lookupCall_ok hI hcs h1 uid
        rw [ho, ho']
        cases o with
        | none =>
          cases o' with
          | none => rfl
          | some p =>
            have := (hfound hs h1 p ho').1
            rw [this] at ho
            exact ho
        | some p =>
          obtain ⟨cv, sv'⟩ := p
          have hsv : sv' ≠ sv := by
            rintro rfl
            exact hne cv ho
          have := lookup_fwd hH hcs hI hI' (fun r hr hs => List.mem_filter.2 ⟨hr, by rw [hs]; simpa using hsv⟩)
            (fun k v hs h => (getVersion_drop hI).2 ⟨h, by rw [hs]; exact hsv⟩) rfl rfl h1 ho
          rw [this] at ho'
          exact ho'.symm

/-! ### a concrete history -/

/-- Op `f` calls the helper `g` and reads the global `G`. -/
def codeOf (g : String) (glob : String) : CodeState :=
  [("f", .callable (some "def f") "bf"), ("g", .callable (some g) "bg"), ("G", .globalVar glob glob)]

def traceOf (glob : String) : Dict DepKey TNode := [("f", .callable none "bf"), ("g", .callable none "bg"), ("G", .globalVar glob glob)]

def fCall : List DepKey → VEvent := fun roots => .executed "f(1)" roots (traceOf "0") [("f", "g"), ("f", "G")]

/-- Run, change `g` (declared a semantic change), run, revert. -/
def devSession : List VEvent :=
  [.enter (codeOf "def g" "0") (fun _ => .yes), fCall ["f"], .enter (codeOf "def g2" "0") (fun _ => .yes), fCall ["f"],
   .enter (codeOf "def g" "0") (fun _ => .abort)]

example : ∀ ev ∈ devSession, ev.Legal (fun _ => "f") := by
  intro ev h
  simp only [devSession, List.mem_cons, List.not_mem_nil, or_false] at h
  rcases h with rfl | rfl | rfl | rfl | rfl
  · show List.Nodup _; decide
  · exact ⟨rfl, by decide⟩
  · show List.Nodup _; decide
  · exact ⟨rfl, by decide⟩
  · show List.Nodup _; decide

set_option maxRecDepth 20000 in
/-- Both runs were registered, under different versions; after the revert the first one is found (C32, C33, C34). -/
example : (after encH true devSession).versioner.df.length = 2 ∧
    lookupCall encH (after encH true devSession).versioner "f" "f(1)" (after encH true devSession).codeState =
      .ok ((after encH true devSession).versioner.df[0]?.map fun r => (r.contentVersion, r.semanticVersion)) ∧
    (after encH true devSession).versioner.df[0]? ≠ none := by
  refine ⟨by decide +kernel, by decide +kernel, by decide +kernel⟩

set_option maxRecDepth 20000 in
/-- With code never seen, nothing is found; entering such a code state and refusing the change fails (C35). -/
example : lookupCall encH (after encH true devSession).versioner "f" "f(1)" (codeOf "def g3" "0") = .ok none ∧
    lookupCall encH (after encH true devSession).versioner "f" "f(1)" (codeOf "def g" "1") = .ok none ∧
    (after encH true (devSession ++ [.enter (codeOf "def g3" "0") (fun _ => .abort)])).versioner = (after encH true devSession).versioner := by
  refine ⟨by decide +kernel, by decide +kernel, by decide +kernel⟩

/-- The semantic version of `f(1)` when `g` reads `g`. -/
def svOf (g : String) : String := hashDict encH .str [("f", encH (.str "def f")), ("g", encH (.str g)), ("G", "0")]

set_option maxRecDepth 20000 in
/-- Dropping the version of the second run (C37) removes it and leaves the first one. -/
example : (lookupCall encH (after encH true devSession).versioner "f" "f(1)" (codeOf "def g2" "0")).map (Option.map (·.2)) = .ok (some (svOf "def g2")) ∧
    lookupCall encH (after encH true (devSession ++ [.dropVersion (svOf "def g2")])).versioner "f" "f(1)" (codeOf "def g2" "0") = .ok none ∧
    (lookupCall encH (after encH true (devSession ++ [.dropVersion (svOf "def g2")])).versioner "f" "f(1)" (codeOf "def g" "0")).map (Option.map (·.2)) =
      .ok (some (svOf "def g")) := by
  refine ⟨by decide +kernel, by decide +kernel, by decide +kernel⟩

/-- A versioned storage into which the first run was just recorded. -/
def firstRun : Res VStore (Bool × String) :=
  VStore.call encH ⟨after encH true [.enter (codeOf "def g" "0") (fun _ => .yes)], []⟩ "f" "f(1)" (traceOf "0") []

set_option maxRecDepth 20000 in
/-- C36 refuted: record a call, drop it, call again: `ValueError`. -/
theorem C36_refuted : firstRun.1 = .ok (true, svOf "def g") ∧
    (VStore.call encH firstRun.2 "f" "f(1)" (traceOf "0") []).1 = .ok (false, svOf "def g") ∧
    (VStore.call encH (firstRun.2.dropCall "f(1)" (svOf "def g")) "f" "f(1)" (traceOf "0") []).1 = .error .valueError := by
  refine ⟨by decide +kernel, by decide +kernel, by decide +kernel⟩

set_option maxRecDepth 20000 in
/-- ... whereas after dropping the version it is executed and recorded again. -/
example : (VStore.call encH (firstRun.2.dropVersion (svOf "def g")) "f" "f(1)" (traceOf "0") []).1 = .ok (true, svOf "def g") := by
  decide +kernel

end Verif.Props
