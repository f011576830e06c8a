import Verif.Model.CurrentVersions
import Verif.Props.ChangeNotice
import Verif.Props.SetDict
/-!
C93: the versions of an op that are good for the code at hand.

Specification: `Valid` (C92) says that the code has all dependencies of a version with the meaning they had; `CodeKnown` that the code of
every dependency met so far is in its history.
-/
namespace Verif.Props

open Verif Versioner

variable {H : Val → String} {compOf : String → DepKey}

/-- The code of every dependency met so far is in its history. -/
def CodeKnown (H : Val → String) (s : Versioner) (cs : CodeState) : Prop :=
  ∀ k, k ∈ s.topology.keys → ∃ x, CurrentVersion H s.dags cs k x

/-! ### lemmas -/

theorem codeKnown_of {s : Versioner} {cs : CodeState} (hcs : cs.keys.Nodup) {hs : Dict DepKey String}
    (h : codestateSemanticHashes H s cs = .ok (some hs)) : CodeKnown H s cs := by
  obtain ⟨h1, h2⟩ := codestate_spec hcs h
  intro k hk
  obtain ⟨x, hx⟩ := Dict.mem_keys.1 (h1 k hk)
  exact ⟨x, currentVersion_iff.2 (h2 k x hx)⟩

theorem hashes_of_known {s : Versioner} {cs : CodeState} (hcs : cs.keys.Nodup) (h : CodeKnown H s cs) :
    ∃ hs, codestateSemanticHashes H s cs = .ok (some hs) :=
  codestate_total hcs fun k hk => by
    obtain ⟨x, hx⟩ := h k hk
    exact ⟨x, currentVersion_iff.1 hx⟩

theorem curSem_fun {dags : Dict DepKey (Dag String Content)} {cs : CodeState} {k : DepKey} {x y : String}
    (h1 : CurSem H dags cs k x) (h2 : CurSem H dags cs k y) : x = y := by
  obtain ⟨n, c, a1, a2, d, o, a3, a4, rfl⟩ := h1
  obtain ⟨n', c', b1, b2, d', o', b3, b4, rfl⟩ := h2
  rw [a1] at b1; cases b1
  rw [a2] at b2; cases b2
  rw [a3] at b3; cases b3
  rw [a4] at b4; cases b4
  rfl

/-- A version is good exactly when its semantic expansion is part of the hashes of the code. -/
theorem subdict_valid {s : Versioner} (hI : VInv H compOf s) {cs : CodeState} (hcs : cs.keys.Nodup) {hs : Dict DepKey String}
    (h : codestateSemanticHashes H s cs = .ok (some hs)) {k cv : String} {v : Version} (hv : getVersion s.versions k cv = .ok v) :
    isSubdict v.semanticExpansion hs = true ↔ Valid H s cs v := by
  obtain ⟨h1, h2⟩ := codestate_spec hcs h
  obtain ⟨hok, _, _, htop⟩ := hI.vers _ _ _ hv
  rw [C55_is_subdict]
  constructor
  · intro a k x hx
    exact currentVersion_iff.2 (h2 k x (a k x hx))
  · intro a k x hx
    obtain ⟨y, hy⟩ := Dict.mem_keys.1 (h1 k (htop k ((hok.dom k).2 (Dict.mem_keys.2 ⟨x, hx⟩))))
    rw [hy, curSem_fun (h2 k y hy) (currentVersion_iff.1 (a k x hx))]

theorem comparisons_total {e hs : Dict DepKey String} : ∀ (ks : List DepKey), (∀ k ∈ ks, k ∈ e.keys ∧ k ∈ hs.keys) →
    ∃ bs, comparisons e hs ks = .ok bs ∧ (bs.all id = true ↔ ∀ k ∈ ks, e.get? k = hs.get? k)
  | [], _ => ⟨[], rfl, by simp⟩
  | k :: ks, h => by
    obtain ⟨bs, h1, h2⟩ := comparisons_total ks fun k hk => h k (List.mem_cons_of_mem _ hk)
    obtain ⟨x, hx⟩ := Dict.mem_keys.1 (h k List.mem_cons_self).1
    obtain ⟨y, hy⟩ := Dict.mem_keys.1 (h k List.mem_cons_self).2
    unfold comparisons
    rw [hx, hy, h1]
    refine ⟨_, rfl, ?_⟩
    rw [List.all_cons, Bool.and_eq_true, h2, List.forall_mem_cons, hx, hy]
    simp

theorem compatibleLoop_eq {hs : Dict DepKey String} : ∀ (vs : List Version), (∀ v ∈ vs, ∀ k ∈ v.semanticExpansion.keys, k ∈ hs.keys) →
    compatibleLoop hs vs = .ok (vs.filter fun v => isSubdict v.semanticExpansion hs)
  | [], _ => rfl
  | v :: vs, h => by
    have hv := h v List.mem_cons_self
    obtain ⟨bs, h1, h2⟩ := comparisons_total v.semanticExpansion.keys fun k hk => ⟨hk, hv k hk⟩
    have hb : bs.all id = isSubdict v.semanticExpansion hs := by
      rw [Bool.eq_iff_iff, h2, C55_is_subdict]
      constructor
      · intro a k x hx
        rw [← a k (Dict.mem_keys.2 ⟨x, hx⟩), hx]
      · intro a k hk
        obtain ⟨x, hx⟩ := Dict.mem_keys.1 hk
        rw [hx, a k x hx]
    unfold compatibleLoop
    rw [h1, compatibleLoop_eq vs fun v hv => h v (List.mem_cons_of_mem _ hv)]
    dsimp only
    rw [hb, List.filter_cons]

/-! ### the property -/

/-- C93, the versions listed as current: when the code of every dependency is known, they are exactly the versions of the op that are good for
the code, each once. -/
theorem C93_current_iff (hH : Function.Injective H) (strict : Bool) {evs : List VEvent} (hev : ∀ ev ∈ evs, ev.Legal compOf)
    {cs : CodeState} (hcs : cs.keys.Nodup) (hk : CodeKnown H (after H strict evs).versioner cs) {op : DepKey} {l : List Version}
    (h : currentVersions H (after H strict evs).versioner op cs = .ok l) :
    (∀ v, v ∈ l ↔ (∃ cv, getVersion (after H strict evs).versioner.versions op cv = .ok v) ∧ Valid H (after H strict evs).versioner cs v) ∧
    (l.map (·.contentVersion)).Nodup := by
  have hI := (after_inv hH strict hev).inv
  generalize (after H strict evs).versioner = s at hI hk h
  obtain ⟨hs, h1⟩ := hashes_of_known hcs hk
  unfold currentVersions at h
  rw [h1] at h
  dsimp only at h
  cases h2 : s.versions.get? op with
  | none => rw [h2] at h; cases h
  | some vs =>
    rw [h2] at h
    cases h
    have hnd := hI.vnodup op vs h2
    have hg : ∀ p, p ∈ vs → getVersion s.versions op p.1 = .ok p.2 := fun p hp =>
      getVersion_ok.2 ⟨vs, h2, get?_of_mem hnd hp⟩
    constructor
    · intro v
      rw [List.mem_filter, List.mem_map]
      constructor
      · rintro ⟨⟨p, hp, rfl⟩, hb⟩
        exact ⟨⟨p.1, hg p hp⟩, (subdict_valid hI hcs h1 (hg p hp)).1 hb⟩
      · rintro ⟨⟨cv, hv⟩, V⟩
        obtain ⟨vs', hvs', hm⟩ := getVersion_ok.1 hv
        rw [h2] at hvs'; cases hvs'
        exact ⟨⟨(cv, v), mem_of_get? hm, rfl⟩, (subdict_valid hI hcs h1 hv).2 V⟩
    · have e : (vs.map (·.2)).map (·.contentVersion) = Dict.keys vs := by
        rw [List.map_map]
        exact List.map_congr_left fun p hp => (hI.vers _ _ _ (hg p hp)).2.1
      have hnd' : ((vs.map (·.2)).map (·.contentVersion)).Nodup := e ▸ hnd
      exact hnd'.sublist (List.filter_sublist.map _)

/-- C93, for the code at hand both queries always answer: in every reachable state, for every op that has a history, no error is raised and
exactly the versions that are good for the code of the context are listed. -/
theorem C93_code_at_hand (hH : Function.Injective H) (strict : Bool) {evs : List VEvent} (hev : ∀ ev ∈ evs, ev.Legal compOf)
    {op : DepKey} (hop : op ∈ (after H strict evs).versioner.dags.keys) :
    ∃ l, currentVersions H (after H strict evs).versioner op (after H strict evs).codeState = .ok l ∧
      ∀ v, v ∈ l ↔ (∃ cv, getVersion (after H strict evs).versioner.versions op cv = .ok v) ∧
        Valid H (after H strict evs).versioner (after H strict evs).codeState v := by
  have hS := after_inv hH strict hev
  have hk : CodeKnown H (after H strict evs).versioner (after H strict evs).codeState := fun k hk => by
    obtain ⟨x, hx⟩ := hS.sync k hk
    exact ⟨x, currentVersion_iff.2 hx⟩
  obtain ⟨hs, h1⟩ := hashes_of_known hS.csNodup hk
  obtain ⟨vs, h2⟩ := Dict.mem_keys.1 ((hS.inv.keysV op).2 ((hS.inv.keysD op).1 hop))
  have h : currentVersions H (after H strict evs).versioner op (after H strict evs).codeState =
      .ok ((vs.map (·.2)).filter fun v => isSubdict v.semanticExpansion hs) := by
    unfold currentVersions
    rw [h1]
    dsimp only
    rw [h2]
  exact ⟨_, h, (C93_current_iff hH strict hev hS.csNodup hk h).1⟩

/-- C93, for unknown code nothing is listed. -/
theorem C93_unknown_empty (strict : Bool) {evs : List VEvent} {cs : CodeState} (hcs : cs.keys.Nodup)
    (hk : ¬ CodeKnown H (after H strict evs).versioner cs) {op : DepKey} {l : List Version}
    (h : currentVersions H (after H strict evs).versioner op cs = .ok l) : l = [] := by
  unfold currentVersions at h
  cases h1 : codestateSemanticHashes H (after H strict evs).versioner cs with
  | error e => rw [h1] at h; cases h
  | ok o =>
    cases o with
    | none => rw [h1] at h; cases h; rfl
    | some hs => exact absurd (codeKnown_of hcs h1) hk

/-- C93: both queries have the same outcome; in particular the second never misses a dependency of a version in the code. -/
theorem C93_queries_agree (hH : Function.Injective H) (strict : Bool) {evs : List VEvent} (hev : ∀ ev ∈ evs, ev.Legal compOf)
    {cs : CodeState} (hcs : cs.keys.Nodup) (op : DepKey) :
    compatibleVersions H (after H strict evs).versioner op cs = currentVersions H (after H strict evs).versioner op cs := by
  have hI := (after_inv hH strict hev).inv
  generalize (after H strict evs).versioner = s at hI
  unfold compatibleVersions currentVersions
  cases h1 : codestateSemanticHashes H s cs with
  | error e => rfl
  | ok o =>
    cases o with
    | none => rfl
    | some hs =>
      dsimp only
      cases h2 : s.versions.get? op with
      | none => rfl
      | some vs =>
        refine compatibleLoop_eq _ ?_
        intro v hv k hk
        obtain ⟨p, hp, rfl⟩ := List.mem_map.1 hv
        obtain ⟨hok, _, _, htop⟩ := hI.vers _ _ _ (getVersion_ok.2 ⟨vs, h2, get?_of_mem (hI.vnodup op vs h2) hp⟩)
        exact (codestate_spec hcs h1).1 k (htop k ((hok.dom k).2 hk))

/-- C93: a call is found exactly under a version listed as current for its op under which it is recorded. -/
theorem C93_found_iff_current (hH : Function.Injective H) (strict : Bool) {evs : List VEvent} (hev : ∀ ev ∈ evs, ev.Legal compOf)
    {cs : CodeState} (hcs : cs.keys.Nodup) {uid : String} {l : List Version}
    (h : currentVersions H (after H strict evs).versioner (compOf uid) cs = .ok l) (cv sv : String) :
    lookupCall H (after H strict evs).versioner (compOf uid) uid cs = .ok (some (cv, sv)) ↔
      ∃ v ∈ l, v.contentVersion = cv ∧ ∃ r ∈ (after H strict evs).versioner.df, r.preCallUid = uid ∧ r.contentVersion = cv ∧ r.semanticVersion = sv := by
  have hcur := fun hk => C93_current_iff hH strict hev hcs hk h
  have hun := fun hk => C93_unknown_empty strict hcs hk h
  have hI := (after_inv hH strict hev).inv
  generalize (after H strict evs).versioner = s at hI hcur hun h
  constructor
  · intro hl
    have hk : CodeKnown H s cs := by
      unfold lookupCall at hl
      cases h1 : codestateSemanticHashes H s cs with
      | error e => rw [h1] at hl; cases hl
      | ok o =>
        cases o with
        | none => rw [h1] at hl; cases hl
        | some hs => exact codeKnown_of hcs h1
    obtain ⟨r, hr, a1, a2, a3, v, hv, _, hm⟩ := lookupCall_sound hH hI hcs hl
    exact ⟨v, ((hcur hk).1 v).2 ⟨⟨cv, hv⟩, fun k x hx => currentVersion_iff.2 (hm k x hx)⟩, (hI.vers _ _ _ hv).2.1, r, hr, a1, a2, a3⟩
  · rintro ⟨v, hv, rfl, r, hr, rfl, a2, rfl⟩
    by_cases hk : CodeKnown H s cs
    · obtain ⟨⟨cv, hg⟩, V⟩ := ((hcur hk).1 v).1 hv
      have := (hI.vers _ _ _ hg).2.1
      subst this
      have hc := lookupCall_complete hH hI hcs hr (v := v) (by rw [a2]; exact hg)
        (fun k hk' => by obtain ⟨x, hx⟩ := hk k hk'; exact ⟨x, currentVersion_iff.1 hx⟩)
        (fun k x hx => currentVersion_iff.1 (V k x hx))
      rw [hc, a2]
    · rw [hun hk] at hv; cases hv

/-! ### concrete histories -/

/-- After two versions of `g`, one version of `f` is current for each of the two codes. -/
example : ((currentVersions encH (after encH true ranTwice).versioner "f" (codeOf "def g2" "0")).toOption.map fun l => l.map (·.contentVersion)) =
      some [cvOf "def g2"] ∧
    ((compatibleVersions encH (after encH true ranTwice).versioner "f" (codeOf "def g" "0")).toOption.map fun l => l.map (·.contentVersion)) =
      some [cvOf "def g"] ∧
    (currentVersions encH (after encH true ranTwice).versioner "f" (codeOf "def g3" "0")).toOption.map List.length = some 0 := by
  refine ⟨by decide +kernel, by decide +kernel, by decide +kernel⟩

/-- `C93_code_at_hand` applies to `f` and `g` of this history. -/
example : (after encH true ranTwice).versioner.dags.keys = ["f", "g", "G"] := by decide +kernel

/-- The hypotheses of `C93_current_iff` and `C93_found_iff_current` are met in this history. -/
example : (codeOf "def g2" "0").keys.Nodup ∧ CodeKnown encH (after encH true ranTwice).versioner (codeOf "def g2" "0") ∧
    (∃ l, currentVersions encH (after encH true ranTwice).versioner "f" (codeOf "def g2" "0") = .ok l) := by
  have hnd : (codeOf "def g2" "0").keys.Nodup := by decide
  have h1 : ((codestateSemanticHashes encH (after encH true ranTwice).versioner (codeOf "def g2" "0")).toOption.any Option.isSome) = true := by
    decide +kernel
  refine ⟨hnd, ?_, ?_⟩
  · cases h : codestateSemanticHashes encH (after encH true ranTwice).versioner (codeOf "def g2" "0") with
    | error e => rw [h] at h1; cases h1
    | ok o =>
      cases o with
      | none => rw [h] at h1; cases h1
      | some hs => exact codeKnown_of hnd h
  · have h2 : ((currentVersions encH (after encH true ranTwice).versioner "f" (codeOf "def g2" "0")).toOption.isSome) = true := by decide +kernel
    cases h : currentVersions encH (after encH true ranTwice).versioner "f" (codeOf "def g2" "0") with
    | error e => rw [h] at h2; cases h2
    | ok l => exact ⟨l, rfl⟩

end Verif.Props
