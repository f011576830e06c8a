import Verif.Proofs.Inspect
/-!
C72: recorded versions can be looked at.

`after H strict evs` is the versioner after any sequence of entering contexts with any code, executing ops and dropping versions.
-/
namespace Verif.Props

open Verif Versioner

variable {H : Val → String} {compOf : String → DepKey} {parts : DepKey → String × String} {fuel : Nat} {info : Bool}

theorem after_nodes (strict : Bool) (evs : List VEvent) : NodesOK (after H strict evs).versioner :=
  run_nodes evs ⟨(fun _ _ h => by cases h), (by simp [Versioner.empty, Dict.keys])⟩

/-- Every commit of every dependency can be printed: what is shown is in the history under this id, and its hash is the id. -/
theorem C72_every_commit_shown (hH : Function.Injective H) (strict : Bool) {evs : List VEvent} (hev : ∀ ev ∈ evs, ev.Legal compOf)
    (hf : Shallow fuel (after H strict evs).versioner) {k id x : String} (h : VersionOf (after H strict evs).versioner k id x) :
    ∃ c k' x', getCode parts fuel (after H strict evs).versioner id info = .ok (.content c) ∧
      InHistory fuel (after H strict evs).versioner k' id c x' ∧ c.hash H = id := by
  have hI := (after_inv hH strict hev).inv
  generalize after H strict evs = st at hI hf h
  obtain ⟨d, o, hd, ho, _⟩ := h
  unfold getCode
  cases hfd : st.versioner.dags.find? fun p => p.2.commits.has id with
  | none =>
    exact absurd (Dict.has_iff.2 (Dict.mem_keys.2 ⟨o, ho⟩)) (List.find?_eq_none.1 hfd (k, d) (mem_of_get? hd))
  | some p =>
    have hp := List.mem_of_find?_eq_some hfd
    have hh := List.find?_some hfd
    obtain ⟨o', ho'⟩ := Dict.mem_keys.1 (Dict.has_iff.1 hh)
    have hd' := get?_of_mem hI.dagsNodup hp
    obtain ⟨c, h1, h2⟩ := commit_content hI.toInvC hf hd' ho'
    dsimp only
    rw [h1]
    exact ⟨c, p.1, o'.semanticHash, rfl, ⟨p.2, o', hd', ho', rfl, h1⟩, h2⟩

/-- Every recorded version can be printed by its content version, and what is printed is faithful. -/
theorem C72_every_version_shown_partial (hH : Function.Injective H) (strict : Bool) {evs : List VEvent} (hev : ∀ ev ∈ evs, ev.Legal compOf)
    (hf : Shallow fuel (after H strict evs).versioner) {component cv : String} {v : Version}
    (h : getVersion (after H strict evs).versioner.versions component cv = .ok v)
    (hno : ∀ k x, ¬ VersionOf (after H strict evs).versioner k cv x) :
    ∃ l, getCode parts fuel (after H strict evs).versioner cv info = .ok (.listing l) ∧ Faithful H fuel (after H strict evs).versioner v l := by
  have hI := (after_inv hH strict hev).inv
  have hN := after_nodes (H := H) strict evs
  generalize after H strict evs = st at hI hN hf h hno
  obtain ⟨hv, hcv, _, _⟩ := hI.vers _ _ _ h
  obtain ⟨vs, hvs, hvv⟩ := getVersion_ok.1 h
  unfold getCode
  rw [find_none hI.dagsNodup fun k d hd hk => by
    obtain ⟨o, ho⟩ := Dict.mem_keys.1 hk
    exact hno k _ ⟨d, o, hd, ho, rfl⟩]
  dsimp only
  obtain ⟨w, h1, h2⟩ := flat_get? (id := cv) st.versioner.versions []
    (.inl ⟨(component, vs), mem_of_get? hvs, Dict.mem_keys.2 ⟨v, hvv⟩⟩)
  unfold flatVersions
  rw [h1]
  dsimp only
  rcases h2 with ⟨p, hp, hw⟩ | h2
  · have hpv := get?_of_mem hN.vers hp
    obtain ⟨hwok, hwcv, _, _⟩ := hI.vers p.1 cv w (getVersion_ok.2 ⟨p.2, hpv, get?_of_mem (hI.vnodup _ _ hpv) hw⟩)
    obtain ⟨l, h3, h4⟩ := present_faithful (parts := parts) (info := info) hI.toInvC hN hf hwok hv
      (VersionOK.same hH hwok hv (hwcv.trans hcv.symm)).1
    rw [h3]
    exact ⟨l, rfl, h4⟩
  · cases h2

/-- `storage.versions(f)` prints every recorded version of the op with its two ids, each faithfully. -/
theorem C72_all_versions_shown_partial (hH : Function.Injective H) (strict : Bool) {evs : List VEvent} (hev : ∀ ev ∈ evs, ev.Legal compOf)
    (hf : Shallow fuel (after H strict evs).versioner) {component : String} {vs : Dict String Version}
    (h : (after H strict evs).versioner.versions.get? component = some vs) :
    ∃ L, showVersions parts fuel (after H strict evs).versioner info component = .ok L ∧
      L.map (fun x => (x.1, x.2.1)) = vs.map (fun p => (p.1, p.2.semanticVersion)) ∧
      ∀ x ∈ L, ∃ v, vs.get? x.1 = some v ∧ Faithful H fuel (after H strict evs).versioner v x.2.2 := by
  have hI := (after_inv hH strict hev).inv
  have hN := after_nodes (H := H) strict evs
  generalize after H strict evs = st at hI hN hf h
  have hg : ∀ p ∈ vs, getVersion st.versioner.versions component p.1 = .ok p.2 := fun p hp =>
    getVersion_ok.2 ⟨vs, h, get?_of_mem (hI.vnodup _ _ h) hp⟩
  obtain ⟨L, h1, h2, h3⟩ := showLoop_ok (parts := parts) (info := info) (s := st.versioner) (fuel := fuel) (Q := Faithful H fuel st.versioner) vs
    fun p hp => by
      have hok := (hI.vers _ _ _ (hg p hp)).1
      exact present_faithful hI.toInvC hN hf hok hok fun _ => rfl
  unfold showVersions
  rw [h]
  dsimp only
  refine ⟨L, h1, ?_, fun x hx => ?_⟩
  · rw [h2]
    refine List.map_congr_left fun p hp => ?_
    rw [(hI.vers _ _ _ (hg p hp)).2.1]
  · obtain ⟨p, hp, h4, h5⟩ := h3 x hx
    refine ⟨p.2, ?_, h5⟩
    rw [h4, (hI.vers _ _ _ (hg p hp)).2.1]
    exact get?_of_mem (hI.vnodup _ _ h) hp

/-- Any other id is rejected. -/
theorem C72_unknown_rejected (hH : Function.Injective H) (strict : Bool) {evs : List VEvent} (hev : ∀ ev ∈ evs, ev.Legal compOf) {id : String}
    (hno : ∀ k x, ¬ VersionOf (after H strict evs).versioner k id x)
    (hnv : ∀ k v, getVersion (after H strict evs).versioner.versions k id ≠ .ok v) :
    getCode parts fuel (after H strict evs).versioner id info = .error .valueError := by
  have hI := (after_inv hH strict hev).inv
  have hN := after_nodes (H := H) strict evs
  generalize after H strict evs = st at hI hN hno hnv
  unfold getCode
  rw [find_none hI.dagsNodup fun k d hd hk => by
    obtain ⟨o, ho⟩ := Dict.mem_keys.1 hk
    exact hno k _ ⟨d, o, hd, ho, rfl⟩]
  dsimp only
  unfold flatVersions
  rw [flat_none]
  · intro p hp hk
    obtain ⟨v, hv⟩ := Dict.mem_keys.1 hk
    exact hnv p.1 v (getVersion_ok.2 ⟨p.2, get?_of_mem hN.vers hp, hv⟩)
  · exact List.not_mem_nil

/-! ### concrete histories -/

/-- every component lies in one module -/
def inM (k : DepKey) : String × String := ("m", k)

/-- Run `f(1)`, change only a comment of `g` (declared no semantic change), run `f(2)`. -/
def commentSession : List VEvent :=
  [.enter (codeOf "def g" "0") (fun _ => .yes), fCall ["f"], .enter (codeOf "def g # same" "0") (fun _ => .no),
   .executed "f(2)" ["f"] (traceOf "0") [("f", "g"), ("f", "G")]]

theorem commentSession_legal : ∀ ev ∈ commentSession, ev.Legal (fun _ => "f") := by
  intro ev h
  simp only [commentSession, List.mem_cons, List.not_mem_nil, or_false] at h
  rcases h with rfl | rfl | rfl | rfl
  · show List.Nodup _; decide
  · exact ⟨rfl, by decide⟩
  · show List.Nodup _; decide
  · exact ⟨rfl, by decide⟩

/-- The content version of a run with this source of `g`. -/
def cvOf (g : String) : String := hashDict encH encSorted [("f", [encH (.str "def f")]), ("g", [encH (.str g)]), ("G", ["0"])]

def contentHas (r : Except Err Version) (k : DepKey) (h : String) : Bool :=
  match r with | .ok v => decide (v.contentExpansion.get? k = some [h]) | _ => false

set_option maxRecDepth 20000 in
/-- Two versions are recorded, with what each run has used. -/
example : contentHas (getVersion (after encH true commentSession).versioner.versions "f" (cvOf "def g")) "g" (encH (.str "def g")) = true ∧
    contentHas (getVersion (after encH true commentSession).versioner.versions "f" (cvOf "def g # same")) "g" (encH (.str "def g # same")) = true := by
  refine ⟨by decide +kernel, by decide +kernel⟩

set_option maxRecDepth 20000 in
/-- The histories are short, and no commit has the id of a version. -/
example : ((after encH true commentSession).versioner.dags.all fun p => p.2.commits.length ≤ 5 && !p.2.commits.has (cvOf "def g") &&
    !p.2.commits.has (cvOf "def g # same")) = true := by decide +kernel

set_option maxRecDepth 20000 in
/-- The commits of `g` can be printed. -/
example : getCode inM 5 (after encH true commentSession).versioner (encH (.str "def g # same")) true = .ok (.content (.code "def g # same")) ∧
    getCode inM 5 (after encH true commentSession).versioner (encH (.str "def g")) true = .ok (.content (.code "def g")) := by
  refine ⟨by decide +kernel, by decide +kernel⟩

set_option maxRecDepth 20000 in
/-- C72 refuted as far as the text is concerned: the run of `f(2)` has executed `def g # same`; its version is printed with `def g`. -/
theorem C72_refuted_text : contentHas (getVersion (after encH true commentSession).versioner.versions "f" (cvOf "def g # same")) "g"
      (encH (.str "def g # same")) = true ∧
    getCode inM 5 (after encH true commentSession).versioner (cvOf "def g # same") false =
      .ok (.listing [.inModule "m", .globalVar "G" "0", .blank, .code "f" "def f", .blank, .code "g" "def g", .blank]) := by
  refine ⟨by decide +kernel, by decide +kernel⟩

set_option maxRecDepth 20000 in
/-- The semantic version ids, which `versions` also prints, are not known to `get_code`. -/
theorem C72_refuted_semantic_id : ((showVersions inM 5 (after encH true commentSession).versioner false "f").toOption.map fun L => L.map (·.2.1)) =
      some [svOf "def g", svOf "def g"] ∧
    getCode inM 5 (after encH true commentSession).versioner (svOf "def g") false = .error .valueError := by
  refine ⟨by decide +kernel, by decide +kernel⟩

/-- Run `f(1)`, change the value of the global (a semantic change), run again. -/
def globalSession : List VEvent :=
  [.enter (codeOf "def g" "0") (fun _ => .yes), fCall ["f"], .enter (codeOf "def g" "1") (fun _ => .yes)]

set_option maxRecDepth 20000 in
/-- The two values of a global are recorded and shown, but cannot be compared. -/
theorem C72_refuted_diff_globals :
    getCode inM 5 (after encH true globalSession).versioner "0" false = .ok (.content (.gv "0" "0")) ∧
    getCode inM 5 (after encH true globalSession).versioner "1" false = .ok (.content (.gv "1" "1")) ∧
    diffTexts inM 5 (after encH true globalSession).versioner "0" "1" = .error .attributeError := by
  refine ⟨by decide +kernel, by decide +kernel, by decide +kernel⟩

set_option maxRecDepth 20000 in
example : diffTexts inM 5 (after encH true commentSession).versioner (encH (.str "def g")) (encH (.str "def g # same")) =
    .ok (.content (.code "def g"), .content (.code "def g # same")) := by decide +kernel

end Verif.Props
