import Verif.Model.SemanticVersions
import Verif.Props.Inspect
/-!
C95: the versions of an op shown once for each meaning.

Specification: `Faithful` (C72) says that a listing has every dependency of a version once, with a text of its history that has the meaning
of whatever the calls have used.
-/
namespace Verif.Props

open Verif Versioner

variable {H : Val → String} {compOf : String → DepKey} {parts : DepKey → String × String} {fuel : Nat} {info : Bool}

theorem representatives_loop : ∀ (vs : List (String × Version)) (acc : Dict String Version), acc.keys.Nodup →
    (∀ k v, acc.get? k = some v → v.semanticVersion = k) →
    (vs.foldl (fun acc p => acc.set p.2.semanticVersion p.2) acc).keys.Nodup ∧
    (∀ k v, Dict.get? (vs.foldl (fun acc p => acc.set p.2.semanticVersion p.2) acc) k = some v →
      v.semanticVersion = k ∧ (acc.get? k = some v ∨ ∃ p ∈ vs, p.2 = v)) ∧
    ∀ k, k ∈ (vs.foldl (fun acc p => acc.set p.2.semanticVersion p.2) acc).keys ↔ k ∈ acc.keys ∨ ∃ p ∈ vs, p.2.semanticVersion = k
  | [], acc, hn, ha => ⟨hn, fun k v h => ⟨ha k v h, .inl h⟩, fun k => by simp⟩
  | p :: vs, acc, hn, ha => by
    rw [List.foldl_cons]
    obtain ⟨h1, h2, h3⟩ := representatives_loop vs (acc.set p.2.semanticVersion p.2) (Dict.nodup_set hn _ _) (by
      intro k v h
      rw [Dict.get?_set] at h
      split at h
      · rename_i he; cases h; exact he
      · exact ha k v h)
    refine ⟨h1, fun k v h => ?_, fun k => ?_⟩
    · obtain ⟨a, b⟩ := h2 k v h
      refine ⟨a, ?_⟩
      rcases b with b | ⟨q, hq, b⟩
      · rw [Dict.get?_set] at b
        split at b
        · cases b; exact .inr ⟨p, List.mem_cons_self, rfl⟩
        · exact .inl b
      · exact .inr ⟨q, List.mem_cons_of_mem _ hq, b⟩
    · rw [h3, Dict.mem_keys_set]
      constructor
      · rintro ((h | h) | ⟨q, hq, h⟩)
        · exact .inr ⟨p, List.mem_cons_self, h.symm⟩
        · exact .inl h
        · exact .inr ⟨q, List.mem_cons_of_mem _ hq, h⟩
      · rintro (h | ⟨q, hq, h⟩)
        · exact .inl (.inr h)
        · rcases List.mem_cons.1 hq with rfl | hq
          · exact .inl (.inl h.symm)
          · exact .inr ⟨q, hq, h⟩

/-- Versions with the same meaning have the same dependencies with the same meanings. -/
theorem same_meaning (hH : Function.Injective H) {dags : Dict DepKey (Dag String Content)} {v w : Version} (hv : VersionOK H dags v)
    (hw : VersionOK H dags w) (h : v.semanticVersion = w.semanticVersion) (k : DepKey) :
    v.semanticExpansion.get? k = w.semanticExpansion.get? k := by
  rw [hv.sv, hw.sv] at h
  have := hashDict_inj hH .str hv.seNodup hw.seNodup h k
  cases h1 : v.semanticExpansion.get? k <;> cases h2 : w.semanticExpansion.get? k <;> rw [h1, h2] at this
  · cases this
  · cases this
  · cases this; rfl

/-- C95: every meaning an op was run with is shown once, and what is shown is faithful to every version with this meaning. -/
theorem C95_each_meaning_once (hH : Function.Injective H) (strict : Bool) {evs : List VEvent} (hev : ∀ ev ∈ evs, ev.Legal compOf)
    (hf : Shallow fuel (after H strict evs).versioner) {component : String}
    (hc : component ∈ (after H strict evs).versioner.versions.keys) :
    ∃ L, showSemantic parts fuel (after H strict evs).versioner info component = .ok L ∧ (L.map (·.2.1)).Nodup ∧
      (∀ sv, sv ∈ L.map (·.2.1) ↔ ∃ cv v, getVersion (after H strict evs).versioner.versions component cv = .ok v ∧ v.semanticVersion = sv) ∧
      (∀ x ∈ L, ∃ v, getVersion (after H strict evs).versioner.versions component x.1 = .ok v ∧ v.semanticVersion = x.2.1) ∧
      ∀ x ∈ L, ∀ cv v, getVersion (after H strict evs).versioner.versions component cv = .ok v → v.semanticVersion = x.2.1 →
        Faithful H fuel (after H strict evs).versioner v x.2.2 := by
  have hI := (after_inv hH strict hev).inv
  have hN := after_nodes (H := H) strict evs
  generalize after H strict evs = st at hI hN hf hc
  obtain ⟨vs, h⟩ := Dict.mem_keys.1 hc
  have hg : ∀ p ∈ vs, getVersion st.versioner.versions component p.1 = .ok p.2 := fun p hp =>
    getVersion_ok.2 ⟨vs, h, get?_of_mem (hI.vnodup _ _ h) hp⟩
  obtain ⟨r1, r2, r3⟩ := representatives_loop vs [] (by simp [Dict.keys]) (fun _ _ h => by cases h)
  have hrep : ∀ p ∈ representatives vs, p.2.semanticVersion = p.1 ∧ ∃ q ∈ vs, q.2 = p.2 := by
    intro p hp
    obtain ⟨a, b⟩ := r2 p.1 p.2 (get?_of_mem r1 hp)
    refine ⟨a, ?_⟩
    rcases b with b | b
    · cases b
    · exact b
  obtain ⟨L, h1, h2, h3⟩ := showLoop_ok (parts := parts) (info := info) (s := st.versioner) (fuel := fuel)
    (Q := fun u t => ∀ cv v, getVersion st.versioner.versions component cv = .ok v → v.semanticVersion = u.semanticVersion →
      Faithful H fuel st.versioner v t) (representatives vs) fun p hp => by
      obtain ⟨_, q, hq, e⟩ := hrep p hp
      have hok := (hI.vers _ _ _ (hg q hq)).1
      rw [e] at hok
      obtain ⟨l, hl, _⟩ := present_faithful (parts := parts) (info := info) hI.toInvC hN hf hok hok fun _ => rfl
      refine ⟨l, hl, fun cv v hv hs => ?_⟩
      have hvok := (hI.vers _ _ _ hv).1
      obtain ⟨l', hl', hF⟩ := present_faithful (parts := parts) (info := info) hI.toInvC hN hf hok hvok (same_meaning hH hok hvok hs.symm)
      rw [hl] at hl'
      cases hl'
      exact hF
  have hmap : L.map (·.2.1) = (representatives vs).keys := by
    have := congrArg (List.map Prod.snd) h2
    rw [List.map_map, List.map_map] at this
    refine Eq.trans ?_ (this.trans ?_)
    · rfl
    · exact List.map_congr_left fun p hp => (hrep p hp).1
  have hx : ∀ x ∈ L, ∃ p ∈ representatives vs, p.2.contentVersion = x.1 ∧ p.2.semanticVersion = x.2.1 := by
    intro x hx
    have : (x.1, x.2.1) ∈ L.map fun x => (x.1, x.2.1) := List.mem_map.2 ⟨x, hx, rfl⟩
    rw [h2] at this
    obtain ⟨p, hp, e⟩ := List.mem_map.1 this
    exact ⟨p, hp, (Prod.mk.inj e).1, (Prod.mk.inj e).2⟩
  have hcv : ∀ q ∈ vs, q.2.contentVersion = q.1 := fun q hq => (hI.vers _ _ _ (hg q hq)).2.1
  unfold showSemantic
  rw [h]
  dsimp only
  refine ⟨L, h1, hmap ▸ r1, fun sv => ?_, fun x hxL => ?_, fun x hxL cv v hv hs => ?_⟩
  · rw [hmap]
    refine (r3 sv).trans ⟨?_, ?_⟩
    · rintro (a | ⟨p, hp, a⟩)
      · cases a
      · exact ⟨p.1, p.2, hg p hp, a⟩
    · rintro ⟨cv, v, hv, a⟩
      obtain ⟨vs', hvs', hm⟩ := getVersion_ok.1 hv
      rw [h] at hvs'
      cases hvs'
      exact .inr ⟨(cv, v), mem_of_get? hm, a⟩
  · obtain ⟨p, hp, e1, e2⟩ := hx x hxL
    obtain ⟨_, q, hq, e⟩ := hrep p hp
    refine ⟨q.2, ?_, by rw [e, e2]⟩
    rw [← e1, ← e, hcv q hq]
    exact hg q hq
  · obtain ⟨p, hp, e1, e2⟩ := h3 x hxL
    refine e2 cv v hv (hs.trans ?_)
    -- the entry with this content id has this meaning
    obtain ⟨p', hp', a1, a2⟩ := hx x hxL
    obtain ⟨_, q, hq, b⟩ := hrep p hp
    obtain ⟨_, q', hq', b'⟩ := hrep p' hp'
    have : q.1 = q'.1 := by rw [← hcv q hq, ← hcv q' hq', b, b', a1, ← e1]
    have g := hg q hq
    rw [this, hg q' hq'] at g
    rw [← a2, ← b', Except.ok.inj g, b]

/-! ### a concrete history -/

set_option maxRecDepth 20000 in
/-- The hypotheses of `C95_each_meaning_once` are met in this history. -/
example : (∀ ev ∈ commentSession, ev.Legal (fun _ => "f")) ∧ Shallow 5 (after encH true commentSession).versioner ∧
    "f" ∈ (after encH true commentSession).versioner.versions.keys := by
  have h : ((after encH true commentSession).versioner.dags.all fun p => decide (p.2.commits.length ≤ 5)) = true := by decide +kernel
  refine ⟨commentSession_legal, fun k d hd => ?_, by decide +kernel⟩
  exact of_decide_eq_true (List.all_eq_true.1 h (k, d) (mem_of_get? hd))

set_option maxRecDepth 20000 in
/-- `f` was run before and after a comment in `g` was changed: two versions with one meaning, shown once, under the later content id. -/
example : ((showSemantic inM 5 (after encH true commentSession).versioner false "f").toOption.map fun l => l.map (·.1)) = some [cvOf "def g # same"] ∧
    ((showVersions inM 5 (after encH true commentSession).versioner false "f").toOption.map fun l => l.map (·.1)) =
      some [cvOf "def g", cvOf "def g # same"] := by
  refine ⟨by decide +kernel, by decide +kernel⟩

end Verif.Props
