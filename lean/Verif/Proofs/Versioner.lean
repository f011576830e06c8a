import Verif.Proofs.HashDict
import Verif.Proofs.CodeHistory
import Verif.Props.SetDict
/-!
Invariants of the versioner.
-/
namespace Verif

/-- In these histories the content with hash `h` of component `k` has the semantic version `s`. -/
def SemIn (dags : Dict DepKey (Dag String Content)) (k : DepKey) (h s : String) : Prop :=
  ∃ d c, dags.get? k = some d ∧ d.commits.get? h = some c ∧ c.semanticHash = s

/-- What identifies a component of a code state: the source of a function, the hash of the value of a global. -/
def IdentifiedBy (H : Val → String) (n : TNode) (h : String) : Prop :=
  (∃ src rt, n = .callable (some src) rt ∧ h = H (.str src)) ∨ (∃ r, n = .globalVar h r)

/-- In the code state `cs` component `k` has the semantic version `s`. -/
def CurrentVersion (H : Val → String) (dags : Dict DepKey (Dag String Content)) (cs : CodeState) (k : DepKey) (s : String) : Prop :=
  ∃ n h, cs.get? k = some n ∧ IdentifiedBy H n h ∧ SemIn dags k h s

/-- the same, in terms of the model -/
def CurSem (H : Val → String) (dags : Dict DepKey (Dag String Content)) (cs : CodeState) (k : DepKey) (s : String) : Prop :=
  ∃ n c, cs.get? k = some n ∧ n.content = some c ∧ SemIn dags k (c.hash H) s

theorem currentVersion_iff {H : Val → String} {dags : Dict DepKey (Dag String Content)} {cs : CodeState} {k : DepKey} {s : String} :
    CurrentVersion H dags cs k s ↔ CurSem H dags cs k s := by
  constructor
  · rintro ⟨n, h, h1, ⟨src, rt, rfl, rfl⟩ | ⟨r, rfl⟩, h3⟩
    · exact ⟨_, .code src, h1, rfl, h3⟩
    · exact ⟨_, .gv h r, h1, rfl, h3⟩
  · rintro ⟨n, c, h1, h2, h3⟩
    match n, h2 with
    | .callable (some src) rt, h2 => cases h2; exact ⟨_, _, h1, .inl ⟨src, rt, rfl, rfl⟩, h3⟩
    | .globalVar h r, h2 => cases h2; exact ⟨_, _, h1, .inr ⟨r, rfl⟩, h3⟩

theorem SemIn.unique {dags : Dict DepKey (Dag String Content)} {k : DepKey} {h s s' : String} (a : SemIn dags k h s) (b : SemIn dags k h s') : s = s' := by
  obtain ⟨d, c, h1, h2, rfl⟩ := a
  obtain ⟨d', c', h3, h4, rfl⟩ := b
  rw [h1] at h3; cases h3
  rw [h2] at h4; cases h4
  rfl

theorem CurSem.unique {H : Val → String} {dags : Dict DepKey (Dag String Content)} {cs : CodeState} {k : DepKey} {s s' : String}
    (a : CurSem H dags cs k s) (b : CurSem H dags cs k s') : s = s' := by
  obtain ⟨n, c, h1, h2, h3⟩ := a
  obtain ⟨n', c', h4, h5, h6⟩ := b
  rw [h1] at h4; cases h4
  rw [h2] at h5; cases h5
  exact h3.unique h6

/-- The histories only grow. -/
def DagsLE (a b : Dict DepKey (Dag String Content)) : Prop := ∀ k h s, SemIn a k h s → SemIn b k h s

/-- A synced version: its two expansions fit together. -/
structure VersionOK (H : Val → String) (dags : Dict DepKey (Dag String Content)) (v : Version) : Prop where
  ceNodup : v.contentExpansion.keys.Nodup
  seNodup : v.semanticExpansion.keys.Nodup
  dom : ∀ k, k ∈ v.contentExpansion.keys ↔ k ∈ v.semanticExpansion.keys
  sem : ∀ k hs, v.contentExpansion.get? k = some hs → hs ≠ [] ∧ ∀ h ∈ hs, ∃ s, v.semanticExpansion.get? k = some s ∧ SemIn dags k h s
  cv : v.contentVersion = hashDict H encSorted v.contentExpansion
  sv : v.semanticVersion = hashDict H .str v.semanticExpansion

theorem VersionOK.mono {H : Val → String} {a b : Dict DepKey (Dag String Content)} {v : Version} (h : VersionOK H a v) (hab : DagsLE a b) :
    VersionOK H b v :=
  ⟨h.ceNodup, h.seNodup, h.dom, fun k hs hk => ⟨(h.sem k hs hk).1, fun x hx => by
    obtain ⟨s, h1, h2⟩ := (h.sem k hs hk).2 x hx
    exact ⟨s, h1, hab _ _ _ h2⟩⟩, h.cv, h.sv⟩

/-- Versions with the same content version have the same semantic expansion. -/
theorem VersionOK.same {H : Val → String} (hH : Function.Injective H) {dags : Dict DepKey (Dag String Content)} {v w : Version}
    (hv : VersionOK H dags v) (hw : VersionOK H dags w) (h : v.contentVersion = w.contentVersion) :
    (∀ k, v.semanticExpansion.get? k = w.semanticExpansion.get? k) ∧ v.semanticVersion = w.semanticVersion := by
  rw [hv.cv, hw.cv] at h
  have hce := hashDict_inj hH encSorted hv.ceNodup hw.ceNodup h
  have hse : ∀ k, v.semanticExpansion.get? k = w.semanticExpansion.get? k := by
    intro k
    have := hce k
    cases h1 : v.contentExpansion.get? k with
    | none =>
      rw [h1] at this
      cases h2 : w.contentExpansion.get? k with
      | some x => rw [h2] at this; cases this
      | none =>
        have h3 : v.semanticExpansion.get? k = none := by
          rw [Dict.get?_eq_none, ← hv.dom, ← Dict.get?_eq_none]; exact h1
        have h4 : w.semanticExpansion.get? k = none := by
          rw [Dict.get?_eq_none, ← hw.dom, ← Dict.get?_eq_none]; exact h2
        rw [h3, h4]
    | some x =>
      rw [h1] at this
      cases h2 : w.contentExpansion.get? k with
      | none => rw [h2] at this; cases this
      | some y =>
        rw [h2, Option.map_some, Option.map_some] at this
        have hm := encSorted_mem (Option.some.inj this)
        obtain ⟨hne, hs⟩ := hv.sem k x h1
        obtain ⟨_, hs'⟩ := hw.sem k y h2
        obtain ⟨a, ha⟩ := List.exists_mem_of_ne_nil x hne
        obtain ⟨s, h3, h4⟩ := hs a ha
        obtain ⟨s', h5, h6⟩ := hs' a ((hm a).1 ha)
        rw [h3, h5, h4.unique h6]
  exact ⟨hse, by rw [hv.sv, hw.sv]; exact hashDict_congr H .str hv.seNodup hw.seNodup hse⟩

namespace Versioner

variable {H : Val → String}

/-! ### building a version -/

theorem directDeps_spec : ∀ (trace : List (DepKey × TNode)) (acc d : Dict DepKey String), directDeps H trace acc = .ok d → acc.keys.Nodup →
    d.keys.Nodup ∧ (∀ k h, d.get? k = some h → acc.get? k = some h ∨ ∃ n c, (k, n) ∈ trace ∧ n.content = some c ∧ h = c.hash H) ∧
    (∀ k, k ∉ Dict.keys trace → d.get? k = acc.get? k) ∧
    (∀ k n c, (k, n) ∈ trace → (Dict.keys trace).Nodup → n.content = some c → d.get? k = some (c.hash H))
  | [], acc, d, h, hn => by
    unfold directDeps at h
    cases h
    exact ⟨hn, fun k h hk => .inl hk, fun _ _ => rfl, fun k n c hm => by cases hm⟩
  | (k0, n0) :: rest, acc, d, h, hn => by
    cases hc : n0.content with
    | none =>
      cases n0 with
      | terminal a b =>
        unfold directDeps at h
        obtain ⟨h1, h2, h3, h4⟩ := directDeps_spec rest acc d h hn
        refine ⟨h1, ?_, ?_, ?_⟩
        · intro k x hk
          rcases h2 k x hk with h5 | ⟨n, c, h5, h6⟩
          · exact .inl h5
          · exact .inr ⟨n, c, List.mem_cons_of_mem _ h5, h6⟩
        · intro k hk
          simp only [Dict.keys, List.map_cons, List.mem_cons, not_or] at hk
          exact h3 k hk.2
        · intro k n c hm hnd hcont
          simp only [Dict.keys, List.map_cons, List.nodup_cons] at hnd
          rcases List.mem_cons.1 hm with hm | hm
          · cases hm; cases hcont
          · exact h4 k n c hm hnd.2 hcont
      | callable rep rt => unfold directDeps contentHash at h; dsimp only at h; rw [hc] at h; cases h
      | globalVar a b => cases hc
    | some c0 =>
      have hstep : directDeps H rest (acc.set k0 (c0.hash H)) = .ok d := by
        cases n0 with
        | terminal a b => cases hc
        | callable rep rt => unfold directDeps contentHash at h; dsimp only at h; rw [hc] at h; exact h
        | globalVar a b => unfold directDeps contentHash at h; dsimp only at h; rw [hc] at h; exact h
      obtain ⟨h1, h2, h3, h4⟩ := directDeps_spec rest _ d hstep (Dict.nodup_set hn _ _)
      refine ⟨h1, ?_, ?_, ?_⟩
      · intro k x hk
        rcases h2 k x hk with h5 | ⟨n, c, h5, h6⟩
        · rw [Dict.get?_set] at h5
          split at h5
          · rename_i he
            cases h5
            subst he
            exact .inr ⟨n0, c0, by simp, hc, rfl⟩
          · exact .inl h5
        · exact .inr ⟨n, c, List.mem_cons_of_mem _ h5, h6⟩
      · intro k hk
        simp only [Dict.keys, List.map_cons, List.mem_cons, not_or] at hk
        rw [h3 k hk.2, Dict.get?_set_ne _ _ (Ne.symm hk.1)]
      · intro k n c hm hnd hcont
        simp only [Dict.keys, List.map_cons, List.nodup_cons] at hnd
        rcases List.mem_cons.1 hm with hm | hm
        · cases hm
          rw [hc] at hcont
          cases hcont
          rw [h3 _ hnd.1, Dict.get?_set_self]
        · exact h4 k n c hm hnd.2 hcont

theorem semanticDirect_spec {dags : Dict DepKey (Dag String Content)} : ∀ (l : List (DepKey × String)) (acc d : Dict DepKey String),
    semanticDirect dags l acc = .ok d → (Dict.keys l).Nodup → acc.keys.Nodup →
    d.keys.Nodup ∧ (∀ k, k ∈ d.keys ↔ k ∈ Dict.keys l ∨ k ∈ acc.keys) ∧ (∀ k, k ∉ Dict.keys l → d.get? k = acc.get? k) ∧
    ∀ k h, (k, h) ∈ l → ∃ s, d.get? k = some s ∧ SemIn dags k h s
  | [], acc, d, h, _, hn => by
    unfold semanticDirect at h
    cases h
    exact ⟨hn, fun k => by simp [Dict.keys], fun _ _ => rfl, fun k h hm => by cases hm⟩
  | (k0, h0) :: rest, acc, d, h, hl, hn => by
    unfold semanticDirect at h
    simp only [Dict.keys, List.map_cons, List.nodup_cons] at hl
    cases hd : dags.get? k0 with
    | none => rw [hd] at h; cases h
    | some dag =>
      rw [hd] at h
      dsimp only at h
      cases hc : dag.commits.get? h0 with
      | none => rw [hc] at h; cases h
      | some c =>
        rw [hc] at h
        dsimp only at h
        obtain ⟨h1, h2, h3, h4⟩ := semanticDirect_spec rest _ d h hl.2 (Dict.nodup_set hn _ _)
        refine ⟨h1, ?_, ?_, ?_⟩
        · intro k
          rw [h2, Dict.mem_keys_set]
          simp only [Dict.keys, List.map_cons, List.mem_cons]
          constructor
          · rintro (h | h | h)
            · exact .inl (.inr h)
            · exact .inl (.inl h)
            · exact .inr h
          · rintro ((h | h) | h)
            · exact .inr (.inl h)
            · exact .inl h
            · exact .inr (.inr h)
        · intro k hk
          simp only [Dict.keys, List.map_cons, List.mem_cons, not_or] at hk
          rw [h3 k hk.2, Dict.get?_set_ne _ _ (Ne.symm hk.1)]
        · intro k x hm
          rcases List.mem_cons.1 hm with hm | hm
          · cases hm
            exact ⟨c.semanticHash, by rw [h3 _ hl.1, Dict.get?_set_self], dag, c, hd, hc, rfl⟩
          · exact h4 k x hm

theorem foldUnion_get? : ∀ (l acc : Dict DepKey (List String)), l.keys.Nodup → ∀ k,
    (l.foldl (fun acc p => Dict.set acc p.1 (PySet.union (getOr acc p.1) p.2)) acc).get? k =
      match l.get? k with | none => acc.get? k | some hs => some (PySet.union (getOr acc k) hs)
  | [], acc, _, k => rfl
  | (k0, hs0) :: l, acc, hn, k => by
    simp only [Dict.keys, List.map_cons, List.nodup_cons] at hn
    rw [List.foldl_cons, foldUnion_get? l _ hn.2 k, Dict.get?_cons]
    by_cases hk : k0 = k
    · subst hk
      rw [if_pos rfl, Dict.get?_eq_none.2 hn.1]
      simp
    · rw [if_neg hk]
      have : getOr (Dict.set acc k0 (PySet.union (getOr acc k0) hs0)) k = getOr acc k := by
        rw [getOr, Dict.get?_set_ne _ _ hk]; rfl
      dsimp only
      rw [this, Dict.get?_set_ne _ _ hk]

theorem foldUnion_nodup (l : Dict DepKey (List String)) : ∀ (acc : Dict DepKey (List String)), acc.keys.Nodup →
    (l.foldl (fun acc p => Dict.set acc p.1 (PySet.union (getOr acc p.1) p.2)) acc).keys.Nodup := by
  induction l with
  | nil => intro acc h; exact h
  | cons p l ih => intro acc h; exact ih _ (Dict.nodup_set h _ _)

theorem nodup_update {V : Type} (e : Dict DepKey V) : ∀ (d : Dict DepKey V), d.keys.Nodup → (d.update e).keys.Nodup := by
  unfold Dict.update
  induction e with
  | nil => intro d h; exact h
  | cons p l ih => intro d h; exact ih _ (Dict.nodup_set h _ _)

/-- The joint invariant of the two expansions while they are built. -/
structure ExpOK (dags : Dict DepKey (Dag String Content)) (ce : Dict DepKey (List String)) (se : Dict DepKey String) : Prop where
  ceNodup : ce.keys.Nodup
  seNodup : se.keys.Nodup
  dom : ∀ k, k ∈ ce.keys ↔ k ∈ se.keys
  sem : ∀ k hs, ce.get? k = some hs → hs ≠ [] ∧ ∀ h ∈ hs, ∃ s, se.get? k = some s ∧ SemIn dags k h s

theorem pointers_spec {dags : Dict DepKey (Dag String Content)} {versions : Dict DepKey (Dict String Version)}
    (hv : ∀ k cv v, getVersion versions k cv = .ok v → VersionOK H dags v) : ∀ (ptrs : List (DepKey × String)) (ce ce' : Dict DepKey (List String))
    (se se' : Dict DepKey String), ExpOK dags ce se → contentExpansionLoop versions ptrs ce = .ok ce' →
    semanticPointers versions ptrs se = .ok se' → ExpOK dags ce' se' ∧ (∀ k s, se.get? k = some s → se'.get? k = some s) ∧
      (∀ k s, se'.get? k = some s → se.get? k = some s ∨
        ∃ k' cv v, (k', cv) ∈ ptrs ∧ getVersion versions k' cv = .ok v ∧ v.semanticExpansion.get? k = some s) ∧
      ∀ k' cv, (k', cv) ∈ ptrs → ∃ v, getVersion versions k' cv = .ok v ∧ ∀ k s, v.semanticExpansion.get? k = some s → se'.get? k = some s
  | [], ce, ce', se, se', h, h1, h2 => by
    unfold contentExpansionLoop at h1
    unfold semanticPointers at h2
    cases h1; cases h2
    refine ⟨h, fun _ _ hk => hk, fun _ _ hk => .inl hk, ?_⟩
    intro k' cv hm
    cases hm
  | (k0, cv0) :: rest, ce, ce', se, se', h, h1, h2 => by
    unfold contentExpansionLoop at h1
    unfold semanticPointers at h2
    cases hg : getVersion versions k0 cv0 with
    | error e => rw [hg] at h1; cases h1
    | ok v =>
      rw [hg] at h1 h2
      dsimp only at h1 h2
      split at h2
      · cases h2
      · rename_i hany
        have hok := hv k0 cv0 v hg
        have hagree : ∀ k s s', se.get? k = some s → v.semanticExpansion.get? k = some s' → s = s' := by
          intro k s s' hs hs'
          rw [Bool.not_eq_true, List.any_eq_false] at hany
          have := hany (k, s') (mem_of_get? hs')
          dsimp only at this
          rw [hs] at this
          simpa using this
        have hse : ∀ k, (se.update v.semanticExpansion).get? k = (v.semanticExpansion.get? k).or (se.get? k) :=
          fun k => Dict.get?_update _ _ hok.seNodup k
        have hce := foldUnion_get? v.contentExpansion ce hok.ceNodup
        have hstep : ExpOK dags (v.contentExpansion.foldl (fun acc p => Dict.set acc p.1 (PySet.union (getOr acc p.1) p.2)) ce)
            (se.update v.semanticExpansion) := by
          refine ⟨foldUnion_nodup _ _ h.ceNodup, nodup_update _ _ h.seNodup, ?_, ?_⟩
          · intro k
            rw [Dict.mem_keys, Dict.mem_keys]
            simp only [hse, hce]
            have d1 := hok.dom k
            have d2 := h.dom k
            rw [Dict.mem_keys, Dict.mem_keys] at d1 d2
            cases a1 : v.contentExpansion.get? k <;> cases a2 : v.semanticExpansion.get? k <;> simp_all
          · intro k hs hk
            rw [hce] at hk
            cases a1 : v.contentExpansion.get? k with
            | none =>
              rw [a1] at hk
              dsimp only at hk
              obtain ⟨hne, hsem⟩ := h.sem k hs hk
              refine ⟨hne, fun x hx => ?_⟩
              obtain ⟨s, b1, b2⟩ := hsem x hx
              refine ⟨s, ?_, b2⟩
              have : v.semanticExpansion.get? k = none := by
                rw [Dict.get?_eq_none, ← hok.dom, ← Dict.get?_eq_none]; exact a1
              rw [hse, this, Option.none_or, b1]
            | some hs1 =>
              rw [a1] at hk
              dsimp only at hk
              cases hk
              obtain ⟨hne, hsem⟩ := hok.sem k hs1 a1
              obtain ⟨y, hy⟩ := List.exists_mem_of_ne_nil hs1 hne
              refine ⟨List.ne_nil_of_mem (PySet.mem_union.2 (.inr hy)), fun x hx => ?_⟩
              rcases PySet.mem_union.1 hx with hx | hx
              · cases a2 : ce.get? k with
                | none => rw [getOr, a2] at hx; cases hx
                | some hs2 =>
                  rw [getOr, a2] at hx
                  obtain ⟨s, b1, b2⟩ := (h.sem k hs2 a2).2 x hx
                  obtain ⟨s', b3, _⟩ := hsem y hy
                  rw [hse, b3]
                  refine ⟨s', rfl, ?_⟩
                  rw [← hagree k s s' b1 b3]
                  exact b2
              · obtain ⟨s, b1, b2⟩ := hsem x hx
                exact ⟨s, by rw [hse, b1]; rfl, b2⟩
        obtain ⟨r1, r2, r3, r4⟩ := pointers_spec hv rest _ ce' _ se' hstep h1 h2
        refine ⟨r1, ?_, ?_, ?_⟩
        · intro k s hk
          refine r2 k s ?_
          rw [hse]
          cases a : v.semanticExpansion.get? k with
          | none => rw [Option.none_or, hk]
          | some s' => rw [hagree k s s' hk a]; rfl
        · intro k s hk
          rcases r3 k s hk with hk | ⟨k', cv, w, b1, b2⟩
          · rw [hse] at hk
            cases a : v.semanticExpansion.get? k with
            | none => rw [a, Option.none_or] at hk; exact .inl hk
            | some y =>
              rw [a] at hk
              cases hk
              exact .inr ⟨k0, cv0, v, by simp, hg, a⟩
          · exact .inr ⟨k', cv, w, List.mem_cons_of_mem _ b1, b2⟩
        · intro k' cv hm
          rcases List.mem_cons.1 hm with hm | hm
          · cases hm
            exact ⟨v, hg, fun k s hk => r2 k s (by rw [hse, hk]; rfl)⟩
          · exact r4 k' cv hm

theorem memoFold_mem (trace : List (DepKey × TNode)) : ∀ (acc : Dict DepKey (List String)) (dk : DepKey) (cv : String),
    cv ∈ getOr (trace.foldl (fun acc p => match p.2 with | .terminal k cv => Dict.set acc k (PySet.add (getOr acc k) cv) | _ => acc) acc) dk ↔
      cv ∈ getOr acc dk ∨ ∃ k, (k, TNode.terminal dk cv) ∈ trace := by
  induction trace with
  | nil => intro acc dk cv; simp
  | cons p trace ih =>
    intro acc dk cv
    obtain ⟨k0, n0⟩ := p
    rw [List.foldl_cons, ih]
    have skip : (∀ a b, n0 ≠ .terminal a b) → ((∃ k, (k, TNode.terminal dk cv) ∈ trace) ↔ ∃ k, (k, TNode.terminal dk cv) ∈ (k0, n0) :: trace) := by
      intro hn
      constructor
      · rintro ⟨k, h⟩; exact ⟨k, List.mem_cons_of_mem _ h⟩
      · rintro ⟨k, h⟩
        rcases List.mem_cons.1 h with h | h
        · cases h; exact absurd rfl (hn _ _)
        · exact ⟨k, h⟩
    cases n0 with
    | callable a b => dsimp only; rw [skip (fun _ _ h => by cases h)]
    | globalVar a b => dsimp only; rw [skip (fun _ _ h => by cases h)]
    | terminal a b =>
      dsimp only
      have hget : cv ∈ getOr (Dict.set acc a (PySet.add (getOr acc a) b)) dk ↔ cv ∈ getOr acc dk ∨ (a = dk ∧ b = cv) := by
        by_cases ha : a = dk
        · subst ha
          rw [getOr, Dict.get?_set_self]
          dsimp only [Option.getD]
          rw [PySet.mem_add]
          constructor
          · rintro (h | h)
            · exact .inl h
            · exact .inr ⟨rfl, h.symm⟩
          · rintro (h | ⟨_, h⟩)
            · exact .inl h
            · exact .inr h.symm
        · rw [getOr, Dict.get?_set_ne _ _ ha, ← getOr]
          simp [ha]
      rw [hget]
      constructor
      · rintro ((h | ⟨rfl, rfl⟩) | ⟨k, h⟩)
        · exact .inl h
        · exact .inr ⟨k0, by simp⟩
        · exact .inr ⟨k, List.mem_cons_of_mem _ h⟩
      · rintro (h | ⟨k, h⟩)
        · exact .inl (.inl h)
        · rcases List.mem_cons.1 h with h | h
          · cases h; exact .inl (.inr ⟨rfl, rfl⟩)
          · exact .inr ⟨k, h⟩

theorem memoFold_nodup (trace : List (DepKey × TNode)) : ∀ (acc : Dict DepKey (List String)), acc.keys.Nodup →
    (trace.foldl (fun acc p => match p.2 with | .terminal k cv => Dict.set acc k (PySet.add (getOr acc k) cv) | _ => acc) acc).keys.Nodup := by
  induction trace with
  | nil => intro acc h; exact h
  | cons p trace ih =>
    intro acc h
    obtain ⟨k0, n0⟩ := p
    rw [List.foldl_cons]
    apply ih
    cases n0 with
    | callable a b => exact h
    | globalVar a b => exact h
    | terminal a b => exact Dict.nodup_set h _ _

/-- A version points to exactly the versions of the memoized calls in the trace. -/
theorem mem_pointers (trace : List (DepKey × TNode)) (dk : DepKey) (cv : String) :
    (dk, cv) ∈ pointers (memoizedDeps trace) ↔ ∃ k, (k, TNode.terminal dk cv) ∈ trace := by
  have hn : (memoizedDeps trace).keys.Nodup := memoFold_nodup trace [] (by simp [Dict.keys])
  have hm := memoFold_mem trace [] dk cv
  have h0 : ¬ cv ∈ getOr ([] : Dict DepKey (List String)) dk := by rw [getOr, Dict.get?_nil]; simp
  rw [show (∃ k, (k, TNode.terminal dk cv) ∈ trace) ↔ cv ∈ getOr (memoizedDeps trace) dk from ⟨fun h => hm.2 (.inr h), fun h => (hm.1 h).resolve_left h0⟩]
  unfold pointers
  rw [List.mem_flatMap]
  constructor
  · rintro ⟨⟨a, l⟩, h1, h2⟩
    rw [List.mem_map] at h2
    obtain ⟨x, h3, h4⟩ := h2
    cases h4
    rw [getOr, get?_of_mem hn h1]
    exact h3
  · intro h
    cases hg : (memoizedDeps trace).get? dk with
    | none => rw [getOr, hg] at h; cases h
    | some l =>
      rw [getOr, hg] at h
      exact ⟨(dk, l), mem_of_get? hg, List.mem_map.2 ⟨cv, h, rfl⟩⟩

theorem keys_map_single (d : Dict DepKey String) : Dict.keys (d.map fun p => (p.1, [p.2])) = d.keys := by
  unfold Dict.keys; rw [List.map_map]; rfl

theorem get?_map_single (d : Dict DepKey String) (k : DepKey) : Dict.get? (d.map fun p => (p.1, [p.2])) k = (d.get? k).map fun h => [h] := by
  induction d with
  | nil => rfl
  | cons p d ih =>
    obtain ⟨a, b⟩ := p
    rw [List.map_cons, Dict.get?_cons, Dict.get?_cons, ih]
    split <;> rfl

/-- What a successfully built version looks like. -/
theorem makeVersion_spec {s : Versioner} (hv : ∀ k cv v, getVersion s.versions k cv = .ok v → VersionOK H s.dags v)
    {component : DepKey} {trace : List (DepKey × TNode)} {v : Version} (h : makeVersion H s component trace = .ok v) :
    VersionOK H s.dags v ∧ v.component = component ∧
    ((Dict.keys trace).Nodup → ∀ k n c, (k, n) ∈ trace → n.content = some c → ∃ x, v.semanticExpansion.get? k = some x ∧ SemIn s.dags k (c.hash H) x) ∧
    (∀ k x, v.semanticExpansion.get? k = some x → (∃ n c, (k, n) ∈ trace ∧ n.content = some c ∧ SemIn s.dags k (c.hash H) x) ∨
      ∃ kk dk cv w, (kk, TNode.terminal dk cv) ∈ trace ∧ getVersion s.versions dk cv = .ok w ∧ w.semanticExpansion.get? k = some x) ∧
    ∀ kk dk cv, (kk, TNode.terminal dk cv) ∈ trace → ∃ w, getVersion s.versions dk cv = .ok w ∧
      ∀ k x, w.semanticExpansion.get? k = some x → v.semanticExpansion.get? k = some x := by
  unfold makeVersion at h
  cases hd : directDeps H trace [] with
  | error e => rw [hd] at h; cases h
  | ok direct =>
    rw [hd] at h
    dsimp only at h
    cases hc : contentExpansionLoop s.versions (pointers (memoizedDeps trace)) (direct.map fun p => (p.1, [p.2])) with
    | error e => rw [hc] at h; cases h
    | ok ce =>
      rw [hc] at h
      dsimp only at h
      cases hs : semanticDirect s.dags direct [] with
      | error e => rw [hs] at h; cases h
      | ok sd =>
        rw [hs] at h
        dsimp only at h
        cases hp : semanticPointers s.versions (pointers (memoizedDeps trace)) sd with
        | error e => rw [hp] at h; cases h
        | ok se =>
          rw [hp] at h
          dsimp only at h
          cases h
          obtain ⟨d1, d2, d3, d4⟩ := directDeps_spec trace [] direct hd (by simp [Dict.keys])
          obtain ⟨s1, s2, s3, s4⟩ := semanticDirect_spec direct [] sd hs d1 (by simp [Dict.keys])
          have h0 : ExpOK s.dags (direct.map fun p => (p.1, [p.2])) sd := by
            refine ⟨by rw [keys_map_single]; exact d1, s1, ?_, ?_⟩
            · intro k
              rw [keys_map_single, s2]
              simp [Dict.keys]
            · intro k hs' hk
              rw [get?_map_single] at hk
              cases hg : direct.get? k with
              | none => rw [hg] at hk; cases hk
              | some x =>
                rw [hg] at hk
                cases hk
                refine ⟨by simp, fun y hy => ?_⟩
                simp only [List.mem_cons, List.not_mem_nil, or_false] at hy
                subst hy
                exact s4 k y (mem_of_get? hg)
          obtain ⟨p1, p2, p3, p4⟩ := pointers_spec hv _ _ ce _ se h0 hc hp
          refine ⟨⟨p1.ceNodup, p1.seNodup, p1.dom, p1.sem, rfl, rfl⟩, rfl, ?_, ?_, ?_⟩
          · intro hnd k n c hm hcont
            obtain ⟨x, hx, hx'⟩ := s4 k _ (mem_of_get? (d4 k n c hm hnd hcont))
            exact ⟨x, p2 k x hx, hx'⟩
          · intro k x hk
            rcases p3 k x hk with hk | ⟨dk, cv, w, h1, h2, h3⟩
            · have hkd : k ∈ direct.keys := by
                have := (s2 k).1 (Dict.mem_keys.2 ⟨x, hk⟩)
                rcases this with h | h
                · exact h
                · cases h
              obtain ⟨y, hy⟩ := Dict.mem_keys.1 hkd
              obtain ⟨x', h1, h2⟩ := s4 k y (mem_of_get? hy)
              rw [hk] at h1
              cases h1
              rcases d2 k y hy with h1 | ⟨n, c, h1, h3, rfl⟩
              · cases h1
              · exact .inl ⟨n, c, h1, h3, h2⟩
            · obtain ⟨kk, hkk⟩ := (mem_pointers trace dk cv).1 h1
              exact .inr ⟨kk, dk, cv, w, hkk, h2, h3⟩
          · intro kk dk cv hm
            exact p4 dk cv ((mem_pointers trace dk cv).2 ⟨kk, hm⟩)

end Versioner
end Verif
