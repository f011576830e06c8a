import Verif.Proofs.TopSort
/-!
Tarjan's algorithm finds the strongly connected components.
-/
namespace Verif

section
variable {K : Type} [DecidableEq K]

namespace SccSt

/-- the number given to a node -/
def nm (s : SccSt K) (x : K) : Nat := (s.indexes.get? x).getD 0

/-- the low link of a node -/
def lw (s : SccSt K) (x : K) : Nat := (s.lowlinks.get? x).getD 0

/-- the node was visited -/
def Num (s : SccSt K) (x : K) : Prop := x ∈ s.indexes.keys

end SccSt

/-- Every neighbour is a key. -/
def Graph.Closed (g : Graph K) : Prop := ∀ a b, g.Edge a b → b ∈ g.keys

/-- Invariant of the search; `gray` are the nodes whose `dfs` is in progress. -/
structure SccWf (g : Graph K) (s : SccSt K) (gray : List K) : Prop where
  lt : ∀ x, s.Num x → s.nm x < s.index
  on : ∀ x, (s.onStack.get? x).getD false = true ↔ x ∈ s.stack
  numd : ∀ x ∈ s.stack, s.Num x
  nodup : s.stack.Nodup
  order : s.stack.Pairwise fun a b => s.nm b < s.nm a
  gst : ∀ x ∈ gray, x ∈ s.stack
  closed : ∀ x, s.Num x → x ∉ gray → ∀ y, g.Edge x y → s.Num y
  reach : ∀ x ∈ s.stack, ∀ y ∈ s.stack, s.nm x ≤ s.nm y → Star g.Edge x y
  back : ∀ y ∈ s.stack, ∃ x ∈ gray, Star g.Edge y x ∧ s.nm x ≤ s.nm y
  cover : ∀ x, (∃ c ∈ s.sccs, x ∈ c) ↔ s.Num x ∧ x ∉ s.stack
  isScc : ∀ c ∈ s.sccs, ∀ x ∈ c, ∀ y, y ∈ c ↔ Star g.Edge x y ∧ Star g.Edge y x
  sccNodup : s.sccs.flatten.Nodup
  sccNe : ∀ c ∈ s.sccs, c ≠ []
  keys : ∀ x, s.Num x → x ∈ g.keys

/-- Numbers and low links of earlier nodes stay. -/
structure SccExt (s s' : SccSt K) (P : K → Prop) : Prop where
  num : ∀ x, s.Num x → s'.Num x ∧ s'.nm x = s.nm x
  low : ∀ x, s.Num x → P x → s'.lowlinks.get? x = s.lowlinks.get? x

structure SccPost (g : Graph K) (gray : List K) (n : K) (s s' : SccSt K) : Prop where
  wf : SccWf g s' gray
  ext : SccExt s s' (fun _ => True)
  mem : s'.Num n
  stk : ∃ new, s'.stack = new ++ s.stack ∧ ∀ a ∈ new, ∀ b ∈ s.stack, g.Edge a b → s'.lw n ≤ s'.nm b
  nge : s.index ≤ s'.nm n
  onst : n ∈ s'.stack → ∃ y ∈ s'.stack, s'.lw n = s'.nm y ∧ Star g.Edge n y
  offst : n ∉ s'.stack → s'.lw n = s'.nm n

structure SccLoop (g : Graph K) (gray : List K) (n : K) (st0 : List K) (proc : List K) (s : SccSt K) : Prop where
  wf : SccWf g s (n :: gray)
  stk : ∃ new, s.stack = new ++ n :: st0 ∧ ∀ a ∈ new, ∀ b ∈ st0, g.Edge a b → s.lw n ≤ s.nm b
  proc : ∀ m ∈ proc, s.Num m ∧ (m ∈ st0 → s.lw n ≤ s.nm m)
  lle : s.lw n ≤ s.nm n
  lowmem : ∃ L, s.lowlinks.get? n = some L
  wit : ∃ y ∈ s.stack, s.lw n = s.nm y ∧ Star g.Edge n y

theorem SccWf.lower {g : Graph K} {s : SccSt K} {gray : List K} (h : SccWf g s gray) (n : K) (x : Nat) : SccWf g (s.lower n x) gray :=
  ⟨h.lt, h.on, h.numd, h.nodup, h.order, h.gst, h.closed, h.reach, h.back, h.cover, h.isScc, h.sccNodup, h.sccNe, h.keys⟩

theorem lw_lower (s : SccSt K) (n : K) (x : Nat) : (s.lower n x).lw n = min (s.lw n) x := by
  unfold SccSt.lw SccSt.lower
  simp

theorem nm_lower (s : SccSt K) (n : K) (x : Nat) (y : K) : (s.lower n x).nm y = s.nm y := rfl

/-- Nodes not visited yet. -/
def sccLeft (g : Graph K) (s : SccSt K) : Nat := g.keys.countP (fun x => decide (x ∉ s.indexes.keys))

theorem sccLeft_mono {g : Graph K} {s s' : SccSt K} (h : ∀ x, s.Num x → s'.Num x) : sccLeft g s' ≤ sccLeft g s := by
  refine List.countP_mono_left (fun x _ => ?_)
  simp only [decide_not, Bool.not_eq_eq_eq_not, Bool.not_true, decide_eq_false_iff_not]
  exact fun hw hv => hw (h x hv)

theorem sccLeft_lt {g : Graph K} {s s' : SccSt K} (h : ∀ x, s.Num x → s'.Num x) {n : K} (hn : n ∈ g.keys) (h1 : ¬ s.Num n) (h2 : s'.Num n) :
    sccLeft g s' < sccLeft g s := by
  refine countP_lt_of_imp _ _ _ (fun x _ => ?_) n hn (by simpa using (show n ∉ s.indexes.keys from h1)) (by simpa using (show n ∈ s'.indexes.keys from h2))
  simp only [decide_not, Bool.not_eq_eq_eq_not, Bool.not_true, decide_eq_false_iff_not]
  exact fun hw hv => hw (h x hv)

theorem sccLoop_spec {g : Graph K} (hc : g.Closed) {rec : K → SccSt K → Option (SccSt K)} {f : Nat} {gray : List K} {n : K} {st0 : List K}
    (hgray : ∀ a ∈ gray, Star g.Edge a n)
    (hrec : ∀ m s, m ∈ g.keys → ¬ s.Num m → SccWf g s (n :: gray) → (∀ a ∈ n :: gray, Star g.Edge a m) → sccLeft g s ≤ f →
      ∃ s', rec m s = some s' ∧ SccPost g (n :: gray) m s s') :
    ∀ (ms proc : List K) (s : SccSt K), (∀ m ∈ ms, g.Edge n m) → SccLoop g gray n st0 proc s → sccLeft g s ≤ f →
      ∃ s', sccLoop rec n ms s = some s' ∧ SccLoop g gray n st0 (proc ++ ms) s' ∧ SccExt s s' (fun x => x ≠ n)
  | [], proc, s, _, hl, _ => ⟨s, rfl, by rw [List.append_nil]; exact hl, ⟨fun _ h => ⟨h, rfl⟩, fun _ _ _ => rfl⟩⟩
  | m :: ms, proc, s, hm, hl, hf => by
    have hnm : g.Edge n m := hm m (by simp)
    have hms : ∀ m ∈ ms, g.Edge n m := fun x hx => hm x (List.mem_cons_of_mem _ hx)
    unfold sccLoop
    obtain ⟨new, hst, hnew⟩ := hl.stk
    have hnst : n ∈ s.stack := hl.wf.gst n (by simp)
    by_cases hnum : s.Num m
    · rw [if_pos (Dict.has_iff.2 hnum)]
      by_cases hos : (s.onStack.get? m).getD false = true
      · rw [if_pos hos]
        have hmst := (hl.wf.on m).1 hos
        have h1 : SccLoop g gray n st0 (proc ++ [m]) (s.lower n ((s.indexes.get? m).getD 0)) := by
          have hlw := lw_lower s n ((s.indexes.get? m).getD 0)
          refine ⟨hl.wf.lower _ _, ⟨new, hst, ?_⟩, ?_, ?_, ?_, ?_⟩
          · intro a ha b hb hab
            rw [hlw, nm_lower]
            exact Nat.le_trans (Nat.min_le_left _ _) (hnew a ha b hb hab)
          · intro x hx
            rw [hlw, nm_lower]
            rcases List.mem_append.1 hx with hx | hx
            · exact ⟨(hl.proc x hx).1, fun h => Nat.le_trans (Nat.min_le_left _ _) ((hl.proc x hx).2 h)⟩
            · rw [List.mem_singleton] at hx
              subst hx
              exact ⟨hnum, fun _ => Nat.min_le_right _ _⟩
          · rw [hlw, nm_lower]
            exact Nat.le_trans (Nat.min_le_left _ _) hl.lle
          · exact ⟨_, Dict.get?_set_self _ _ _⟩
          · obtain ⟨y, hy, hy2, hy3⟩ := hl.wit
            rw [hlw]
            by_cases hle : s.lw n ≤ (s.indexes.get? m).getD 0
            · exact ⟨y, hy, by rw [Nat.min_eq_left hle, nm_lower]; exact hy2, hy3⟩
            · exact ⟨m, hmst, by rw [Nat.min_eq_right (by omega), nm_lower]; rfl, .single hnm⟩
        obtain ⟨s', h2, h3, h4⟩ := sccLoop_spec hc hgray hrec ms (proc ++ [m]) _ hms h1 (Nat.le_trans (sccLeft_mono fun _ h => h) hf)
        refine ⟨s', h2, by rw [List.append_assoc] at h3; exact h3, ⟨h4.num, fun x hx hne => ?_⟩⟩
        rw [h4.low x hx hne]
        exact Dict.get?_set_ne _ _ (Ne.symm hne)
      · rw [if_neg hos]
        have h1 : SccLoop g gray n st0 (proc ++ [m]) s := by
          refine ⟨hl.wf, ⟨new, hst, hnew⟩, ?_, hl.lle, hl.lowmem, hl.wit⟩
          intro x hx
          rcases List.mem_append.1 hx with hx | hx
          · exact hl.proc x hx
          · rw [List.mem_singleton] at hx
            subst hx
            refine ⟨hnum, fun h => ?_⟩
            exfalso
            apply hos
            rw [hl.wf.on, hst]
            exact List.mem_append_right _ (List.mem_cons_of_mem _ h)
        obtain ⟨s', h2, h3, h4⟩ := sccLoop_spec hc hgray hrec ms (proc ++ [m]) _ hms h1 hf
        exact ⟨s', h2, by rw [List.append_assoc] at h3; exact h3, h4⟩
    · rw [if_neg (by rw [Dict.has_iff]; exact hnum)]
      obtain ⟨s1, hr, hp⟩ := hrec m s (hc n m hnm) hnum hl.wf (by
        intro a ha
        rcases List.mem_cons.1 ha with rfl | ha
        · exact .single hnm
        · exact (hgray a ha).tail hnm) hf
      rw [hr, Option.bind_some]
      obtain ⟨newm, hstm, hnewm⟩ := hp.stk
      have hn1 : s.Num n := hl.wf.numd n hnst
      have hlown : s1.lw n = s.lw n := by
        unfold SccSt.lw
        rw [hp.ext.low n hn1 trivial]
      have h1 : SccLoop g gray n st0 (proc ++ [m]) (s1.lower n ((s1.lowlinks.get? m).getD 0)) := by
        have hlw : (s1.lower n ((s1.lowlinks.get? m).getD 0)).lw n = min (s.lw n) (s1.lw m) := by
          rw [lw_lower, hlown]; rfl
        have hnum0 : ∀ x ∈ s.stack, s1.nm x = s.nm x := fun x hx => (hp.ext.num x (hl.wf.numd x hx)).2
        have hst0 : ∀ x ∈ st0, x ∈ s.stack := fun x hx => by
          rw [hst]; exact List.mem_append_right _ (List.mem_cons_of_mem _ hx)
        refine ⟨hp.wf.lower _ _, ⟨newm ++ new, ?_, ?_⟩, ?_, ?_, ?_, ?_⟩
        · show s1.stack = _
          rw [hstm, hst, List.append_assoc]
        · intro a ha b hb hab
          rw [hlw, nm_lower]
          rcases List.mem_append.1 ha with ha | ha
          · exact Nat.le_trans (Nat.min_le_right _ _) (hnewm a ha b (hst0 b hb) hab)
          · rw [hnum0 b (hst0 b hb)]
            exact Nat.le_trans (Nat.min_le_left _ _) (hnew a ha b hb hab)
        · intro x hx
          rw [hlw, nm_lower]
          rcases List.mem_append.1 hx with hx | hx
          · refine ⟨(hp.ext.num x (hl.proc x hx).1).1, fun h => ?_⟩
            rw [hnum0 x (hst0 x h)]
            exact Nat.le_trans (Nat.min_le_left _ _) ((hl.proc x hx).2 h)
          · rw [List.mem_singleton] at hx
            subst hx
            exact ⟨hp.mem, fun h => absurd (hl.wf.numd _ (hst0 _ h)) hnum⟩
        · rw [hlw, nm_lower, hnum0 n hnst]
          exact Nat.le_trans (Nat.min_le_left _ _) hl.lle
        · exact ⟨_, Dict.get?_set_self _ _ _⟩
        · obtain ⟨y, hy, hy2, hy3⟩ := hl.wit
          rw [hlw]
          by_cases hle : s.lw n ≤ s1.lw m
          · refine ⟨y, by show y ∈ s1.stack; rw [hstm]; exact List.mem_append_right _ hy, ?_, hy3⟩
            rw [Nat.min_eq_left hle, nm_lower, hnum0 y hy]; exact hy2
          · have hon : m ∈ s1.stack := by
              by_cases hon : m ∈ s1.stack
              · exact hon
              · have e1 := hp.offst hon
                have e2 := hp.nge
                have e3 := hl.wf.lt n hn1
                have e4 := hl.lle
                omega
            obtain ⟨z, hz, hz2, hz3⟩ := hp.onst hon
            exact ⟨z, hz, by rw [Nat.min_eq_right (by omega), nm_lower]; exact hz2, .head hnm hz3⟩
      obtain ⟨s', h2, h3, h4⟩ := sccLoop_spec hc hgray hrec ms (proc ++ [m]) _ hms h1
        (Nat.le_trans (sccLeft_mono fun x h => (hp.ext.num x h).1) hf)
      refine ⟨s', h2, by rw [List.append_assoc] at h3; exact h3, ⟨fun x hx => ?_, fun x hx hne => ?_⟩⟩
      · obtain ⟨a1, a2⟩ := hp.ext.num x hx
        obtain ⟨b1, b2⟩ := h4.num x a1
        exact ⟨b1, by rw [b2, nm_lower, a2]⟩
      · rw [h4.low x (hp.ext.num x hx).1 hne]
        have : (s1.lower n ((s1.lowlinks.get? m).getD 0)).lowlinks.get? x = s1.lowlinks.get? x := Dict.get?_set_ne _ _ (Ne.symm hne)
        rw [this, hp.ext.low x hx trivial]

theorem sccPop_spec {n : K} {st : List K} : ∀ {new : List K} {os : Dict K Bool} {acc : List K}, n ∉ new →
    (sccPop n (new ++ n :: st) os acc).1 = st ∧ (sccPop n (new ++ n :: st) os acc).2.2 = acc ++ new ++ [n] ∧
    ∀ x, ((sccPop n (new ++ n :: st) os acc).2.1).get? x = if x ∈ new ++ [n] then some false else os.get? x
  | [], os, acc, _ => by
    simp only [List.nil_append, sccPop, if_true, List.append_nil, true_and, List.mem_singleton]
    intro x
    rw [Dict.get?_set]
    by_cases h : n = x
    · simp [h]
    · simp [h, Ne.symm h]
  | w :: new, os, acc, h => by
    have hw : w ≠ n := fun e => h (by simp [e])
    have hn : n ∉ new := fun e => h (List.mem_cons_of_mem _ e)
    rw [List.cons_append, sccPop, if_neg hw]
    obtain ⟨h1, h2, h3⟩ := sccPop_spec (st := st) (os := os.set w false) (acc := acc ++ [w]) hn
    refine ⟨h1, by rw [h2]; simp, ?_⟩
    intro x
    rw [h3, Dict.get?_set]
    simp only [List.cons_append, List.mem_cons]
    by_cases hx : x ∈ new ++ [n]
    · simp [hx]
    · by_cases hxw : w = x
      · subst hxw; simp [hx]
      · simp [hx, hxw, Ne.symm hxw]

/-- A path that leaves a set has a first edge that leaves it. -/
theorem Star.leaves {α : Type} {R : α → α → Prop} {P : α → Prop} {a b : α} (h : Star R a b) (ha : P a) (hb : ¬ P b) :
    ∃ x y, Star R a x ∧ P x ∧ R x y ∧ ¬ P y ∧ Star R y b := by
  induction h with
  | refl => exact absurd ha hb
  | @tail c d hac hcd ih =>
    by_cases hc : P c
    · exact ⟨c, d, hac, hc, hcd, hb, .refl⟩
    · obtain ⟨x, y, h1, h2, h3, h4, h5⟩ := ih hc
      exact ⟨x, y, h1, h2, h3, h4, h5.tail hcd⟩

theorem sccDfs_spec {g : Graph K} (hc : g.Closed) : ∀ (f : Nat) (gray : List K) (n : K) (s : SccSt K), n ∈ g.keys → ¬ s.Num n →
    SccWf g s gray → (∀ a ∈ gray, Star g.Edge a n) → sccLeft g s ≤ f →
    ∃ s', sccDfs g f n s = some s' ∧ SccPost g gray n s s'
  | 0, gray, n, s, hn, hv, _, _, hf => by
    have : 0 < sccLeft g s := List.countP_pos_iff.2 ⟨n, hn, by simpa using (show n ∉ s.indexes.keys from hv)⟩
    omega
  | f + 1, gray, n, s, hn, hv, hw, hg, hf => by
    let s0 : SccSt K := { s with indexes := s.indexes.set n s.index, lowlinks := s.lowlinks.set n s.index, index := s.index + 1,
                                 stack := n :: s.stack, onStack := s.onStack.set n true }
    have hnum0 : ∀ x, s0.Num x ↔ x = n ∨ s.Num x := fun x => Dict.mem_keys_set
    have hnmn : s0.nm n = s.index := by show ((s.indexes.set n s.index).get? n).getD 0 = _; simp
    have hne : ∀ x, s.Num x → x ≠ n := fun x hx e => hv (e ▸ hx)
    have hnm : ∀ x, s.Num x → s0.nm x = s.nm x := fun x hx => by
      show ((s.indexes.set n s.index).get? x).getD 0 = _
      rw [Dict.get?_set_ne _ _ (Ne.symm (hne x hx))]; rfl
    have hnst : n ∉ s.stack := fun h => hv (hw.numd n h)
    have hw0 : SccWf g s0 (n :: gray) := by
      refine ⟨?_, ?_, ?_, ?_, ?_, ?_, ?_, ?_, ?_, ?_, hw.isScc, hw.sccNodup, hw.sccNe, ?_⟩
      · intro x hx
        rcases (hnum0 x).1 hx with rfl | hx
        · rw [hnmn]; exact Nat.lt_succ_self _
        · rw [hnm x hx]; exact Nat.lt_succ_of_lt (hw.lt x hx)
      · intro x
        show ((s.onStack.set n true).get? x).getD false = true ↔ x ∈ n :: s.stack
        rw [Dict.get?_set, List.mem_cons]
        by_cases hx : n = x
        · simp [hx]
        · rw [if_neg hx, hw.on]; simp [Ne.symm hx]
      · intro x hx
        rcases List.mem_cons.1 hx with rfl | hx
        · exact (hnum0 _).2 (.inl rfl)
        · exact (hnum0 x).2 (.inr (hw.numd x hx))
      · exact List.nodup_cons.2 ⟨hnst, hw.nodup⟩
      · refine List.pairwise_cons.2 ⟨?_, ?_⟩
        · intro b hb
          rw [hnmn, hnm b (hw.numd b hb)]
          exact hw.lt b (hw.numd b hb)
        · refine hw.order.imp_of_mem ?_
          intro a b ha hb h
          rw [hnm a (hw.numd a ha), hnm b (hw.numd b hb)]
          exact h
      · intro x hx
        rcases List.mem_cons.1 hx with rfl | hx
        · exact List.mem_cons_self
        · exact List.mem_cons_of_mem _ (hw.gst x hx)
      · intro x hx hxg y hxy
        rw [List.mem_cons, not_or] at hxg
        rcases (hnum0 x).1 hx with rfl | hx
        · exact absurd rfl hxg.1
        · exact (hnum0 y).2 (.inr (hw.closed x hx hxg.2 y hxy))
      · intro x hx y hy hle
        rcases List.mem_cons.1 hx with rfl | hx
        · rcases List.mem_cons.1 hy with rfl | hy
          · exact .refl
          · rw [hnmn, hnm y (hw.numd y hy)] at hle
            have := hw.lt y (hw.numd y hy)
            omega
        · rcases List.mem_cons.1 hy with hyn | hy
          · obtain ⟨z, hz, hz2, _⟩ := hw.back x ‹x ∈ s.stack›
            rw [hyn]
            exact hz2.trans (hg z hz)
          · rw [hnm x (hw.numd x hx), hnm y (hw.numd y hy)] at hle
            exact hw.reach x hx y hy hle
      · intro y hy
        rcases List.mem_cons.1 hy with rfl | hy
        · exact ⟨y, List.mem_cons_self, .refl, Nat.le_refl _⟩
        · obtain ⟨x, hx, hx2, hx3⟩ := hw.back y hy
          exact ⟨x, List.mem_cons_of_mem _ hx, hx2, by rw [hnm x (hw.numd x (hw.gst x hx)), hnm y (hw.numd y hy)]; exact hx3⟩
      · intro x
        rw [hnum0]
        show (∃ c ∈ s.sccs, x ∈ c) ↔ _ ∧ x ∉ n :: s.stack
        rw [hw.cover x, List.mem_cons, not_or]
        constructor
        · rintro ⟨h1, h2⟩; exact ⟨.inr h1, hne x h1, h2⟩
        · rintro ⟨h1 | h1, h2, h3⟩
          · exact absurd h1 h2
          · exact ⟨h1, h3⟩
      · intro x hx
        rcases (hnum0 x).1 hx with rfl | hx
        · exact hn
        · exact hw.keys x hx
    have hl0 : SccLoop g gray n s.stack [] s0 := by
      have hlw : s0.lw n = s.index := by show ((s.lowlinks.set n s.index).get? n).getD 0 = _; simp
      exact ⟨hw0, ⟨[], rfl, by simp⟩, by simp, by rw [hlw, hnmn]; exact Nat.le_refl _, ⟨_, Dict.get?_set_self _ _ _⟩,
        ⟨n, List.mem_cons_self, by rw [hlw, hnmn], .refl⟩⟩
    have hf0 : sccLeft g s0 ≤ f := by
      have := sccLeft_lt (s := s) (s' := s0) (fun x hx => (hnum0 x).2 (.inr hx)) hn hv ((hnum0 n).2 (.inl rfl))
      omega
    obtain ⟨s1, h1, h2, h3⟩ := sccLoop_spec hc hg (fun m s hm hv hw hg hf => sccDfs_spec hc f (n :: gray) m s hm hv hw hg hf)
      (g.nbrs n) [] s0 (fun m hm => hm) hl0 hf0
    rw [List.nil_append] at h2
    have hext : SccExt s s1 (fun _ => True) := by
      refine ⟨fun x hx => ?_, fun x hx _ => ?_⟩
      · obtain ⟨a, b⟩ := h3.num x ((hnum0 x).2 (.inr hx))
        exact ⟨a, by rw [b, hnm x hx]⟩
      · rw [h3.low x ((hnum0 x).2 (.inr hx)) (hne x hx)]
        exact Dict.get?_set_ne _ _ (Ne.symm (hne x hx))
    have hn1 : s1.Num n := (h3.num n ((hnum0 n).2 (.inl rfl))).1
    have hnmn1 : s1.nm n = s.index := by rw [(h3.num n ((hnum0 n).2 (.inl rfl))).2, hnmn]
    obtain ⟨new, hst, hnew⟩ := h2.stk
    have hno := h2.wf.nodup
    rw [hst] at hno
    have hnn : n ∉ new := by
      intro h
      exact (List.nodup_append.1 hno).2.2 n h n (by simp) rfl
    have hdis : ∀ x ∈ s.stack, x ∉ new ∧ x ≠ n := by
      intro x hx
      refine ⟨fun h => (List.nodup_append.1 hno).2.2 x h x (List.mem_cons_of_mem _ hx) rfl, ?_⟩
      rintro rfl
      exact (List.nodup_cons.1 (List.nodup_append.1 hno).2.1).1 hx
    have hord := h2.wf.order
    rw [hst] at hord
    have hlow : ∀ b ∈ s.stack, s1.nm b < s1.nm n := fun b hb =>
      (List.pairwise_cons.1 (List.pairwise_append.1 hord).2.1).1 b hb
    have hhigh : ∀ a ∈ new, s1.nm n < s1.nm a := fun a ha => (List.pairwise_append.1 hord).2.2 a ha n (by simp)
    have hclosed : ∀ x, s1.Num x → x ∉ gray → ∀ y, g.Edge x y → s1.Num y := by
      intro x hx hxg y hxy
      by_cases hxn : x = n
      · subst hxn
        exact (h2.proc y hxy).1
      · exact h2.wf.closed x hx (by simp [hxn, hxg]) y hxy
    have hedge : ∀ a ∈ new ++ [n], ∀ b ∈ s.stack, g.Edge a b → s1.lw n ≤ s1.nm b := by
      intro a ha b hb hab
      rcases List.mem_append.1 ha with ha | ha
      · exact hnew a ha b hb hab
      · rw [List.mem_singleton] at ha
        subst ha
        exact (h2.proc b hab).2 hb
    have hmemst : ∀ x, x ∈ s1.stack ↔ x ∈ new ++ [n] ∨ x ∈ s.stack := by
      intro x; rw [hst]; simp [or_assoc]
    obtain ⟨L, hL⟩ := h2.lowmem
    have hLw : s1.lw n = L := by unfold SccSt.lw; rw [hL]; rfl
    obtain ⟨i, hi⟩ := Dict.mem_keys.1 hn1
    have hiw : s1.nm n = i := by unfold SccSt.nm; rw [hi]; rfl
    by_cases hroot : s1.lowlinks.get? n = s1.indexes.get? n
    · have heq : s1.lw n = s1.nm n := by unfold SccSt.lw SccSt.nm; rw [hroot]
      have hpop := sccPop_spec (st := s.stack) (os := s1.onStack) (acc := []) hnn
      rw [← hst] at hpop
      obtain ⟨p1, p2, p3⟩ := hpop
      rw [List.nil_append] at p2
      refine ⟨{ s1 with stack := (sccPop n s1.stack s1.onStack []).1, onStack := (sccPop n s1.stack s1.onStack []).2.1,
                        sccs := s1.sccs ++ [(sccPop n s1.stack s1.onStack []).2.2] }, ?_, ?_⟩
      · unfold sccDfs
        have h1' := h1
        rw [show (sccLoop (sccDfs g f) n (g.nbrs n) _) = some s1 from h1', Option.map_some, if_pos hroot]
      · -- the popped nodes are one strongly connected component
        have hback : ∀ z ∈ new ++ [n], Star g.Edge z n := by
          intro z hz
          obtain ⟨x, hx, hx2, _⟩ := h2.wf.back z ((hmemst z).2 (.inl hz))
          rcases List.mem_cons.1 hx with rfl | hx
          · exact hx2
          · exact hx2.trans (hg x hx)
        have hforth : ∀ z ∈ new ++ [n], Star g.Edge n z := by
          intro z hz
          refine h2.wf.reach n ((hmemst n).2 (.inl (by simp))) z ((hmemst z).2 (.inl hz)) ?_
          rcases List.mem_append.1 hz with hz | hz
          · exact Nat.le_of_lt (hhigh z hz)
          · rw [List.mem_singleton] at hz; rw [hz]; exact Nat.le_refl _
        have hnumnew : ∀ z ∈ new ++ [n], s1.Num z ∧ z ∉ gray := by
          intro z hz
          refine ⟨h2.wf.numd z ((hmemst z).2 (.inl hz)), fun hzg => ?_⟩
          have := hdis z (hw.gst z hzg)
          rcases List.mem_append.1 hz with hz | hz
          · exact this.1 hz
          · rw [List.mem_singleton] at hz; exact this.2 hz
        have hmax : ∀ y, Star g.Edge n y → Star g.Edge y n → y ∈ new ++ [n] := by
          intro y hny hyn
          by_cases hy : y ∈ new ++ [n]
          · exact hy
          · exfalso
            obtain ⟨a, b, ha1, ha2, hab, hb, hby⟩ := hny.leaves (P := fun x => x ∈ new ++ [n]) (by simp) hy
            have hbnum := hclosed a (hnumnew a ha2).1 (hnumnew a ha2).2 b hab
            by_cases hbst : b ∈ s1.stack
            · rcases (hmemst b).1 hbst with hbst | hbst
              · exact hb hbst
              · have e1 := hedge a ha2 b hbst hab
                have e2 := hlow b hbst
                omega
            · obtain ⟨c, hcm, hbc⟩ := (h2.wf.cover b).2 ⟨hbnum, hbst⟩
              have : n ∈ c := (h2.wf.isScc c hcm b hbc n).2 ⟨hby.trans hyn, ha1.tail hab⟩
              exact ((h2.wf.cover n).1 ⟨c, hcm, this⟩).2 ((hmemst n).2 (.inl (by simp)))
        refine ⟨⟨h2.wf.lt, ?_, ?_, ?_, ?_, ?_, hclosed, ?_, ?_, ?_, ?_, ?_, ?_, h2.wf.keys⟩, ⟨hext.num, hext.low⟩, hn1, ⟨[], p1, by simp⟩,
          by show _ ≤ s1.nm n; rw [hnmn1]; exact Nat.le_refl _, ?_, fun _ => heq⟩
        · intro x
          show ((sccPop n s1.stack s1.onStack []).2.1.get? x).getD false = true ↔ x ∈ (sccPop n s1.stack s1.onStack []).1
          rw [p1, p3]
          by_cases hx : x ∈ new ++ [n]
          · rw [if_pos hx]
            constructor
            · intro h; simp at h
            · intro h
              rcases List.mem_append.1 hx with hx | hx
              · exact absurd hx (hdis x h).1
              · rw [List.mem_singleton] at hx; exact absurd hx (hdis x h).2
          · rw [if_neg hx, h2.wf.on, hmemst]
            simp only [hx, false_or]
        · intro x hx
          rw [show (_ : SccSt K).stack = s.stack from p1] at hx
          exact h2.wf.numd x ((hmemst x).2 (.inr hx))
        · show (sccPop n s1.stack s1.onStack []).1.Nodup
          rw [p1]; exact hw.nodup
        · show (sccPop n s1.stack s1.onStack []).1.Pairwise _
          rw [p1]; exact (List.pairwise_cons.1 (List.pairwise_append.1 hord).2.1).2
        · intro x hx
          show x ∈ (sccPop n s1.stack s1.onStack []).1
          rw [p1]; exact hw.gst x hx
        · intro x hx y hy hle
          rw [show (_ : SccSt K).stack = s.stack from p1] at hx hy
          exact h2.wf.reach x ((hmemst x).2 (.inr hx)) y ((hmemst y).2 (.inr hy)) hle
        · intro y hy
          rw [show (_ : SccSt K).stack = s.stack from p1] at hy
          obtain ⟨x, hx, hx2, hx3⟩ := h2.wf.back y ((hmemst y).2 (.inr hy))
          rcases List.mem_cons.1 hx with rfl | hx
          · have := hlow y hy
            omega
          · exact ⟨x, hx, hx2, hx3⟩
        · intro x
          show (∃ c ∈ s1.sccs ++ [(sccPop n s1.stack s1.onStack []).2.2], x ∈ c) ↔ s1.Num x ∧ x ∉ (sccPop n s1.stack s1.onStack []).1
          rw [p1, p2]
          constructor
          · rintro ⟨c, hcm, hxc⟩
            rcases List.mem_append.1 hcm with hcm | hcm
            · obtain ⟨a1, a2⟩ := (h2.wf.cover x).1 ⟨c, hcm, hxc⟩
              exact ⟨a1, fun h => a2 ((hmemst x).2 (.inr h))⟩
            · rw [List.mem_singleton] at hcm
              subst hcm
              refine ⟨(hnumnew x hxc).1, fun h => ?_⟩
              rcases List.mem_append.1 hxc with hx | hx
              · exact (hdis x h).1 hx
              · rw [List.mem_singleton] at hx; exact (hdis x h).2 hx
          · rintro ⟨a1, a2⟩
            by_cases hx : x ∈ new ++ [n]
            · exact ⟨_, List.mem_append_right _ (List.mem_singleton.2 rfl), hx⟩
            · obtain ⟨c, hcm, hxc⟩ := (h2.wf.cover x).2 ⟨a1, fun h => ((hmemst x).1 h).elim hx a2⟩
              exact ⟨c, List.mem_append_left _ hcm, hxc⟩
        · intro c hcm
          rcases List.mem_append.1 hcm with hcm | hcm
          · exact h2.wf.isScc c hcm
          · rw [List.mem_singleton, p2] at hcm
            subst hcm
            intro x hx y
            constructor
            · intro hy
              exact ⟨(hback x hx).trans (hforth y hy), (hback y hy).trans (hforth x hx)⟩
            · rintro ⟨hxy, hyx⟩
              exact hmax y ((hforth x hx).trans hxy) (hyx.trans (hback x hx))
        · show (s1.sccs ++ [(sccPop n s1.stack s1.onStack []).2.2]).flatten.Nodup
          rw [p2, List.flatten_append, List.nodup_append]
          refine ⟨h2.wf.sccNodup, ?_, ?_⟩
          · rw [List.flatten_singleton, List.nodup_append]
            refine ⟨(List.nodup_append.1 hno).1, by simp, ?_⟩
            intro a ha b hb hab
            rw [List.mem_singleton] at hb
            subst hb; subst hab
            exact hnn ha
          · intro a ha b hb hab
            subst hab
            rw [List.flatten_singleton] at hb
            obtain ⟨c, hcm, hac⟩ := List.mem_flatten.1 ha
            exact ((h2.wf.cover a).1 ⟨c, hcm, hac⟩).2 ((hmemst a).2 (.inl hb))
        · intro c hcm
          rcases List.mem_append.1 hcm with hcm | hcm
          · exact h2.wf.sccNe c hcm
          · rw [List.mem_singleton, p2] at hcm
            rw [hcm]; simp
        · intro h
          rw [show (_ : SccSt K).stack = s.stack from p1] at h
          exact absurd h hnst
    · have hlt : s1.lw n < s1.nm n := by
        have : L ≠ i := by rintro rfl; exact hroot (by rw [hL, hi])
        have := h2.lle
        omega
      refine ⟨s1, ?_, ?_⟩
      · unfold sccDfs
        rw [show (sccLoop (sccDfs g f) n (g.nbrs n) _) = some s1 from h1, Option.map_some, if_neg hroot]
      · have hbackn : ∃ x ∈ gray, Star g.Edge n x ∧ s1.nm x ≤ s1.nm n := by
          obtain ⟨y, hy, hy2, hy3⟩ := h2.wit
          obtain ⟨x, hx, hx2, hx3⟩ := h2.wf.back y hy
          rcases List.mem_cons.1 hx with rfl | hx
          · omega
          · exact ⟨x, hx, hy3.trans hx2, by omega⟩
        refine ⟨⟨h2.wf.lt, h2.wf.on, h2.wf.numd, h2.wf.nodup, h2.wf.order, fun x hx => h2.wf.gst x (List.mem_cons_of_mem _ hx), hclosed,
          h2.wf.reach, ?_, h2.wf.cover, h2.wf.isScc, h2.wf.sccNodup, h2.wf.sccNe, h2.wf.keys⟩, hext, hn1, ⟨new ++ [n], by rw [hst]; simp, hedge⟩,
          by rw [hnmn1]; exact Nat.le_refl _, fun _ => h2.wit, fun h => absurd ((hmemst n).2 (.inl (by simp))) h⟩
        intro y hy
        obtain ⟨x, hx, hx2, hx3⟩ := h2.wf.back y hy
        rcases List.mem_cons.1 hx with rfl | hx
        · obtain ⟨z, hz, hz2, hz3⟩ := hbackn
          exact ⟨z, hz, hx2.trans hz2, by omega⟩
        · exact ⟨x, hx, hx2, hx3⟩

theorem sccAll_spec {g : Graph K} (hc : g.Closed) {f : Nat} : ∀ (ns : List K) (s : SccSt K), (∀ n ∈ ns, n ∈ g.keys) → SccWf g s [] →
    sccLeft g s ≤ f → ∃ s', sccAll g f ns s = some s' ∧ SccWf g s' [] ∧ (∀ x, s.Num x → s'.Num x) ∧ ∀ n ∈ ns, s'.Num n
  | [], s, _, hw, _ => ⟨s, rfl, hw, fun _ h => h, by simp⟩
  | n :: ns, s, hn, hw, hf => by
    unfold sccAll
    by_cases h : s.Num n
    · rw [if_pos (Dict.has_iff.2 h)]
      obtain ⟨s', h1, h2, h3, h4⟩ := sccAll_spec hc ns s (fun x hx => hn x (List.mem_cons_of_mem _ hx)) hw hf
      refine ⟨s', h1, h2, h3, fun x hx => ?_⟩
      rcases List.mem_cons.1 hx with rfl | hx
      · exact h3 _ h
      · exact h4 x hx
    · rw [if_neg (by rw [Dict.has_iff]; exact h)]
      obtain ⟨s1, h1, h2⟩ := sccDfs_spec hc f [] n s (hn n (by simp)) h hw (by simp) hf
      rw [h1, Option.bind_some]
      obtain ⟨s', h5, h6, h7, h8⟩ := sccAll_spec hc ns s1 (fun x hx => hn x (List.mem_cons_of_mem _ hx)) h2.wf
        (Nat.le_trans (sccLeft_mono fun x hx => (h2.ext.num x hx).1) hf)
      refine ⟨s', h5, h6, fun x hx => h7 x (h2.ext.num x hx).1, fun x hx => ?_⟩
      rcases List.mem_cons.1 hx with rfl | hx
      · exact h7 _ h2.mem
      · exact h8 x hx

/-- The components found: they cover the graph, do not overlap, and are the classes of mutual reachability. -/
theorem findSccs_spec (le : K → K → Bool) (leL : List K → List K → Bool) (g : Graph K) (hc : g.Closed) :
    ∃ cs, findSccs le leL g = some cs ∧ cs.flatten.Nodup ∧ (∀ x, x ∈ cs.flatten ↔ x ∈ g.keys) ∧ (∀ c ∈ cs, c ≠ []) ∧
      ∀ c ∈ cs, ∀ x ∈ c, ∀ y, y ∈ c ↔ Star g.Edge x y ∧ Star g.Edge y x := by
  have hw : SccWf g (⟨0, [], [], [], [], []⟩ : SccSt K) [] := by
    refine ⟨?_, ?_, ?_, ?_, ?_, ?_, ?_, ?_, ?_, ?_, ?_, ?_, ?_, ?_⟩ <;> simp [SccSt.Num, Dict.keys]
  obtain ⟨s, h1, h2, _, h4⟩ := sccAll_spec hc (f := g.keys.length + 1) g.keys _ (fun _ h => h) hw (by
    have : sccLeft g (⟨0, [], [], [], [], []⟩ : SccSt K) ≤ g.keys.length := List.countP_le_length
    omega)
  have hst : s.stack = [] := by
    cases hs : s.stack with
    | nil => rfl
    | cons a l =>
      obtain ⟨x, hx, _⟩ := h2.back a (by rw [hs]; simp)
      simp at hx
  have hperm := List.mergeSort_perm (s.sccs.map (sorted le)) leL
  have hflat : ((s.sccs.map (sorted le)).mergeSort leL).flatten.Perm s.sccs.flatten := by
    refine hperm.flatten.trans ?_
    generalize s.sccs = l
    induction l with
    | nil => exact .refl _
    | cons c l ih =>
      rw [List.map_cons, List.flatten_cons, List.flatten_cons]
      exact (List.mergeSort_perm c le).append ih
  refine ⟨(s.sccs.map (sorted le)).mergeSort leL, by unfold findSccs; rw [h1]; rfl, hflat.nodup_iff.2 h2.sccNodup, ?_, ?_, ?_⟩
  · intro x
    rw [hflat.mem_iff, List.mem_flatten, h2.cover x, hst]
    exact ⟨fun h => h2.keys x h.1, fun h => ⟨h4 x h, by simp⟩⟩
  · intro c hcm
    obtain ⟨c0, hc0, rfl⟩ := List.mem_map.1 (hperm.mem_iff.1 hcm)
    intro he
    exact h2.sccNe c0 hc0 (List.Perm.eq_nil (he ▸ (List.mergeSort_perm c0 le).symm))
  · intro c hcm x hx y
    obtain ⟨c0, hc0, rfl⟩ := List.mem_map.1 (hperm.mem_iff.1 hcm)
    rw [sorted, (List.mergeSort_perm c0 le).mem_iff] at hx ⊢
    exact h2.isScc c0 hc0 x hx y

end
end Verif
