import Verif.Spec.Eval
import Verif.Proofs.FirmLoad
/-!
Evaluating a table loads the recorded values.
-/
namespace Verif

section
variable {W : World} {s0 : St}

/-- This ref can be unwrapped, to what its id stands for. -/
def LoadsTo (W : World) (s0 : St) (h : String) (r : Ref) : Prop :=
  ∃ t, Prov W h t ∧ RefOK W r t ∧ Firm (Has s0.shapes) r ∧ 0 < W.cfg.fuel

/-- the value an id stands for -/
def StandsFor (W : World) (h : String) (v : Val) : Prop := ∃ t, Prov W h t ∧ v = t.erase

theorem loadObjs_ok (hW : W.Good) (hB : Base W s0) (b : Bool) (hs : List String) (hh : ∀ h ∈ hs, Has s0.shapes h)
    (hf : ∀ h ∈ hs, ∀ t, Prov W h t → t.Flat ∧ t.Fits W.cfg.fuel) :
    Keeps (During W s0) (loadObjs W.cfg b hs) (All2 (fun h p => p.1 = h ∧ LoadsTo W s0 h p.2) hs) (fun _ => False) := by
  refine Keeps.mapM' _ fun h hm => ?_
  refine Keeps.bind ((firm_loadRef hW hB W.cfg.fuel h b).mono (fun _ h => h) (fun _ hc => hc ⟨hh h hm, fun t' ht' => (hf h hm t' ht').2⟩)) (fun r hr => ?_)
  obtain ⟨⟨⟨h1, t', ht'⟩, _⟩, h2⟩ := hr
  have hp : Prov W h t' := h1 ▸ ht'.prov
  exact Keeps.pure ⟨rfl, t', hp, ht', h2 t' hp (hf h hm t' hp).1, (hf h hm t' hp).2.pos⟩

theorem unwrap_loads (hW : W.Good) (hB : Base W s0) {h : String} {r : Ref} (hr : LoadsTo W s0 h r) :
    Keeps (During W s0) (unwrapRef W.cfg r) (StandsFor W h) (fun _ => False) := by
  obtain ⟨t, h1, h2, h3, h4⟩ := hr
  exact (firm_unwrapRef hW hB r t h2).mono (fun _ hv => ⟨t, h1, hv⟩) (fun _ hc => hc ⟨h4, h3⟩)

theorem objs_keys {hs : List String} {objs : Dict String Ref} (h : All2 (fun h (p : String × Ref) => p.1 = h ∧ LoadsTo W s0 h p.2) hs objs) :
    objs.keys = hs := by
  induction h with
  | nil => rfl
  | cons h _ ih => simp only [Dict.keys, List.map_cons] at ih ⊢; rw [h.1, ih]

theorem objs_get {hs : List String} {objs : Dict String Ref} (h : All2 (fun h (p : String × Ref) => p.1 = h ∧ LoadsTo W s0 h p.2) hs objs) {k : String} :
    (k ∈ hs → ∃ r, objs.get? k = some r ∧ LoadsTo W s0 k r) ∧ (k ∉ hs → objs.get? k = none) := by
  induction h with
  | nil => exact ⟨fun h => absurd h (by simp), fun _ => rfl⟩
  | @cons a p as ps h _ ih =>
    obtain ⟨x, r⟩ := p
    obtain ⟨rfl, h2⟩ := h
    by_cases hk : x = k
    · subst hk
      exact ⟨fun _ => ⟨r, by simp [Dict.get?], h2⟩, fun h => absurd (by simp) h⟩
    · have hk' : ¬ k = x := fun h => hk h.symm
      simp only [List.mem_cons, hk', false_or]
      simpa [Dict.get?, hk] using ih

/-- the cells of one column -/
theorem evalAt_ok (hW : W.Good) (hB : Base W s0) {refs : List String} {objs : Dict String Ref}
    (ho : All2 (fun h (p : String × Ref) => p.1 = h ∧ LoadsTo W s0 h p.2) refs objs) {skip : List String} {c : String} (hc : c ∉ skip) {row : TRow}
    (hu : ∀ hs, row.get? c = some hs → (hs ≠ [] ∧ ∀ h ∈ hs, h ∈ refs) ∨ ∀ h ∈ hs, h ∉ refs) :
    Keeps (During W s0) (evalAt W.cfg objs c row) (CellEval (StandsFor W) refs skip c (row.get? c)) (fun _ => False) := by
  unfold evalAt
  cases hr : row.get? c with
  | none => exact Keeps.pure .null
  | some hs =>
    dsimp only
    refine Keeps.bind (q := fun e => CellEval (StandsFor W) refs skip c (some hs) (some e)) ?_ (fun e he => Keeps.pure he)
    rcases hu hs hr with ⟨hne, hall⟩ | hall
    · match hs, hne, hall with
      | [h], _, hall =>
        obtain ⟨r, hg, hl⟩ := (objs_get ho (k := h)).1 (hall h (by simp))
        simp only [evalIds, hg]
        exact Keeps.bind (unwrap_loads hW hB hl) fun v hv => Keeps.pure (.one hc (hall h (by simp)) hv)
      | h :: h' :: hs, _, hall =>
        obtain ⟨r, hg, hl⟩ := (objs_get ho (k := h)).1 (hall h (by simp))
        simp only [evalIds, hg]
        refine Keeps.bind (Keeps.mapM' (R := StandsFor W) _ fun k hk => ?_) fun vs hvs => Keeps.pure (.many hc (by simp) hall hvs)
        obtain ⟨r, hg, hl⟩ := (objs_get ho (k := k)).1 (hall k hk)
        refine Keeps.bind (q := fun r' => r' = r) (Keeps.lift ?_ ?_) (fun r' hr' => hr' ▸ unwrap_loads hW hB hl)
        · intro a ha; simp only [getE, hg] at ha; cases ha; rfl
        · intro a ha; simp only [getE, hg] at ha; cases ha
    · match hs, hall with
      | [], hall => exact Keeps.pure (.calls hall)
      | [h], hall =>
        simp only [evalIds, (objs_get ho (k := h)).2 (hall h (by simp))]
        exact Keeps.pure (.calls hall)
      | h :: h' :: hs, hall =>
        simp only [evalIds, (objs_get ho (k := h)).2 (hall h (by simp))]
        exact Keeps.pure (.calls hall)

theorem evalRows_ok (hW : W.Good) (hB : Base W s0) {refs : List String} {objs : Dict String Ref}
    (ho : All2 (fun h (p : String × Ref) => p.1 = h ∧ LoadsTo W s0 h p.2) refs objs) {t : Table} (hu : t.Uniform refs) :
    Keeps (During W s0) (evalRows W.cfg objs t) (TableEval (StandsFor W) refs [] t.cols t) (fun _ => False) := by
  refine Keeps.mapM' _ fun row hrow => Keeps.mapM' _ fun c hc => ?_
  exact Keeps.bind (evalAt_ok hW hB ho (skip := []) (by simp) (hu row hrow c hc)) fun e he => Keeps.pure ⟨rfl, he⟩

theorem all2_map_self {α β : Type} {R : α → β → Prop} {f : α → β} : ∀ (l : List α), (∀ a ∈ l, R a (f a)) → All2 R l (l.map f)
  | [], _ => .nil
  | a :: l, h => .cons (h a (by simp)) (all2_map_self l fun b hb => h b (List.mem_cons_of_mem _ hb))

theorem all2_get {α β : Type} {R : α → β → Prop} {l : List α} {bs : List β} (h : All2 R l bs) : ∀ (i : Nat) (hi : i < l.length), ∃ b, bs[i]? = some b ∧ R l[i] b := by
  induction h with
  | nil => intro i hi; simp at hi
  | cons h _ ih =>
    intro i hi
    cases i with
    | zero => exact ⟨_, rfl, h⟩
    | succ i =>
      simp only [List.length_cons, Nat.add_lt_add_iff_right] at hi
      obtain ⟨b, h1, h2⟩ := ih i hi
      exact ⟨b, by simpa using h1, by simpa using h2⟩

theorem all2_range {α β : Type} {R : α → β → Prop} : ∀ (l : List α) (f : Nat → β), (∀ i (hi : i < l.length), R l[i] (f i)) →
    All2 R l ((List.range l.length).map f)
  | [], _, _ => .nil
  | a :: l, f, h => by
    rw [List.length_cons, List.range_succ_eq_map, List.map_cons, List.map_map]
    exact .cons (h 0 (by simp)) (all2_range l (f ∘ Nat.succ) fun i hi => by
      have := h (i + 1) (by simpa using hi)
      simpa using this)

theorem evalCols_ok (hW : W.Good) (hB : Base W s0) {refs : List String} {objs : Dict String Ref}
    (ho : All2 (fun h (p : String × Ref) => p.1 = h ∧ LoadsTo W s0 h p.2) refs objs) {t : Table} (hu : t.Uniform refs) (skip : List String) :
    Keeps (During W s0) (evalCols W.cfg objs skip t) (TableEval (StandsFor W) refs skip t.cols t) (fun _ => False) := by
  unfold evalCols
  refine Keeps.bind (q := All2 (fun c (p : String × List (Option ECell)) => p.1 = c ∧
    All2 (fun row e => CellEval (StandsFor W) refs skip c (row.get? c) e) t.rows p.2) t.cols) (Keeps.mapM' _ fun c hc => ?_) ?_
  · refine Keeps.bind (q := All2 (fun (row : TRow) e => CellEval (StandsFor W) refs skip c (row.get? c) e) t.rows) ?_ (fun l hl => Keeps.pure ⟨rfl, hl⟩)
    refine Keeps.ite (fun hs => Keeps.pure (all2_map_self _ fun row _ => ?_)) (fun hs => Keeps.mapM' _ fun row hrow => ?_)
    · cases hr : row.get? c with
      | none => exact .null
      | some hs' => exact .skipped hs
    · exact evalAt_ok hW hB ho hs (hu row hrow c hc)
  · intro cs hcs
    refine Keeps.pure ?_
    unfold TableEval rowsOfCols
    refine all2_range _ _ fun i hi => ?_
    have aux : ∀ (cols : List String) (cs : List (String × List (Option ECell))), All2 (fun c (p : String × List (Option ECell)) => p.1 = c ∧
        All2 (fun row e => CellEval (StandsFor W) refs skip c (row.get? c) e) t.rows p.2) cols cs →
        All2 (fun c (p : String × Option ECell) => p.1 = c ∧ CellEval (StandsFor W) refs skip c (t.rows[i].get? c) p.2) cols
          (cs.map fun p => (p.1, (p.2[i]?).join)) := by
      intro cols cs h
      induction h with
      | nil => exact .nil
      | cons h _ ih =>
        obtain ⟨h1, h2⟩ := h
        obtain ⟨e, h3, h4⟩ := all2_get h2 i hi
        exact .cons ⟨h1, by simpa [h3] using h4⟩ ih
    exact aux _ _ hcs

theorem keptCols_ok {refs : List String} {objs : Dict String Ref} (hk : objs.keys = refs) (b : Bool) (t : Table) :
    KeptCols refs b t (if b then { t with cols := withoutCalls objs t } else t).cols := by
  unfold KeptCols withoutCalls
  rw [hk]
  cases b with
  | false => simp; exact (List.filter_eq_self.2 fun _ _ => rfl).symm
  | true =>
    cases t.rows with
    | nil => simp; exact (List.filter_eq_self.2 fun _ _ => rfl).symm
    | cons row rows =>
      simp only [Bool.true_and]
      apply List.filter_congr
      intro c _
      split <;> simp_all

theorem TableEval.imp {load load' : String → Val → Prop} {refs skip cols : List String} {t : Table} {rows : List ERow}
    (hi : ∀ h ∈ refs, ∀ v, load h v → load' h v) (h : TableEval load refs skip cols t rows) : TableEval load' refs skip cols t rows := by
  refine All2.imp (fun row erow h => All2.imp (fun c p h => ⟨h.1, ?_⟩) h) h
  have h2 := h.2
  revert h2
  generalize row.get? c = x
  generalize p.2 = y
  intro h2
  cases h2 with
  | null => exact .null
  | skipped a => exact .skipped a
  | calls a => exact .calls a
  | one a b d => exact .one a b (hi _ b _ d)
  | many a b d e => exact .many a b d (e.imp_mem fun x hx v _ hv => hi x (d x hx) v hv)

theorem evalDf_ok (hW : W.Good) (hB : Base W s0) {refs : List String} {objs : Dict String Ref}
    (ho : All2 (fun h (p : String × Ref) => p.1 = h ∧ LoadsTo W s0 h p.2) refs objs) {t : Table} (hu : t.Uniform refs) (skip : Option (List String)) (b : Bool) :
    Keeps (During W s0) (evalDf W.cfg objs skip b t)
      (fun a => (KeptCols refs b t a.1) ∧ TableEval (StandsFor W) refs (skip.getD []) a.1 t a.2) (fun _ => False) := by
  unfold evalDf
  have hk := keptCols_ok (objs_keys ho) b t
  refine Keeps.ite (fun h => Keeps.pure ⟨?_, ?_⟩) (fun hne => ?_)
  · simp [KeptCols, h]; exact (List.filter_eq_self.2 fun _ _ => rfl).symm
  · simp only [TableEval, h]; exact .nil
  · have hrows : (if b then { t with cols := withoutCalls objs t } else t).rows = t.rows := by cases b <;> rfl
    have hsub : ∀ c ∈ (if b then { t with cols := withoutCalls objs t } else t).cols, c ∈ t.cols := by
      intro c hc
      rw [hk] at hc
      exact (List.mem_filter.1 hc).1
    revert hk hrows hsub
    generalize (if b then { t with cols := withoutCalls objs t } else t) = t'
    intro hk hrows hsub
    have hu' : t'.Uniform refs := fun row hrow c hc hs hg => hu row (hrows ▸ hrow) c (hsub c hc) hs hg
    have hte : ∀ {sk : List String} {rows : List ERow}, TableEval (StandsFor W) refs sk t'.cols t' rows → TableEval (StandsFor W) refs sk t'.cols t rows := by
      intro sk rows h; unfold TableEval at h ⊢; rw [hrows] at h; exact h
    cases skip with
    | none => exact Keeps.bind (evalRows_ok hW hB ho hu') fun rows hr => Keeps.pure ⟨hk, hte hr⟩
    | some sk => exact Keeps.bind (evalCols_ok hW hB ho hu' sk) fun rows hr => Keeps.pure ⟨hk, hte hr⟩

theorem evalFrame_ok (hW : W.Good) (hB : Base W s0) (f : CFrame) (hc : ∀ h ∈ f.refs.keys, InCalls s0 h)
    (hf : ∀ h ∈ f.refs.keys, ∀ t, Prov W h t → t.Flat ∧ t.Fits W.cfg.fuel) {t : Table} (hu : t.Uniform f.refs.keys)
    (inMem : Bool) (skip : Option (List String)) (b : Bool) :
    ∃ a s', evalFrame W.cfg f inMem skip b t s0 = (.ok a, s') ∧ KeptCols f.refs.keys b t a.1 ∧
      TableEval (fun h v => ∀ b', (loadValue W.cfg h b' s0).1 = .ok v) f.refs.keys (skip.getD []) a.1 t a.2 := by
  have hhas : ∀ h ∈ f.refs.keys, Has s0.shapes h := by
    intro h hm
    obtain ⟨r, hr, rfl⟩ := hc h hm
    exact (hB.whole.rows r hr).1
  have hk : Keeps (During W s0) (evalFrame W.cfg f inMem skip b t)
      (fun a => KeptCols f.refs.keys b t a.1 ∧ TableEval (StandsFor W) f.refs.keys (skip.getD []) a.1 t a.2) (fun _ => False) :=
    Keeps.bind (loadObjs_ok hW hB inMem _ hhas hf) fun objs ho => evalDf_ok hW hB ho hu skip b
  have := hk s0 hB.refl
  cases hm : evalFrame W.cfg f inMem skip b t s0 with
  | mk x s' =>
    rw [hm] at this
    cases x with
    | error e => exact absurd this.2 id
    | ok a =>
      refine ⟨a, s', rfl, this.2.1, this.2.2.imp fun h hh v hv b' => ?_⟩
      obtain ⟨tv, hp, rfl⟩ := hv
      exact load_unwrap hW hB hp (hhas h hh) (hf h hh tv hp).1 (hf h hh tv hp).2 b'

end
end Verif
