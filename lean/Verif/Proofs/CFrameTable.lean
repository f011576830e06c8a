import Verif.Spec.FrameTable
import Verif.Proofs.CFrameBuild
import Verif.Props.FrameHistory
import Verif.Props.NodeOrder
import Verif.Basic.ListRel
/-!
Tables: cells, joins, and the history of a variable.
-/
namespace Verif

open Props CFrame

/-! ### cells -/

theorem insName_sorted {x : String} {l : List String} (h : l.Pairwise (· ≤ ·)) : (insName x l).Pairwise (· ≤ ·) := by
  induction l with
  | nil => simp [insName]
  | cons y l ih =>
    unfold insName
    have hh := List.pairwise_cons.1 h
    split
    · rename_i hxy
      refine List.pairwise_cons.2 ⟨fun z hz => ?_, h⟩
      rcases List.mem_cons.1 hz with rfl | hz
      · exact hxy
      · exact String.le_trans hxy (hh.1 z hz)
    · rename_i hxy
      refine List.pairwise_cons.2 ⟨fun z hz => ?_, ih hh.2⟩
      rcases List.mem_cons.1 ((insName_perm x l).mem_iff.1 hz) with rfl | hz
      · exact (String.le_total z y).resolve_left hxy
      · exact hh.1 z hz

theorem sortNames_sorted (l : List String) : (sortNames l).Pairwise (· ≤ ·) := by
  induction l with
  | nil => exact List.Pairwise.nil
  | cons x l ih => exact insName_sorted ih

theorem isCell_cellOf {P : String → Prop} {hids : List String} (h : ∀ x, x ∈ hids ↔ P x) (hne : ∃ x, P x) : IsCell P (some (cellOf hids)) := by
  refine ⟨hne, nodup_sortNames (PySet.nodup_ofList _), sortNames_sorted _, fun x => ?_⟩
  rw [cellOf, mem_sortNames, PySet.mem_ofList]
  exact h x

theorem isCell_unique {P : String → Prop} : ∀ {a b : Option (List String)}, IsCell P a → IsCell P b → a = b
  | none, none, _, _ => rfl
  | none, some _, ha, hb => by obtain ⟨⟨x, hx⟩, _⟩ := hb; exact absurd hx (ha x)
  | some _, none, ha, hb => by obtain ⟨⟨x, hx⟩, _⟩ := ha; exact absurd hx (hb x)
  | some a, some b, ha, hb => by
    obtain ⟨_, a1, a2, a3⟩ := ha
    obtain ⟨_, b1, b2, b3⟩ := hb
    have hp : a.Perm b := (List.perm_ext_iff_of_nodup a1 b1).2 fun x => (a3 x).trans (b3 x).symm
    rw [hp.eq_of_pairwise (fun _ _ _ _ h1 h2 => String.le_antisymm h1 h2) a2 b2]

theorem isCell_congr {P Q : String → Prop} (h : ∀ x, P x ↔ Q x) {a : Option (List String)} : IsCell P a ↔ IsCell Q a := by
  have : P = Q := funext fun x => propext (h x)
  rw [this]

/-! ### joins -/

/-- Rows have entries in the columns of their table only. -/
def Table.Fits (t : Table) : Prop := ∀ r ∈ t.rows, ∀ k ∈ r.keys, k ∈ t.cols

theorem Table.Fits.none {t : Table} (h : t.Fits) {r : TRow} (hr : r ∈ t.rows) {k : String} (hk : k ∉ t.cols) : r.get? k = none :=
  Dict.get?_eq_none.2 fun hm => hk (h r hr k hm)

theorem rowsAgree_iff {on : List String} {a b : TRow} : rowsAgree on a b = true ↔ ∀ k ∈ on, a.get? k = b.get? k := by
  simp [rowsAgree]

theorem get?_filter_keys {V : Type} (d : Dict String V) (p : String → Prop) [DecidablePred p] (k : String) :
    Dict.get? (d.filter fun e => decide (p e.1)) k = if p k then d.get? k else none := by
  induction d with
  | nil => simp
  | cons e d ih =>
    rw [List.filter_cons]
    by_cases he : p e.1
    · rw [if_pos (by simpa using he), Dict.get?_cons, Dict.get?_cons, ih]
      by_cases hk : e.1 = k
      · subst hk; simp [he]
      · simp [hk]
    · rw [if_neg (by simpa using he), ih, Dict.get?_cons]
      by_cases hk : e.1 = k
      · subst hk; simp [he]
      · simp [hk]

theorem get?_joinRow_left {l r : Table} (hr : r.Fits) {a b : TRow} (hb : b ∈ r.rows) {k : String} (hk : k ∈ l.cols) :
    (joinRow (l.cols.filter (· ∈ r.cols)) a b).get? k = a.get? k := by
  unfold joinRow
  rw [Dict.get?_append]
  cases ha : a.get? k with
  | some x => rfl
  | none =>
    show Dict.get? _ k = none
    rw [get?_filter_keys b (fun x => x ∉ l.cols.filter (· ∈ r.cols)) k]
    split
    · rename_i hn
      by_cases hkr : k ∈ r.cols
      · exact absurd (List.mem_filter.2 ⟨hk, by simpa using hkr⟩) hn
      · exact hr.none hb hkr
    · rfl

theorem get?_joinRow_right {l r : Table} (hl : l.Fits) {a b : TRow} (ha : a ∈ l.rows) {k : String} (hk : k ∈ r.cols) (hab : rowsAgree (l.cols.filter (· ∈ r.cols)) a b = true) :
    (joinRow (l.cols.filter (· ∈ r.cols)) a b).get? k = b.get? k := by
  unfold joinRow
  rw [Dict.get?_append, get?_filter_keys b (fun x => x ∉ l.cols.filter (· ∈ r.cols)) k]
  by_cases hkl : k ∈ l.cols
  · have hon : k ∈ l.cols.filter (· ∈ r.cols) := List.mem_filter.2 ⟨hkl, by simpa using hk⟩
    rw [if_neg (by simpa using hon), rowsAgree_iff.1 hab k hon]
    cases b.get? k <;> rfl
  · rw [hl.none ha hkl, if_pos (fun h => hkl (List.mem_filter.1 h).1)]
    rfl

theorem mem_keys_joinRow {a b : TRow} {on : List String} {k : String} (hk : k ∈ Dict.keys (joinRow on a b)) : k ∈ a.keys ∨ k ∈ b.keys := by
  obtain ⟨e, he, rfl⟩ := List.mem_map.1 hk
  rcases List.mem_append.1 he with he | he
  · exact .inl (List.mem_map.2 ⟨e, he, rfl⟩)
  · exact .inr (List.mem_map.2 ⟨e, (List.mem_filter.1 he).1, rfl⟩)

theorem merge_ok {how : Join} {l r t : Table} (h : l.merge how r = .ok t) :
    (∃ k, k ∈ l.cols ∧ k ∈ r.cols) ∧ (∀ k, k ∈ t.cols ↔ k ∈ l.cols ∨ k ∈ r.cols) ∧
    ∀ row, row ∈ t.rows ↔ (∃ a ∈ l.rows, ∃ b ∈ r.rows, rowsAgree (l.cols.filter (· ∈ r.cols)) a b = true ∧ row = joinRow (l.cols.filter (· ∈ r.cols)) a b) ∨
      (how = .outer ∧ ((row ∈ l.rows ∧ ∀ b ∈ r.rows, rowsAgree (l.cols.filter (· ∈ r.cols)) row b = false) ∨
        (row ∈ r.rows ∧ ∀ a ∈ l.rows, rowsAgree (l.cols.filter (· ∈ r.cols)) a row = false))) := by
  unfold Table.merge at h
  simp only at h
  split at h
  · cases h
  · rename_i hon
    cases h
    refine ⟨?_, ?_, ?_⟩
    · obtain ⟨k, hk⟩ := List.exists_mem_of_ne_nil _ hon
      exact ⟨k, (List.mem_filter.1 hk).1, by simpa using (List.mem_filter.1 hk).2⟩
    · intro k
      simp only [List.mem_append, List.mem_filter, decide_eq_true_eq]
      constructor
      · rintro (h | h)
        · exact .inl h
        · exact .inr h.1
      · rintro (h | h)
        · exact .inl h
        · by_cases hk : k ∈ l.cols
          · exact .inl hk
          · exact .inr ⟨h, fun hh => hk hh.1⟩
    · intro row
      rw [List.mem_append]
      refine or_congr ?_ ?_
      · simp only [List.mem_flatMap, List.mem_map, List.mem_filter]
        constructor
        · rintro ⟨a, ha, b, ⟨hb, hab⟩, rfl⟩
          exact ⟨a, ha, b, hb, hab, rfl⟩
        · rintro ⟨a, ha, b, hb, hab, rfl⟩
          exact ⟨a, ha, b, ⟨hb, hab⟩, rfl⟩
      · cases how
        · simp
        · simp only [List.mem_append, List.mem_filter, Bool.not_eq_true', List.any_eq_false, Bool.not_eq_true, true_and]

theorem merge_total {how : Join} {l r : Table} (h : ∃ k, k ∈ l.cols ∧ k ∈ r.cols) : ∃ t, l.merge how r = .ok t := by
  obtain ⟨k, h1, h2⟩ := h
  unfold Table.merge
  simp only
  rw [if_neg]
  · exact ⟨_, rfl⟩
  · intro hn
    have : k ∈ l.cols.filter (· ∈ r.cols) := List.mem_filter.2 ⟨h1, by simpa using h2⟩
    rw [hn] at this
    cases this

theorem merge_none {how : Join} {l r : Table} (h : ∀ k, k ∈ l.cols → k ∉ r.cols) : l.merge how r = .error .indexError := by
  unfold Table.merge
  simp only
  rw [if_pos]
  rw [List.filter_eq_nil_iff]
  intro k hk
  simpa using h k hk

theorem merge_fits {how : Join} {l r t : Table} (hl : l.Fits) (hr : r.Fits) (h : l.merge how r = .ok t) : t.Fits := by
  obtain ⟨_, hc, hrow⟩ := merge_ok h
  intro row hm k hk
  rw [hc]
  rcases (hrow row).1 hm with ⟨a, ha, b, hb, _, rfl⟩ | ⟨_, ⟨hm, _⟩ | ⟨hm, _⟩⟩
  · rcases mem_keys_joinRow hk with h | h
    · exact .inl (hl a ha k h)
    · exact .inr (hr b hb k h)
  · exact .inl (hl row hm k hk)
  · exact .inr (hr row hm k hk)

/-- The row agrees with `r` in the columns of `t`. -/
def RowExt (t : Table) (r row : TRow) : Prop := ∀ k ∈ t.cols, row.get? k = r.get? k

/-- What the join of the tables `T v`, for `v` in `vs`, is. -/
structure JoinOf (how : Join) (T : String → Table) (vs : List String) (t : Table) : Prop where
  fits : t.Fits
  cols : ∀ k, k ∈ t.cols ↔ ∃ v ∈ vs, k ∈ (T v).cols
  sound : ∀ row ∈ t.rows, ∃ chosen : List (String × TRow), chosen ≠ [] ∧ (∀ p ∈ chosen, p.1 ∈ vs ∧ p.2 ∈ (T p.1).rows ∧ RowExt (T p.1) p.2 row) ∧
    (∀ k, row.get? k ≠ none → ∃ p ∈ chosen, k ∈ (T p.1).cols) ∧ (how = .inner → ∀ v ∈ vs, ∃ p ∈ chosen, p.1 = v)
  outer : how = .outer → ∀ v ∈ vs, ∀ r ∈ (T v).rows, ∃ row ∈ t.rows, RowExt (T v) r row
  inner : ∀ g : String → Option (List String), (∀ v ∈ vs, ∃ r ∈ (T v).rows, ∀ k ∈ (T v).cols, g k = r.get? k) → ∃ row ∈ t.rows, ∀ k ∈ t.cols, g k = row.get? k

theorem joinOf_one {how : Join} {T : String → Table} {v : String} (h : (T v).Fits) : JoinOf how T [v] (T v) where
  fits := h
  cols := by simp
  sound row hm := ⟨[(v, row)], by simp, by simp only [List.mem_singleton, forall_eq]; exact ⟨trivial, hm, fun _ _ => rfl⟩,
    fun k hk => ⟨(v, row), by simp, by
      by_cases hc : k ∈ (T v).cols
      · exact hc
      · exact absurd (h.none hm hc) hk⟩, fun _ w hw => ⟨(v, row), by simp, (List.mem_singleton.1 hw).symm⟩⟩
  outer _ w hw r hr := by
    rw [List.mem_singleton] at hw
    subst hw
    exact ⟨r, hr, fun _ _ => rfl⟩
  inner g hg := by
    obtain ⟨r, hr, he⟩ := hg v (by simp)
    exact ⟨r, hr, he⟩

theorem joinOf_merge {how : Join} {T : String → Table} {vs : List String} {t t' : Table} {v : String} (J : JoinOf how T vs t) (hv : (T v).Fits)
    (h : t.merge how (T v) = .ok t') : JoinOf how T (vs ++ [v]) t' := by
  obtain ⟨_, hc, hrow⟩ := merge_ok h
  have hsub : ∀ w ∈ vs, ∀ k ∈ (T w).cols, k ∈ t.cols := fun w hw k hk => (J.cols k).2 ⟨w, hw, hk⟩
  refine ⟨merge_fits J.fits hv h, ?_, ?_, ?_, ?_⟩
  · intro k
    rw [hc, J.cols]
    simp only [List.mem_append, List.mem_singleton]
    constructor
    · rintro (⟨w, hw, hk⟩ | hk)
      · exact ⟨w, .inl hw, hk⟩
      · exact ⟨v, .inr rfl, hk⟩
    · rintro ⟨w, hw | rfl, hk⟩
      · exact .inl ⟨w, hw, hk⟩
      · exact .inr hk
  · intro row hm
    rcases (hrow row).1 hm with ⟨a, ha, b, hb, hab, rfl⟩ | ⟨ho, ⟨hm, _⟩ | ⟨hm, _⟩⟩
    · obtain ⟨ch, h1, h2, h3, h4⟩ := J.sound a ha
      refine ⟨ch ++ [(v, b)], by simp, ?_, ?_, ?_⟩
      · intro p hp
        rcases List.mem_append.1 hp with hp | hp
        · obtain ⟨g1, g2, g3⟩ := h2 p hp
          refine ⟨List.mem_append.2 (.inl g1), g2, fun k hk => ?_⟩
          rw [get?_joinRow_left hv hb (hsub _ g1 k hk)]
          exact g3 k hk
        · rw [List.mem_singleton] at hp
          subst hp
          exact ⟨by simp, hb, fun k hk => get?_joinRow_right J.fits ha hk hab⟩
      · intro k hk
        by_cases hkv : k ∈ (T v).cols
        · exact ⟨(v, b), by simp, hkv⟩
        · have : a.get? k ≠ none := by
            by_cases hkt : k ∈ t.cols
            · rwa [get?_joinRow_left hv hb hkt] at hk
            · intro _
              apply hk
              unfold joinRow
              rw [Dict.get?_append, J.fits.none ha hkt, get?_filter_keys b (fun x => x ∉ t.cols.filter (· ∈ (T v).cols)) k, hv.none hb hkv]
              split <;> rfl
          obtain ⟨p, hp, hpk⟩ := h3 k this
          exact ⟨p, List.mem_append.2 (.inl hp), hpk⟩
      · intro hi w hw
        rcases List.mem_append.1 hw with hw | hw
        · obtain ⟨p, hp, he⟩ := h4 hi w hw
          exact ⟨p, List.mem_append.2 (.inl hp), he⟩
        · exact ⟨(v, b), by simp, (List.mem_singleton.1 hw).symm⟩
    · obtain ⟨ch, h1, h2, h3, h4⟩ := J.sound row hm
      refine ⟨ch, h1, fun p hp => ⟨List.mem_append.2 (.inl (h2 p hp).1), (h2 p hp).2⟩, h3, fun hi => ?_⟩
      rw [hi] at ho
      cases ho
    · refine ⟨[(v, row)], by simp, ?_, ?_, fun hi => ?_⟩
      · intro p hp
        rw [List.mem_singleton] at hp
        subst hp
        exact ⟨by simp, hm, fun _ _ => rfl⟩
      · intro k hk
        refine ⟨(v, row), by simp, ?_⟩
        by_cases hc : k ∈ (T v).cols
        · exact hc
        · exact absurd (hv.none hm hc) hk
      · rw [hi] at ho
        cases ho
  · intro ho w hw r hr
    rcases List.mem_append.1 hw with hw | hw
    · obtain ⟨a, ha, he⟩ := J.outer ho w hw r hr
      by_cases hx : ∃ b ∈ (T v).rows, rowsAgree (t.cols.filter (· ∈ (T v).cols)) a b = true
      · obtain ⟨b, hb, hab⟩ := hx
        refine ⟨_, (hrow _).2 (.inl ⟨a, ha, b, hb, hab, rfl⟩), fun k hk => ?_⟩
        rw [get?_joinRow_left hv hb (hsub w hw k hk)]
        exact he k hk
      · refine ⟨a, (hrow a).2 (.inr ⟨ho, .inl ⟨ha, fun b hb => ?_⟩⟩), he⟩
        cases hab : rowsAgree (t.cols.filter (· ∈ (T v).cols)) a b with
        | false => rfl
        | true => exact absurd ⟨b, hb, hab⟩ hx
    · rw [List.mem_singleton] at hw
      subst hw
      by_cases hx : ∃ a ∈ t.rows, rowsAgree (t.cols.filter (· ∈ (T w).cols)) a r = true
      · obtain ⟨a, ha, hab⟩ := hx
        exact ⟨_, (hrow _).2 (.inl ⟨a, ha, r, hr, hab, rfl⟩), fun k hk => get?_joinRow_right J.fits ha hk hab⟩
      · refine ⟨r, (hrow r).2 (.inr ⟨ho, .inr ⟨hr, fun a ha => ?_⟩⟩), fun _ _ => rfl⟩
        cases hab : rowsAgree (t.cols.filter (· ∈ (T w).cols)) a r with
        | false => rfl
        | true => exact absurd ⟨a, ha, hab⟩ hx
  · intro g hall
    obtain ⟨a, ha, hea⟩ := J.inner g fun w hw => hall w (List.mem_append.2 (.inl hw))
    obtain ⟨b, hb, heb⟩ := hall v (by simp)
    have hab : rowsAgree (t.cols.filter (· ∈ (T v).cols)) a b = true := by
      rw [rowsAgree_iff]
      intro k hk
      obtain ⟨k1, k2⟩ := List.mem_filter.1 hk
      rw [← hea k k1, ← heb k (by simpa using k2)]
    refine ⟨_, (hrow _).2 (.inl ⟨a, ha, b, hb, hab, rfl⟩), fun k hk => ?_⟩
    rcases (hc k).1 hk with h | h
    · rw [get?_joinRow_left hv hb h]
      exact hea k h
    · rw [get?_joinRow_right J.fits ha h hab]
      exact heb k h

theorem joinOf_fold {how : Join} {T : String → Table} (hT : ∀ v, (T v).Fits) : ∀ (ws vs : List String) (t t' : Table), JoinOf how T vs t →
    (ws.map T).foldlM (Table.merge how) t = .ok t' → JoinOf how T (vs ++ ws) t' := by
  intro ws
  induction ws with
  | nil =>
    intro vs t t' J h
    cases h
    simpa using J
  | cons w ws ih =>
    intro vs t t' J h
    rw [List.map_cons, List.foldlM_cons] at h
    cases hm : t.merge how (T w) with
    | error e => rw [hm] at h; cases h
    | ok t1 =>
      rw [hm] at h
      have := ih (vs ++ [w]) t1 t' (joinOf_merge J (hT w) hm) h
      simpa [List.append_assoc] using this

theorem join_fold_total {how : Join} {T : String → Table} (hT : ∀ v, (T v).Fits) {k : String} : ∀ (ws vs : List String) (t : Table), JoinOf how T vs t →
    k ∈ t.cols → (∀ w ∈ ws, k ∈ (T w).cols) → ∃ t', (ws.map T).foldlM (Table.merge how) t = .ok t' := by
  intro ws
  induction ws with
  | nil => intro vs t _ _ _; exact ⟨t, rfl⟩
  | cons w ws ih =>
    intro vs t J hk hw
    obtain ⟨t1, h1⟩ := merge_total (how := how) (l := t) (r := T w) ⟨k, hk, hw w (by simp)⟩
    have hk1 : k ∈ t1.cols := ((merge_ok h1).2.1 k).2 (.inl hk)
    obtain ⟨t2, h2⟩ := ih (vs ++ [w]) t1 (joinOf_merge J (hT w) h1) hk1 fun x hx => hw x (by simp [hx])
    refine ⟨t2, ?_⟩
    rw [List.map_cons, List.foldlM_cons, h1]
    exact h2

/-! ### sorting the columns -/

theorem nodup_nodes (f : CFrame) : f.nodes.Nodup := PySet.nodup_union (PySet.nodup_ofList _) _

theorem sortIn_ok {po : PyOrd} (hpo : po.Ok) {f : CFrame} (G : GraphWf f) (which : List String) :
    ∃ l, f.sortIn po which = .ok l ∧ l.Nodup ∧ ∀ x, x ∈ l ↔ (f.IsVar x ∨ f.IsFunc x) ∧ x ∈ which := by
  have hp := hpo.set f.nodes
  have hk : (f.outLists po).keys = po.set f.nodes := keys_mapKeys _ _
  obtain ⟨l, l', _, h2, _, h3, h4⟩ := C46_sort_nodes po.le po.leL (po.set f.nodes) (f.outLists po)
    (hp.nodup_iff.2 (nodup_nodes f)) (by rw [hk]; exact hp.nodup_iff.2 (nodup_nodes f)) (by rw [hk]; exact fun _ h => h)
    (by
      intro e he
      obtain ⟨q, hq, he⟩ := List.mem_flatMap.1 he
      obtain ⟨n, _, rfl⟩ := List.mem_map.1 hq
      obtain ⟨d, hd, rfl⟩ := List.mem_map.1 he
      obtain ⟨ds, hds, hd⟩ := List.mem_flatten.1 hd
      obtain ⟨q, hq, rfl⟩ := List.mem_map.1 hds
      obtain ⟨l, _, rfl⟩ := List.mem_map.1 hq
      have : f.HasEdge n d l := inAdj_getOr.1 (mem_getOr.1 ((hpo.set _).mem_iff.1 hd))
      refine hp.mem_iff.2 (mem_nodes.2 ?_)
      rcases G.bip _ _ _ this with h | h
      · exact .inr h.2
      · exact .inl h.2) which
  refine ⟨l', by unfold sortIn; rw [h2]; rfl, h3, fun x => (h4 x).trans ?_⟩
  rw [hp.mem_iff, mem_nodes]

theorem sortTable_ok {po : PyOrd} (hpo : po.Ok) {f : CFrame} (G : GraphWf f) {t : Table} (ht : ∀ k ∈ t.cols, f.IsVar k ∨ f.IsFunc k) :
    ∃ t', f.sortTable po t = .ok t' ∧ t'.rows = t.rows ∧ t'.cols.Nodup ∧ ∀ k, k ∈ t'.cols ↔ k ∈ t.cols := by
  obtain ⟨l, h1, h2, h3⟩ := sortIn_ok hpo G t.cols
  refine ⟨{ t with cols := l }, ?_, rfl, h2, fun k => (h3 k).trans ⟨fun h => h.2, fun h => ⟨ht k h, h⟩⟩⟩
  unfold sortTable
  rw [if_pos (PySet.subset_iff.2 fun k hk => mem_nodes.2 (ht k hk)), h1]
  rfl

/-! ### the history of one value -/

/-- No entry is empty. -/
def Full (d : SetDict) : Prop := ∀ k ∈ d.keys, ∃ x, InSet d k x

section
variable {R : FCall → Prop} {f : CFrame}

theorem full_union {a b : SetDict} (ha : Full a) (hb : Full b) : Full (setdictUnion a b) := by
  intro k hk
  rcases ((C55_setdict_union_intersection a b).2.1 k).1 hk with h | h
  · obtain ⟨x, hx⟩ := ha k h
    exact ⟨x, inSet_union.2 (.inl hx)⟩
  · obtain ⟨x, hx⟩ := hb k h
    exact ⟨x, inSet_union.2 (.inr hx)⟩

theorem total_full (hR : RecOk R) (H : Wf R f) (hL : f.LabelsOk) {ord : SetDict → List String} (ho : ∀ d k, k ∈ ord d → k ∈ d.keys) (inc : Bool) :
    ∀ (fuel : Nat) (v : String) (hids : List String) (result : Option SetDict) (r : SetDict), f.IsVar v → hids ≠ [] →
      (∀ r0, result = some r0 → Full r0) → f.totalHistory ord inc fuel v hids result = .ok r → Full r := by
  intro fuel
  induction fuel with
  | zero => intro v hids result r _ _ _ h; cases h
  | succ n ih =>
    intro v hids result r hv hne hres h
    rw [totalHistory_succ] at h
    obtain ⟨d, hd, hdi, hdk⟩ := directHistory_spec hR H hL hv hids inc
    rw [hd] at h
    have hfd : Full d := by
      intro k hk
      rcases (hdk k).1 hk with rfl | ⟨x, hx⟩
      · obtain ⟨h0, hh0⟩ := List.exists_mem_of_ne_nil _ hne
        exact ⟨h0, (hdi _ _).2 (.inl ⟨rfl, hh0⟩)⟩
      · exact ⟨x, (hdi _ _).2 (.inr hx)⟩
    have hloop : ∀ (ks : List String) (t : SetDict), (∀ k ∈ ks, k ∈ d.keys) → Full t → ∀ r,
        ks.foldlM (historyLoop f d fun k hs t => f.totalHistory ord inc n k hs (some t)) t = .ok r → Full r := by
      intro ks
      induction ks with
      | nil => intro t _ ht r hr; cases hr; exact ht
      | cons k ks ihk =>
        intro t hks ht r hr
        rw [List.foldlM_cons] at hr
        by_cases hk : k ∈ f.vs.keys
        · have hst : historyLoop f d (fun k hs t => f.totalHistory ord inc n k hs (some t)) t k =
              (f.totalHistory ord inc n k (getOr d k) (some t)).bind fun r => .ok (setdictUnion t r) := by
            unfold historyLoop
            rw [if_pos hk]
            rfl
          rw [hst] at hr
          cases hrec : f.totalHistory ord inc n k (getOr d k) (some t) with
          | error e => rw [hrec] at hr; cases hr
          | ok r1 =>
            rw [hrec] at hr
            obtain ⟨x, hx⟩ := hfd k (hks k (by simp))
            have h1 : Full r1 := ih k (getOr d k) (some t) r1 hk (List.ne_nil_of_mem (mem_getOr.2 hx)) (fun r0 h0 => by cases h0; exact ht) hrec
            exact ihk _ (fun k hk => hks k (by simp [hk])) (full_union ht h1) r hr
        · have hst : historyLoop f d (fun k hs t => f.totalHistory ord inc n k hs (some t)) t k = .ok t := by
            unfold historyLoop
            rw [if_neg hk]
          rw [hst] at hr
          exact ihk _ (fun k hk => hks k (by simp [hk])) ht r hr
    change (match result.filter (isSubobject d) with
      | some r => Except.ok r
      | none => (ord d).foldlM (historyLoop f d fun k hs t => f.totalHistory ord inc n k hs (some t)) d) = .ok r at h
    cases hf : result.filter (isSubobject d) with
    | some r1 =>
      rw [hf] at h
      cases h
      exact hres _ (Option.filter_eq_some_iff.1 hf).1
    | none =>
      rw [hf] at h
      exact hloop _ _ (ho d) hfd r h

/-- What a value is made from is in the frame. -/
theorem past_inside (H : Wf R f) {inc : Bool} {v h k x : String} (hv : f.HasRef v h) (hp : f.Past inc v h k x) :
    f.HasRef k x ∨ (inc = true ∧ f.HasCall k x) := by
  refine hp.closed (P := fun b => f.HasRef b.1 b.2 ∨ (inc = true ∧ f.HasCall b.1 b.2)) (.inl hv) ?_
  intro a b _ hab
  cases hab with
  | input hm hp he =>
    obtain ⟨_, hc, hn, _⟩ := hm
    exact .inl (H.ins _ _ _ _ hp ⟨hn, hc, (H.graph.sym _ _ _).1 he⟩).1
  | call hm hi => exact .inr ⟨hi, hm.2.2.1⟩

theorem historyCells_ok {V : Type} {names : List String} {objs : Dict String V} {t : SetDict}
    (h : ∀ k ∈ names, ∀ x, InSet t k x → x ∈ objs.keys) :
    ∃ r, historyCells names objs t = .ok r ∧ r.keys.Nodup ∧
      ∀ k, r.get? k = if k ∈ names ∧ k ∈ t.keys then some (cellOf (getOr t k)) else none := by
  have hm : ((PySet.ofList t.keys).filter (· ∈ names)).mapM (fun k => do
      let _ ← pick objs (getOr t k)
      (.ok (k, cellOf (getOr t k)) : Except Err (String × List String))) = .ok (((PySet.ofList t.keys).filter (· ∈ names)).map fun k => (k, cellOf (getOr t k))) := by
    refine mapM_ok fun k hk => ?_
    obtain ⟨_, hkn⟩ := List.mem_filter.1 hk
    obtain ⟨e, he⟩ := pick_total (d := objs) (ks := getOr t k) fun x hx => h k (by simpa using hkn) x (mem_getOr.1 hx)
    rw [he]
    rfl
  refine ⟨_, hm, ?_, fun k => ?_⟩
  · rw [keys_mapKeys]
    exact (PySet.nodup_ofList _).filter _
  · rw [get?_mapKeys]
    simp only [List.mem_filter, PySet.mem_ofList, decide_eq_true_eq]
    by_cases h1 : k ∈ t.keys <;> by_cases h2 : k ∈ names <;> simp [h1, h2]

theorem historyRow_ok (hR : RecOk R) (H : Wf R f) (hL : f.LabelsOk) {po : PyOrd} (hpo : po.Ok) {inc : Bool} {fuel : Nat} {v h : String}
    (hv : f.HasRef v h) (hend : ∃ r, f.totalHistory po.dict inc fuel v [h] none = .ok r) :
    ∃ row, f.historyRow po inc fuel v h = .ok row ∧ f.IsRowOf inc v h row := by
  obtain ⟨t, ht⟩ := hend
  have hvar : f.IsVar v := hv.key
  have hset : ∀ k x, InSet t k x ↔ f.Past inc v h k x := by
    intro k x
    have := C45_total_history hR H hL (fun d k => (hpo.dict d k).2) inc hvar ht k x
    rw [this]
    simp [Past]
  have hfull : Full t := total_full hR H hL (fun d k => (hpo.dict d k).1) inc fuel v [h] none t hvar (by simp) (fun _ h => nomatch h) ht
  have hin : ∀ k x, InSet t k x → f.HasRef k x ∨ (inc = true ∧ f.HasCall k x) := fun k x hx => past_inside H hv ((hset k x).1 hx)
  have hdisj := H.graph.disj
  obtain ⟨rs, h1, _, h3⟩ := historyCells_ok (names := f.vs.keys) (objs := f.refs) (t := t) fun k hk x hx => by
    rcases hin k x hx with h | ⟨_, h⟩
    · exact (H.ref.refs x).2 ⟨k, h⟩
    · exact absurd h.key (hdisj k hk)
  obtain ⟨cs, h4, h5, h6⟩ := historyCells_ok (names := f.fs.keys) (objs := f.calls) (t := t) fun k hk x hx => by
    rcases hin k x hx with h | ⟨_, h⟩
    · exact absurd hk (hdisj k h.key)
    · exact (H.call.calls x).2 ⟨k, h⟩
  have hcell : ∀ k, k ∈ t.keys → IsCell (f.Past inc v h k) (some (cellOf (getOr t k))) := by
    intro k hk
    obtain ⟨x, hx⟩ := hfull k hk
    exact isCell_cellOf (fun y => mem_getOr.trans (hset k y)) ⟨x, (hset k x).1 hx⟩
  have hnone : ∀ k, k ∉ t.keys → IsCell (f.Past inc v h k) none := fun k hk x hx => hk ((hset k x).2 hx).key
  cases inc with
  | false =>
    refine ⟨rs, ?_, fun k => ?_⟩
    · unfold historyRow
      rw [ht]
      show (historyCells f.vs.keys f.refs t >>= fun rs => _) = _
      rw [h1]
      rfl
    · rw [h3]
      by_cases hk : k ∈ t.keys
      · have : k ∈ f.vs.keys := by
          obtain ⟨x, hx⟩ := hfull k hk
          rcases hin k x hx with h | ⟨h, _⟩
          · exact h.key
          · cases h
        rw [if_pos ⟨this, hk⟩]
        exact hcell k hk
      · rw [if_neg fun h => hk h.2]
        exact hnone k hk
  | true =>
    refine ⟨rs.update cs, ?_, fun k => ?_⟩
    · unfold historyRow
      rw [ht]
      show (historyCells f.vs.keys f.refs t >>= fun rs => _) = _
      rw [h1]
      show (historyCells f.fs.keys f.calls t >>= fun cs => _) = _
      rw [h4]
      rfl
    · rw [Dict.get?_update _ _ h5, h6, h3]
      by_cases hk : k ∈ t.keys
      · obtain ⟨x, hx⟩ := hfull k hk
        rcases hin k x hx with h | ⟨_, h⟩
        · rw [if_neg fun hh => hdisj k h.key hh.1, if_pos ⟨h.key, hk⟩]
          exact hcell k hk
        · rw [if_pos ⟨h.key, hk⟩]
          exact hcell k hk
      · rw [if_neg fun h => hk h.2, if_neg fun h => hk h.2]
        exact hnone k hk

/-- The history of a variable: a row for each of its values. -/
theorem historyTable_ok (hR : RecOk R) (H : Wf R f) (hL : f.LabelsOk) {po : PyOrd} (hpo : po.Ok) {inc : Bool} {fuel : Nat} {v : String}
    (hv : f.IsVar v) (hend : ∀ h, f.HasRef v h → ∃ r, f.totalHistory po.dict inc fuel v [h] none = .ok r) :
    ∃ (t : Table) (hs : List String), f.historyTable po inc fuel v = .ok t ∧ t.Fits ∧ t.cols.Nodup ∧ (∀ k, k ∈ t.cols ↔ f.PastNode inc v k) ∧
      hs.Nodup ∧ (∀ h, h ∈ hs ↔ f.HasRef v h) ∧ All2 (f.IsRowOf inc v) hs t.rows := by
  obtain ⟨s, hs⟩ := Dict.mem_keys.1 hv
  have hmem : ∀ h, h ∈ PySet.ofList s ↔ f.HasRef v h := fun h =>
    PySet.mem_ofList.trans ⟨fun hh => ⟨s, hs, hh⟩, fun ⟨s', h1, h2⟩ => by rw [hs] at h1; cases h1; exact h2⟩
  have hrows : ∀ l : List String, (∀ h ∈ l, f.HasRef v h) → ∃ rows, l.mapM (f.historyRow po inc fuel v) = .ok rows ∧ All2 (f.IsRowOf inc v) l rows := by
    intro l
    induction l with
    | nil => intro _; exact ⟨[], rfl, .nil⟩
    | cons h l ih =>
      intro hl
      obtain ⟨row, h1, h2⟩ := historyRow_ok hR H hL hpo (hl h (by simp)) (hend h (hl h (by simp)))
      obtain ⟨rows, h3, h4⟩ := ih fun x hx => hl x (by simp [hx])
      refine ⟨row :: rows, ?_, .cons h2 h4⟩
      rw [List.mapM_cons, h1]
      show (l.mapM (f.historyRow po inc fuel v) >>= fun rows => Except.ok (row :: rows)) = _
      rw [h3]
      rfl
  obtain ⟨rows, h1, h2⟩ := hrows (PySet.ofList s) fun h hh => (hmem h).1 hh
  have hex : ∀ r ∈ rows, ∃ h, f.HasRef v h ∧ f.IsRowOf inc v h r := by
    intro r hr
    obtain ⟨h, hh, hhr⟩ := h2.mem_right hr
    exact ⟨h, (hmem h).1 hh, hhr⟩
  have hcols : ∀ k, k ∈ PySet.ofList (rows.flatMap Dict.keys) ↔ f.PastNode inc v k := by
    intro k
    rw [PySet.mem_ofList, List.mem_flatMap]
    constructor
    · rintro ⟨r, hr, hk⟩
      obtain ⟨h, hh, hrow⟩ := hex r hr
      obtain ⟨c, hc⟩ := Dict.mem_keys.1 hk
      have := hrow k
      rw [hc] at this
      obtain ⟨⟨x, hx⟩, _⟩ := this
      exact ⟨h, x, hh, hx⟩
    · rintro ⟨h, x, hh, hx⟩
      obtain ⟨r, hr, hrow⟩ := h2.mem_left ((hmem h).2 hh)
      refine ⟨r, hr, ?_⟩
      by_cases hk : k ∈ r.keys
      · exact hk
      · have := hrow k
        rw [Dict.get?_eq_none.2 hk] at this
        exact absurd hx (this x)
  obtain ⟨t, h3, h4, h5, h6⟩ := sortTable_ok hpo H.graph (t := { cols := PySet.ofList (rows.flatMap Dict.keys), rows := rows }) fun k hk => by
    obtain ⟨h, x, hh, hx⟩ := (hcols k).1 hk
    rcases past_inside H hh hx with h | ⟨_, h⟩
    · exact .inl h.key
    · exact .inr h.key
  refine ⟨t, PySet.ofList s, ?_, ?_, h5, fun k => (h6 k).trans (hcols k), PySet.nodup_ofList _, hmem, by rw [h4]; exact h2⟩
  · unfold historyTable
    have : getE f.vs v = .ok s := by unfold getE; rw [hs]
    rw [this]
    show ((PySet.ofList s).mapM (f.historyRow po inc fuel v) >>= fun rows => f.sortTable po { cols := PySet.ofList (rows.flatMap Dict.keys), rows := rows }) = _
    rw [h1]
    exact h3
  · intro r hr k hk
    rw [h4] at hr
    rw [h6]
    exact PySet.mem_ofList.2 (List.mem_flatMap.2 ⟨r, hr, hk⟩)

end

end Verif
