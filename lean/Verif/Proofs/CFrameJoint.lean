import Verif.Proofs.CFrameTable
/-!
The joint history of several variables.
-/
namespace Verif

open Props CFrame

section
variable {R : FCall → Prop} {f : CFrame}

/-- One budget is enough for the histories of all values. -/
theorem histories_end (hR : RecOk R) (ha : Acyclic R) (H : Wf R f) (hL : f.LabelsOk) {ord : SetDict → List String} (ho : ∀ d k, k ∈ ord d → k ∈ d.keys)
    (inc : Bool) : ∃ K, ∀ fuel, K ≤ fuel → ∀ v h, f.HasRef v h → ∃ r, f.totalHistory ord inc fuel v [h] none = .ok r := by
  obtain ⟨rank, hrk⟩ := ha
  have hb : ∀ l : List String, ∃ N, ∀ h ∈ l, rank h < N := by
    intro l
    induction l with
    | nil => exact ⟨0, by simp⟩
    | cons h hs ih =>
      obtain ⟨N, hN⟩ := ih
      refine ⟨N + rank h + 1, ?_⟩
      intro x hx
      rcases List.mem_cons.1 hx with rfl | hx
      · omega
      · have := hN x hx; omega
  obtain ⟨N, hN⟩ := hb f.refs.keys
  obtain ⟨K, hK⟩ := total_terminates hR H hL ho inc hrk N f.refs.keys.length
  refine ⟨K, fun fuel hf v h hv => hK fuel hf v [h] none hv.key (fun x hx => ?_) List.countP_le_length⟩
  rw [List.mem_singleton] at hx
  subst hx
  exact hN x ((H.ref.refs x).2 ⟨v, hv⟩)

theorem evalCell_ok (H : Wf R f) {s : List String} (hs : ∀ x ∈ s, (∃ v, f.HasRef v x) ∨ ∃ n, f.HasCall n x) : ∃ o, f.evalCell s = .ok o := by
  unfold evalCell
  induction s with
  | nil => exact ⟨[], rfl⟩
  | cons x s ih =>
    obtain ⟨o, ho⟩ := ih fun y hy => hs y (by simp [hy])
    rw [List.mapM_cons, ho]
    cases hr : f.refs.get? x with
    | some r => exact ⟨_, rfl⟩
    | none =>
      rcases hs x (by simp) with h | h
      · have := (H.ref.refs x).2 h
        rw [Dict.mem_keys, hr] at this
        obtain ⟨_, h⟩ := this
        cases h
      · obtain ⟨c, hc⟩ := Dict.mem_keys.1 ((H.call.calls x).2 h)
        have : getE f.calls x = .ok c := by unfold getE; rw [hc]
        exact ⟨.inr c :: o, by simp only [this]; rfl⟩

theorem mapM_total {α β : Type} {F : α → Except Err β} {l : List α} (h : ∀ a ∈ l, ∃ b, F a = .ok b) : ∃ bs, l.mapM F = .ok bs := by
  induction l with
  | nil => exact ⟨[], rfl⟩
  | cons a l ih =>
    obtain ⟨b, hb⟩ := h a (by simp)
    obtain ⟨bs, hbs⟩ := ih fun x hx => h x (by simp [hx])
    exact ⟨b :: bs, by rw [List.mapM_cons, hb]; show (l.mapM F >>= fun bs => Except.ok (b :: bs)) = _; rw [hbs]; rfl⟩

/-! ### no row twice -/

/-- Any two rows differ in some column. -/
def Table.Distinct (t : Table) : Prop := t.rows.Pairwise fun a b => ∃ k ∈ t.cols, a.get? k ≠ b.get? k

theorem rowsAgree_false {on : List String} {a b : TRow} (h : rowsAgree on a b = false) : ∃ k ∈ on, a.get? k ≠ b.get? k := by
  refine Classical.byContradiction fun hn => ?_
  have : rowsAgree on a b = true := rowsAgree_iff.2 fun k hk => Classical.byContradiction fun h => hn ⟨k, hk, h⟩
  rw [this] at h
  cases h

theorem pairwise_both {α : Type} {P : α → α → Prop} (hsymm : ∀ a b, P a b → P b a) {l : List α} (hl : l.Pairwise P) {a b : α} (ha : a ∈ l) (hb : b ∈ l)
    (hne : a ≠ b) : P a b := by
  induction l with
  | nil => cases ha
  | cons x l ih =>
    obtain ⟨h1, h2⟩ := List.pairwise_cons.1 hl
    rcases List.mem_cons.1 ha with rfl | hal
    · rcases List.mem_cons.1 hb with rfl | hb
      · exact absurd rfl hne
      · exact h1 b hb
    · rcases List.mem_cons.1 hb with rfl | hb
      · exact hsymm _ _ (h1 a hal)
      · exact ih h2 hal hb

theorem Table.Distinct.apart {t : Table} (h : t.Distinct) {a b : TRow} (ha : a ∈ t.rows) (hb : b ∈ t.rows) (hne : a ≠ b) :
    ∃ k ∈ t.cols, a.get? k ≠ b.get? k :=
  pairwise_both (P := fun a b => ∃ k ∈ t.cols, Dict.get? a k ≠ Dict.get? b k) (fun _ _ ⟨k, hk, h⟩ => ⟨k, hk, fun e => h e.symm⟩) h ha hb hne

theorem merge_distinct {how : Join} {l r t : Table} (hl : l.Fits) (hr : r.Fits) (dl : l.Distinct) (dr : r.Distinct) (h : l.merge how r = .ok t) : t.Distinct := by
  obtain ⟨_, hc, _⟩ := merge_ok h
  unfold Table.merge at h
  simp only at h
  split at h
  · cases h
  · have hcl : ∀ k ∈ l.cols, k ∈ t.cols := fun k hk => (hc k).2 (.inl hk)
    have hcr : ∀ k ∈ r.cols, k ∈ t.cols := fun k hk => (hc k).2 (.inr hk)
    have hcols : t.cols = l.cols ++ r.cols.filter (· ∉ l.cols.filter (· ∈ r.cols)) := by cases h; rfl
    have hrows : t.rows = (l.rows.flatMap fun a => (r.rows.filter fun b => rowsAgree (l.cols.filter (· ∈ r.cols)) a b).map fun b => joinRow (l.cols.filter (· ∈ r.cols)) a b) ++
        (match (generalizing := false) how with
          | .inner => []
          | .outer => (l.rows.filter fun a => !(r.rows.any fun b => rowsAgree (l.cols.filter (· ∈ r.cols)) a b)) ++
            r.rows.filter fun b => !(l.rows.any fun a => rowsAgree (l.cols.filter (· ∈ r.cols)) a b)) := by cases h; rfl
    unfold Table.Distinct
    rw [hrows]
    refine List.pairwise_append.2 ⟨?_, ?_, ?_⟩
    · refine List.pairwise_flatMap.2 ⟨fun a ha => ?_, ?_⟩
      · refine List.pairwise_map.2 ((dr.filter _).imp_of_mem ?_)
        intro b b' hb hb' ⟨k, hk, hne⟩
        obtain ⟨hb, hab⟩ := List.mem_filter.1 hb
        obtain ⟨hb', hab'⟩ := List.mem_filter.1 hb'
        refine ⟨k, hcr k hk, ?_⟩
        rwa [get?_joinRow_right hl ha hk hab, get?_joinRow_right hl ha hk hab']
      · refine List.Pairwise.imp_of_mem ?_ dl
        intro a a' ha ha' ⟨k, hk, hne⟩ x hx y hy
        obtain ⟨b, hb, rfl⟩ := List.mem_map.1 hx
        obtain ⟨b', hb', rfl⟩ := List.mem_map.1 hy
        refine ⟨k, hcl k hk, ?_⟩
        rwa [get?_joinRow_left hr (List.mem_filter.1 hb).1 hk, get?_joinRow_left hr (List.mem_filter.1 hb').1 hk]
    · cases how with
      | inner => exact List.Pairwise.nil
      | outer =>
        refine List.pairwise_append.2 ⟨?_, ?_, ?_⟩
        · exact (dl.filter _).imp fun ⟨k, hk, hne⟩ => ⟨k, hcl k hk, hne⟩
        · exact (dr.filter _).imp fun ⟨k, hk, hne⟩ => ⟨k, hcr k hk, hne⟩
        · intro a ha b hb
          obtain ⟨_, ha⟩ := List.mem_filter.1 ha
          obtain ⟨hb, _⟩ := List.mem_filter.1 hb
          simp only [Bool.not_eq_true', List.any_eq_false, Bool.not_eq_true] at ha
          obtain ⟨k, hk, hne⟩ := rowsAgree_false (ha b hb)
          exact ⟨k, hcl k (List.mem_filter.1 hk).1, hne⟩
    · intro x hx y hy
      obtain ⟨a, ha, hx⟩ := List.mem_flatMap.1 hx
      obtain ⟨b, hb, rfl⟩ := List.mem_map.1 hx
      obtain ⟨hb, hab⟩ := List.mem_filter.1 hb
      cases how with
      | inner => cases hy
      | outer =>
        rcases List.mem_append.1 hy with hy | hy
        · obtain ⟨hy, hy'⟩ := List.mem_filter.1 hy
          simp only [Bool.not_eq_true', List.any_eq_false, Bool.not_eq_true] at hy'
          have hne : a ≠ y := by
            rintro rfl
            rw [hy' b hb] at hab
            cases hab
          obtain ⟨k, hk, hd⟩ := dl.apart ha hy hne
          refine ⟨k, hcl k hk, ?_⟩
          rwa [get?_joinRow_left hr hb hk]
        · obtain ⟨hy, hy'⟩ := List.mem_filter.1 hy
          simp only [Bool.not_eq_true', List.any_eq_false, Bool.not_eq_true] at hy'
          have hne : b ≠ y := by
            rintro rfl
            rw [hy' a ha] at hab
            cases hab
          obtain ⟨k, hk, hd⟩ := dr.apart hb hy hne
          refine ⟨k, hcr k hk, ?_⟩
          rwa [get?_joinRow_right hl ha hk hab]

theorem fold_distinct {how : Join} {T : String → Table} (hT : ∀ v, (T v).Fits) (hd : ∀ v, (T v).Distinct) : ∀ (ws : List String) (t t' : Table), t.Fits → t.Distinct →
    (ws.map T).foldlM (Table.merge how) t = .ok t' → t'.Distinct := by
  intro ws
  induction ws with
  | nil =>
    intro t t' _ h1 h
    cases h
    exact h1
  | cons w ws ih =>
    intro t t' h0 h1 h
    rw [List.map_cons, List.foldlM_cons] at h
    cases hm : t.merge how (T w) with
    | error e => rw [hm] at h; cases h
    | ok t1 =>
      rw [hm] at h
      exact ih t1 t' (merge_fits h0 (hT w) hm) (merge_distinct h0 (hT w) h1 (hd w) hm) h

/-- The past of a value is older than the value. -/
theorem past_rank (H : Wf R f) {rank : String → Nat} (hrk : ∀ c, R c → ∀ p ∈ c.inputs, ∀ q ∈ c.outputs, rank p.2.hid < rank q.2.hid)
    {inc : Bool} {v h : String} {b : String × String} (hp : Star (f.MadeFrom inc) (v, h) b) (hb : f.IsVar b.1) : b = (v, h) ∨ rank b.2 < rank h := by
  induction hp with
  | refl => exact .inl rfl
  | @tail b c _ hr ih =>
    have := (madeFrom_rank H hrk (v := b.1) (h := b.2) (k := c.1) (x := c.2) hr hb).1
    rcases ih (madeFrom_var H hr) with rfl | h
    · exact .inr this
    · exact .inr (by omega)

theorem past_antisymm (ha : Acyclic R) (H : Wf R f) {inc : Bool} {v h h' : String} (hv : f.IsVar v) (h1 : f.Past inc v h v h') (h2 : f.Past inc v h' v h) : h = h' := by
  obtain ⟨rank, hrk⟩ := ha
  rcases past_rank H hrk h1 hv with h | a
  · cases h; rfl
  rcases past_rank H hrk h2 hv with h | b
  · cases h; rfl
  · simp only at a b; omega

theorem historyRows_distinct (ha : Acyclic R) (H : Wf R f) {inc : Bool} {v : String} (hv : f.IsVar v) {t : Table} {hs : List String} (hn : hs.Nodup)
    (hm : ∀ h ∈ hs, f.HasRef v h) (hcols : ∀ k, k ∈ t.cols ↔ f.PastNode inc v k) (h : All2 (f.IsRowOf inc v) hs t.rows) : t.Distinct := by
  unfold Table.Distinct
  generalize t.rows = rows at h
  induction h with
  | nil => exact List.Pairwise.nil
  | @cons a r as rs hr hrs ih =>
    obtain ⟨hna, hn⟩ := List.nodup_cons.1 hn
    refine List.pairwise_cons.2 ⟨fun r' hr' => ?_, ih hn fun h hh => hm h (by simp [hh])⟩
    obtain ⟨a', ha', hrow⟩ := hrs.mem_right hr'
    refine ⟨v, (hcols v).2 ⟨a, a, hm a (by simp), .refl⟩, fun he => ?_⟩
    have h1 := hr v
    have h2 := hrow v
    rw [he] at h1
    have key : ∀ c, IsCell (f.Past inc v a v) c → IsCell (f.Past inc v a' v) c → False := by
      intro c c1 c2
      cases c with
      | none => exact c1 a .refl
      | some s =>
        have e1 : f.Past inc v a v a' := (c1.2.2.2 a').1 ((c2.2.2.2 a').2 .refl)
        have e2 : f.Past inc v a' v a := (c2.2.2.2 a).1 ((c1.2.2.2 a).2 .refl)
        exact hna (past_antisymm ha H hv e1 e2 ▸ ha')
    exact key _ h1 h2

/-! ### the joint history -/

theorem isCell_same {P Q : String → Prop} : ∀ {a : Option (List String)}, IsCell P a → IsCell Q a → ∀ x, P x ↔ Q x
  | none, ha, hb, x => ⟨fun h => absurd h (ha x), fun h => absurd h (hb x)⟩
  | some _, ha, hb, x => (ha.2.2.2 x).symm.trans (hb.2.2.2 x)

open Classical in
/-- Either two tables to be joined have no column in common, or all is as it should be. -/
theorem jointHistory_ok (hR : RecOk R) (ha : Acyclic R) (H : Wf R f) (hL : f.LabelsOk) {po : PyOrd} (hpo : po.Ok) {inc : Bool} {fuel : Nat} (how : Join)
    {varnames : List String} (hvs : ∀ v ∈ varnames, f.IsVar v) (hne : varnames ≠ [])
    (hend : ∀ v h, f.HasRef v h → ∃ r, f.totalHistory po.dict inc fuel v [h] none = .ok r) :
    (∀ t, f.jointHistory po inc fuel how varnames = .ok t → JointOf f inc how varnames t) ∧
    ((∃ k, ∀ v ∈ varnames, f.PastNode inc v k) → ∃ t, f.jointHistory po inc fuel how varnames = .ok t) := by
  obtain ⟨vs, hs1, _, hs3⟩ := sortIn_ok hpo H.graph varnames
  have hmem : ∀ v, v ∈ vs ↔ v ∈ varnames := fun v => (hs3 v).trans ⟨fun h => h.2, fun h => ⟨.inl (hvs v h), h⟩⟩
  let T : String → Table := fun v => if h : f.IsVar v then Classical.choose (historyTable_ok hR H hL hpo h fun x => hend v x) else ⟨[], []⟩
  have hT : ∀ v, f.IsVar v → f.historyTable po inc fuel v = .ok (T v) ∧ (∀ k, k ∈ (T v).cols ↔ f.PastNode inc v k) ∧
      (∀ h, f.HasRef v h → ∃ r ∈ (T v).rows, f.IsRowOf inc v h r) ∧ (∀ r ∈ (T v).rows, ∃ h, f.HasRef v h ∧ f.IsRowOf inc v h r) := by
    intro v hv
    have e : T v = Classical.choose (historyTable_ok hR H hL hpo hv fun x => hend v x) := dif_pos hv
    obtain ⟨hs, h1, _, _, h3, _, h4, h5⟩ := Classical.choose_spec (historyTable_ok hR H hL hpo hv fun x => hend v x)
    rw [← e] at h1 h3 h5
    refine ⟨h1, h3, fun h hh => ?_, fun r hr => ?_⟩
    · obtain ⟨r, hr, hrr⟩ := h5.mem_left ((h4 h).2 hh)
      exact ⟨r, hr, hrr⟩
    · obtain ⟨h, hh, hrr⟩ := h5.mem_right hr
      exact ⟨h, (h4 h).1 hh, hrr⟩
  have hfits : ∀ v, (T v).Fits := by
    intro v
    by_cases hv : f.IsVar v
    · have e : T v = Classical.choose (historyTable_ok hR H hL hpo hv fun x => hend v x) := dif_pos hv
      obtain ⟨hs, _, h2, _⟩ := Classical.choose_spec (historyTable_ok hR H hL hpo hv fun x => hend v x)
      rw [← e] at h2
      exact h2
    · have e : T v = ⟨[], []⟩ := dif_neg hv
      rw [e]
      intro r hr
      cases hr
  have hdist : ∀ v, (T v).Distinct := by
    intro v
    by_cases hv : f.IsVar v
    · have e : T v = Classical.choose (historyTable_ok hR H hL hpo hv fun x => hend v x) := dif_pos hv
      obtain ⟨hs, _, _, _, h3, h4, h5, h6⟩ := Classical.choose_spec (historyTable_ok hR H hL hpo hv fun x => hend v x)
      rw [← e] at h3 h6
      exact historyRows_distinct ha H hv h4 (fun h hh => (h5 h).1 hh) h3 h6
    · have e : T v = ⟨[], []⟩ := dif_neg hv
      rw [e]
      exact List.Pairwise.nil
  have hmap : vs.mapM (f.historyTable po inc fuel) = .ok (vs.map T) := mapM_ok fun v hv => (hT v (hvs v ((hmem v).1 hv))).1
  -- the join
  have hshow : ∀ v, f.IsVar v → ∀ h r row, f.IsRowOf inc v h r → RowExt (T v) r row → f.Shows inc v h row := by
    intro v hv h r row hr he k hk
    rw [he k (((hT v hv).2.1 k).2 hk)]
    exact hr k
  have hJ : ∀ t, JoinOf how T vs t → ∃ t', (t.rows.mapM fun r => r.keys.mapM fun k => f.evalCell (getOr r k)) = .ok t' := by
    intro t J
    refine mapM_total fun row hrow => mapM_total fun k hk => ?_
    refine evalCell_ok H fun x hx => ?_
    obtain ⟨ch, _, h2, h3, _⟩ := J.sound row hrow
    obtain ⟨s, hs⟩ := Dict.mem_keys.1 hk
    obtain ⟨p, hp, hpk⟩ := h3 k (by rw [hs]; simp)
    obtain ⟨g1, g2, g3⟩ := h2 p hp
    have hv := hvs p.1 ((hmem p.1).1 g1)
    obtain ⟨h, hh, hrow⟩ := (hT p.1 hv).2.2.2 p.2 g2
    have hc := hrow k
    rw [← g3 k hpk, hs] at hc
    rw [getOr, hs] at hx
    rcases past_inside H hh ((hc.2.2.2 x).1 hx) with h | ⟨_, h⟩
    · exact .inl ⟨k, h⟩
    · exact .inr ⟨k, h⟩
  have hfin : ∀ t, JoinOf how T vs t → t.Distinct → ∃ t', f.sortTable po t = .ok t' ∧ JointOf f inc how varnames t' := by
    intro t J D
    have hcols : ∀ k, k ∈ t.cols ↔ ∃ v ∈ varnames, f.PastNode inc v k := by
      intro k
      rw [J.cols]
      constructor
      · rintro ⟨v, hv, hk⟩
        exact ⟨v, (hmem v).1 hv, ((hT v (hvs v ((hmem v).1 hv))).2.1 k).1 hk⟩
      · rintro ⟨v, hv, hk⟩
        exact ⟨v, (hmem v).2 hv, ((hT v (hvs v hv)).2.1 k).2 hk⟩
    obtain ⟨t', e1, e2, e3, e4⟩ := sortTable_ok hpo H.graph (t := t) fun k hk => by
      obtain ⟨v, _, h, x, hh, hx⟩ := (hcols k).1 hk
      rcases past_inside H hh hx with h | ⟨_, h⟩
      · exact .inl h.key
      · exact .inr h.key
    refine ⟨t', e1, ⟨e3, fun k => (e4 k).trans (hcols k)⟩, ?_, ?_, ?_, ?_⟩
    · rw [e2]
      exact D.imp fun ⟨k, hk, hne⟩ => ⟨k, (e4 k).2 hk, hne⟩
    · intro row hrow
      rw [e2] at hrow
      obtain ⟨ch, h1, h2, h3, h4⟩ := J.sound row hrow
      have hval : ∀ p ∈ ch, ∃ h, f.HasRef p.1 h ∧ f.Shows inc p.1 h row := by
        intro p hp
        obtain ⟨g1, g2, g3⟩ := h2 p hp
        have hv := hvs p.1 ((hmem p.1).1 g1)
        obtain ⟨h, hh, hr⟩ := (hT p.1 hv).2.2.2 p.2 g2
        exact ⟨h, hh, hshow p.1 hv h p.2 row hr g3⟩
      let of : String × TRow → String := fun p => if h : ∃ h, f.HasRef p.1 h ∧ f.Shows inc p.1 h row then Classical.choose h else ""
      have hof : ∀ p ∈ ch, f.HasRef p.1 (of p) ∧ f.Shows inc p.1 (of p) row := by
        intro p hp
        have e : of p = Classical.choose (hval p hp) := dif_pos (hval p hp)
        rw [e]
        exact Classical.choose_spec (hval p hp)
      refine ⟨ch.map fun p => (p.1, of p), by simpa using h1, ?_, ?_, ?_⟩
      · intro q hq
        obtain ⟨p, hp, rfl⟩ := List.mem_map.1 hq
        exact ⟨(hmem p.1).1 (h2 p hp).1, hof p hp⟩
      · intro k hk
        obtain ⟨p, hp, hpk⟩ := h3 k hk
        exact ⟨_, List.mem_map.2 ⟨p, hp, rfl⟩, ((hT p.1 (hvs p.1 ((hmem p.1).1 (h2 p hp).1))).2.1 k).1 hpk⟩
      · intro hi v hv
        obtain ⟨p, hp, he⟩ := h4 hi v ((hmem v).2 hv)
        exact ⟨_, List.mem_map.2 ⟨p, hp, rfl⟩, he⟩
    · intro ho v hv h hh
      obtain ⟨r, hr, hrr⟩ := (hT v (hvs v hv)).2.2.1 h hh
      obtain ⟨row, g1, g2⟩ := J.outer ho v ((hmem v).2 hv) r hr
      exact ⟨row, by rw [e2]; exact g1, hshow v (hvs v hv) h r row hrr g2⟩
    · intro of hof hagree
      let g : String → Option (List String) := fun k => if h : ∃ v ∈ varnames, f.PastNode inc v k then
        (if h' : ∃ c, IsCell (f.Past inc (Classical.choose h) (of (Classical.choose h)) k) c then Classical.choose h' else none) else none
      have hg : ∀ v ∈ varnames, ∀ k, f.PastNode inc v k → IsCell (f.Past inc v (of v) k) (g k) := by
        intro v hv k hk
        have hex : ∃ v ∈ varnames, f.PastNode inc v k := ⟨v, hv, hk⟩
        obtain ⟨hw, hwk⟩ := Classical.choose_spec hex
        obtain ⟨r, _, hr⟩ := (hT _ (hvs _ hw)).2.2.1 _ (hof _ hw)
        have hc : ∃ c, IsCell (f.Past inc (Classical.choose hex) (of (Classical.choose hex)) k) c := ⟨_, hr k⟩
        have e : g k = Classical.choose hc := by
          show (if h : ∃ v ∈ varnames, f.PastNode inc v k then _ else none) = _
          rw [dif_pos hex, dif_pos hc]
        rw [e]
        exact (isCell_congr (hagree v hv _ hw k hk hwk)).2 (Classical.choose_spec hc)
      obtain ⟨row, g1, g2⟩ := J.inner g fun v hv => by
        have hv' := (hmem v).1 hv
        obtain ⟨r, hr, hrr⟩ := (hT v (hvs v hv')).2.2.1 _ (hof v hv')
        exact ⟨r, hr, fun k hk => isCell_unique (hg v hv' k (((hT v (hvs v hv')).2.1 k).1 hk)) (hrr k)⟩
      refine ⟨row, by rw [e2]; exact g1, fun v hv k hk => ?_⟩
      rw [← g2 k ((hcols k).2 ⟨v, hv, hk⟩)]
      exact hg v hv k hk
  -- the code
  have hvne : vs ≠ [] := by
    obtain ⟨v, hv⟩ := List.exists_mem_of_ne_nil _ hne
    exact List.ne_nil_of_mem ((hmem v).2 hv)
  cases vs with
  | nil => exact absurd rfl hvne
  | cons v ws =>
    have hrun : f.jointHistory po inc fuel how varnames = ((ws.map T).foldlM (Table.merge how) (T v)).bind fun t =>
        (t.rows.mapM fun (r : TRow) => r.keys.mapM fun k => f.evalCell (getOr r k)).bind fun _ => f.sortTable po t := by
      unfold jointHistory
      rw [hs1]
      show ((v :: ws).mapM (f.historyTable po inc fuel) >>= fun ts => _) = _
      rw [hmap]
      rfl
    have J0 : JoinOf how T [v] (T v) := joinOf_one (hfits v)
    constructor
    · intro t ht
      rw [hrun] at ht
      cases hm : (ws.map T).foldlM (Table.merge how) (T v) with
      | error e => rw [hm] at ht; cases ht
      | ok t1 =>
        have J : JoinOf how T (v :: ws) t1 := joinOf_fold hfits ws [v] (T v) t1 J0 hm
        obtain ⟨x, hx⟩ := hJ t1 J
        obtain ⟨t', h1, h2⟩ := hfin t1 J (fold_distinct hfits hdist ws (T v) t1 (hfits v) (hdist v) hm)
        rw [hm] at ht
        simp only [Except.bind, hx, h1] at ht
        cases ht
        exact h2
    · rintro ⟨k, hk⟩
      obtain ⟨t1, hm⟩ := join_fold_total (how := how) hfits (k := k) ws [v] (T v) J0
        (((hT v (hvs v ((hmem v).1 (by simp)))).2.1 k).2 (hk v ((hmem v).1 (by simp))))
        fun w hw => ((hT w (hvs w ((hmem w).1 (by simp [hw])))).2.1 k).2 (hk w ((hmem w).1 (by simp [hw])))
      have J : JoinOf how T (v :: ws) t1 := joinOf_fold hfits ws [v] (T v) t1 J0 hm
      obtain ⟨x, hx⟩ := hJ t1 J
      obtain ⟨t', h1, _⟩ := hfin t1 J (fold_distinct hfits hdist ws (T v) t1 (hfits v) (hdist v) hm)
      exact ⟨t', by rw [hrun, hm]; simp only [Except.bind, hx, h1]⟩

end

end Verif
