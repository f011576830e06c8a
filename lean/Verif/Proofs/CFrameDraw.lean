import Verif.Spec.FrameDraw
import Verif.Proofs.CFrameShow
import Verif.Proofs.CFrameExpandFresh
/-!
Proofs about the drawing of a frame.
-/
namespace Verif.CFrame

open Props

variable {R : FCall → Prop} {f : CFrame}

theorem mapM_rel {α β : Type} {F : α → Except Err β} {P : α → β → Prop} {as : List α} (h : ∀ a ∈ as, ∃ b, F a = .ok b ∧ P a b) :
    ∃ bs, as.mapM F = .ok bs ∧ List.Forall₂ P as bs := by
  induction as with
  | nil => exact ⟨[], rfl, .nil⟩
  | cons a as ih =>
    obtain ⟨b, h1, h2⟩ := h a (by simp)
    obtain ⟨bs, h3, h4⟩ := ih fun x hx => h x (by simp [hx])
    refine ⟨b :: bs, ?_, .cons h2 h4⟩
    rw [List.mapM_cons, h1, h3]
    rfl

theorem forall₂_mem_right {α β : Type} {P : α → β → Prop} {as : List α} {bs : List β} (h : List.Forall₂ P as bs) {b : β} (hb : b ∈ bs) :
    ∃ a ∈ as, P a b := by
  induction h with
  | nil => exact nomatch hb
  | cons h1 _ ih =>
    rcases List.mem_cons.1 hb with rfl | hb
    · exact ⟨_, by simp, h1⟩
    · obtain ⟨a, h2, h3⟩ := ih hb
      exact ⟨a, by simp [h2], h3⟩

theorem forall₂_map_eq {α β : Type} {P : α → β → Prop} {g : β → α} (hg : ∀ a b, P a b → g b = a) {as : List α} {bs : List β} (h : List.Forall₂ P as bs) :
    bs.map g = as := by
  induction h with
  | nil => rfl
  | cons h1 _ ih => rw [List.map_cons, hg _ _ h1, ih]

theorem numbers_lenSet {P : String → Prop} {s : List String} (h : ∀ x, x ∈ s ↔ P x) : Numbers P (lenSet s) :=
  ⟨PySet.ofList s, PySet.nodup_ofList s, fun x => by rw [PySet.mem_ofList, h], rfl⟩

/-- a pair list found by its keys -/
theorem get?_of_forall₂ {α β : Type} [DecidableEq α] {P : α → β → Prop} {as : List α} {bs : List (α × β)}
    (h : List.Forall₂ (fun a b => b.1 = a ∧ P a b.2) as bs) {a : α} (ha : a ∈ as) : ∃ b, Dict.get? bs a = some b ∧ P a b := by
  induction h with
  | nil => exact nomatch ha
  | @cons x y xs ys h1 _ ih =>
    obtain ⟨y1, y2⟩ := y
    obtain ⟨rfl, h1⟩ := h1
    by_cases e : y1 = a
    · subst e
      exact ⟨y2, by simp [Dict.get?], h1⟩
    · rcases List.mem_cons.1 ha with h | h
      · exact absurd h.symm e
      · obtain ⟨b, h2, h3⟩ := ih h
        exact ⟨b, by simp [Dict.get?, e, h2], h3⟩

/-! ### counting beforehand -/

structure StatsOk (ver : String → String) (f : CFrame) (st : DrawStats) : Prop where
  sources : ∀ v, f.IsVar v → ∃ s, Dict.get? st.sources v = some s ∧ ∀ x, x ∈ s ↔ Unattached f .back v x
  sinks : ∀ v, f.IsVar v → ∃ s, Dict.get? st.sinks v = some s ∧ ∀ x, x ∈ s ↔ Unattached f .forward v x
  versions : ∀ n, f.IsFunc n → ∃ k, Dict.get? st.versions n = some k ∧ Numbers (fun v => ∃ h, f.HasCall n h ∧ ver h = v) k
  edges : ∀ e, f.HasEdge e.1 e.2.1 e.2.2 → ∃ k, Dict.get? st.edges e = some k ∧ Numbers (Flows f e.1 e.2.1 e.2.2) k

theorem edge_flows (hR : RecOk R) (H : Wf R f) (L : LabelsOk f) {s d l : String} (he : f.HasEdge s d l) :
    ∃ ys, (if d ∈ f.fs.keys then f.adjEltsEdge (s, d, l) (getOr f.fs d) .back else do
      let hids ← getE f.fs s
      f.adjEltsEdge (s, d, l) hids .forward) = .ok ys ∧ ∀ y, y ∈ ys ↔ Flows f s d l y := by
  by_cases hd : d ∈ f.fs.keys
  · rw [if_pos hd]
    obtain ⟨ys, h1, h2⟩ := adjEltsEdge_spec hR H L (dir := .back) he (hids := getOr f.fs d) (fun x hx => .inr (mem_getOr.1 hx))
    refine ⟨ys, h1, fun y => ?_⟩
    rw [h2]
    constructor
    · rintro ⟨x, hx, ⟨h, _⟩ | ⟨_, h3, c, h4, h5⟩⟩
      · exact absurd hd (H.graph.disj d h)
      · exact .inl ⟨hd, h3, x, c, mem_getOr.1 hx, h4, h5⟩
    · rintro (⟨_, h3, x, c, h4, h5, h6⟩ | ⟨h3, h4, _⟩)
      · exact ⟨x, mem_getOr.2 h4, .inr ⟨hd, h3, c, h5, h6⟩⟩
      · exact absurd hd (H.graph.disj d h4.key)
  · rw [if_neg hd]
    have hs : f.IsFunc s ∧ f.IsVar d := (H.graph.bip _ _ _ he).elim (fun h => absurd h.2 hd) id
    obtain ⟨cs, hcs⟩ := Dict.mem_keys.1 hs.1
    obtain ⟨ys, h1, h2⟩ := adjEltsEdge_spec hR H L (dir := .forward) he (hids := cs) (fun x hx => .inr ((inSet_iff_mem hcs).2 hx))
    refine ⟨ys, by rw [getE_ok.2 hcs]; exact h1, fun y => ?_⟩
    rw [h2]
    constructor
    · rintro ⟨x, hx, ⟨h, _⟩ | ⟨_, h3, c, h4, h5⟩⟩
      · exact absurd hs.1 (H.graph.disj s h)
      · exact .inr ⟨hs.1, h3, x, c, (inSet_iff_mem hcs).2 hx, h4, h5⟩
    · rintro (⟨h3, _⟩ | ⟨_, h3, x, c, h4, h5, h6⟩)
      · exact absurd h3 hd
      · exact ⟨x, (inSet_iff_mem hcs).1 h4, .inr ⟨hs.1, h3, c, h5, h6⟩⟩

theorem drawStats_ok (hR : RecOk R) (H : Wf R f) (L : LabelsOk f) (ver : String → String) : ∃ st, f.drawStats ver = .ok st ∧ StatsOk ver f st := by
  obtain ⟨snk, a1, a2, a3⟩ := endElts_unattached hR H L .forward
  obtain ⟨src, b1, b2, b3⟩ := endElts_unattached hR H L .back
  have ends : ∀ {r : SetDict} {dir : Side}, (∀ n, n ∈ r.keys ↔ n ∈ f.nodes) → (∀ v x, f.IsVar v → (InSet r v x ↔ Unattached f dir v x)) →
      ∀ v, f.IsVar v → ∃ s, Dict.get? r v = some s ∧ ∀ x, x ∈ s ↔ Unattached f dir v x := by
    intro r dir h1 h2 v hv
    obtain ⟨s, hs⟩ := Dict.mem_keys.1 ((h1 v).2 (mem_nodes.2 (.inl hv)))
    exact ⟨s, hs, fun x => by rw [← h2 v x hv, inSet_iff_mem hs]⟩
  obtain ⟨vs, c1, c2⟩ := mapM_rel (F := numVersions ver f) (as := PySet.ofList f.fs.keys)
    (P := fun n b => b.1 = n ∧ Numbers (fun v => ∃ h, f.HasCall n h ∧ ver h = v) b.2) (by
      intro n hn
      have h1 : ((getOr f.fs n).mapM fun h => do
          let _ ← getE f.calls h
          .ok (ver h)) = .ok ((getOr f.fs n).map ver) := by
        refine mapM_ok fun h hh => ?_
        obtain ⟨c, hc, _⟩ := H.get_call (mem_getOr.1 hh)
        rw [getE_ok.2 hc]
        rfl
      refine ⟨(n, lenSet ((getOr f.fs n).map ver)), ?_, rfl, numbers_lenSet fun x => ?_⟩
      · unfold numVersions
        rw [h1]
        rfl
      · rw [List.mem_map]
        exact ⟨fun ⟨h, h2, h3⟩ => ⟨h, mem_getOr.1 h2, h3⟩, fun ⟨h, h2, h3⟩ => ⟨h, mem_getOr.2 h2, h3⟩⟩)
  obtain ⟨es, d1, d2⟩ := mapM_rel (F := f.edgeCount) (as := f.edges) (P := fun e b => b.1 = e ∧ Numbers (Flows f e.1 e.2.1 e.2.2) b.2) (by
      rintro ⟨s, d, l⟩ he
      obtain ⟨ys, h1, h2⟩ := edge_flows hR H L (mem_edges.1 he)
      refine ⟨((s, d, l), lenSet ys), ?_, rfl, numbers_lenSet h2⟩
      unfold edgeCount
      dsimp only
      rw [h1]
      rfl)
  refine ⟨⟨snk, src, vs, es⟩, ?_, ends b2 b3, ends a2 a3, ?_, ?_⟩
  · unfold drawStats
    have a1 : f.endElts .back = .ok snk := a1
    have b1 : f.endElts .forward = .ok src := b1
    rw [a1, b1]
    simp only [bind, Except.bind, c1, d1]
  · exact fun n hn => get?_of_forall₂ c2 (PySet.mem_ofList.2 hn)
  · exact fun e he => get?_of_forall₂ d2 (mem_edges'.2 he)

/-! ### boxes -/

theorem numbers_unique {P : String → Prop} {k m : Nat} (h1 : Numbers P k) (h2 : Numbers P m) : k = m := by
  obtain ⟨s, a1, a2, rfl⟩ := h1
  obtain ⟨t, b1, b2, rfl⟩ := h2
  exact ((List.perm_ext_iff_of_nodup a1 b1).2 fun x => by rw [a2, b2]).length_eq

/-- What there is to count can be counted. -/
theorem stats_exist (hR : RecOk R) (H : Wf R f) (L : LabelsOk f) (ver : String → String) : ∃ st, StatsOk ver f st := by
  obtain ⟨st, _, h⟩ := drawStats_ok hR H L ver
  exact ⟨st, h⟩

theorem drawVar_ok {ver : String → String} {s0 : DrawStats} (h0 : StatsOk ver f s0) {verbose : Bool} {v : String} (hv : f.IsVar v) :
    ∃ b, f.drawVar (if verbose then some s0 else none) v = .ok b ∧ b.1 = v ∧ b.2.name = v ∧ b.2.func = false ∧ ∃ k a z, Numbers (f.HasRef v) k ∧ Numbers (Unattached f .back v) a ∧
    Numbers (Unattached f .forward v) z ∧ b.2.lines = [valuesLine verbose k a z] := by
  obtain ⟨s, hs⟩ := Dict.mem_keys.1 hv
  obtain ⟨a, ha, na⟩ := h0.sources v hv
  obtain ⟨z, hz, nz⟩ := h0.sinks v hv
  have hk : Numbers (f.HasRef v) (lenSet s) := numbers_lenSet fun x => (inSet_iff_mem hs).symm
  unfold drawVar
  rw [getE_ok.2 hs]
  cases verbose with
  | false => exact ⟨_, rfl, rfl, rfl, rfl, _, _, _, hk, numbers_lenSet na, numbers_lenSet nz, rfl⟩
  | true =>
    simp only [if_true, bind, Except.bind, getE_ok.2 ha, getE_ok.2 hz]
    refine ⟨_, rfl, rfl, rfl, rfl, _, _, _, hk, numbers_lenSet na, numbers_lenSet nz, ?_⟩
    generalize lenSet a = i
    generalize lenSet z = j
    refine congrArg (fun l => [l]) ?_
    apply String.toList_inj.1
    have ts : ∀ s : String, toString s = s := fun _ => rfl
    cases i <;> cases j <;> simp [valuesLine, ts]

theorem drawFunc_ok (H : Wf R f) {po : PyOrd} (hpo : po.Ok) (hE : f.NoEmptyFunc) {ver : String → String} {s0 : DrawStats} (h0 : StatsOk ver f s0) {verbose : Bool} {op : String → String}
    (hop : ∀ n h t c, po.set (getOr f.fs n) = h :: t → f.calls.get? h = some c → op n = c.op) {n : String} (hn : f.IsFunc n) :
    ∃ b, f.drawFunc po (if verbose then some s0 else none) n = .ok b ∧ b.1 = n ∧ b.2.name = n ∧ b.2.func = true ∧ ∃ k j, Numbers (f.HasCall n) k ∧
    Numbers (fun v => ∃ h, f.HasCall n h ∧ ver h = v) j ∧ b.2.lines = [opLine verbose (op n) j, s!"{k} calls"] := by
  obtain ⟨h1, hh1⟩ := hE n hn
  obtain ⟨j, hj, nj⟩ := h0.versions n hn
  have hk : Numbers (f.HasCall n) (lenSet (getOr f.fs n)) := numbers_lenSet fun x => mem_getOr
  unfold drawFunc
  cases hp : po.set (getOr f.fs n) with
  | nil =>
    have := (hpo.set _).mem_iff.2 (mem_getOr.2 hh1)
    rw [hp] at this
    exact nomatch this
  | cons h t =>
    have hh : f.HasCall n h := mem_getOr.1 ((hpo.set _).mem_iff.1 (by rw [hp]; simp))
    obtain ⟨c, hc, _⟩ := H.get_call hh
    have hop := hop n h t c hp hc
    dsimp only
    rw [getE_ok.2 hc]
    cases verbose with
    | false => exact ⟨_, rfl, rfl, rfl, rfl, _, _, hk, nj, by simp [opLine, hop]⟩
    | true =>
      simp only [if_true, bind, Except.bind, getE_ok.2 hj]
      refine ⟨_, rfl, rfl, rfl, rfl, _, _, hk, nj, ?_⟩
      by_cases h2 : j > 1
      · have : 2 ≤ j := h2
        have ts : ∀ s : String, toString s = s := fun _ => rfl
        simp [opLine, hop, h2, this, ts, String.append_assoc]
      · have : ¬ 2 ≤ j := h2
        simp [opLine, hop, h2, this]

/-! ### the whole drawing -/

/-- the op that a function goes by: that of the call that comes first -/
def firstOp (po : PyOrd) (f : CFrame) (n : String) : String :=
  match po.set (getOr f.fs n) with
  | [] => ""
  | h :: _ => ((f.calls.get? h).map (·.op)).getD ""

theorem firstOp_eq {po : PyOrd} {n h : String} {t : List String} {c : FCall} (hp : po.set (getOr f.fs n) = h :: t) (hc : f.calls.get? h = some c) :
    firstOp po f n = c.op := by
  unfold firstOp
  rw [hp]
  simp [hc]

theorem first_call (H : Wf R f) {po : PyOrd} (hpo : po.Ok) (hE : f.NoEmptyFunc) {n : String} (hn : f.IsFunc n) :
    ∃ h t c, po.set (getOr f.fs n) = h :: t ∧ f.HasCall n h ∧ f.calls.get? h = some c := by
  obtain ⟨h1, hh1⟩ := hE n hn
  cases hp : po.set (getOr f.fs n) with
  | nil =>
    have := (hpo.set _).mem_iff.2 (mem_getOr.2 hh1)
    rw [hp] at this
    exact nomatch this
  | cons h t =>
    have hh : f.HasCall n h := mem_getOr.1 ((hpo.set _).mem_iff.1 (by rw [hp]; simp))
    obtain ⟨c, hc, _⟩ := H.get_call hh
    exact ⟨h, t, c, rfl, hh, hc⟩

theorem goesBy_first (H : Wf R f) {po : PyOrd} (hpo : po.Ok) (hE : f.NoEmptyFunc) : GoesBy f (firstOp po f) := by
  intro n hn
  obtain ⟨h, t, c, h1, h2, h3⟩ := first_call H hpo hE hn
  exact ⟨h, c, h2, h3, (firstOp_eq h1 h3).symm⟩

theorem get?_pairs {α β : Type} [DecidableEq α] (g : α → β) (l : List α) (a : α) :
    Dict.get? (l.map fun n => (n, g n)) a = if a ∈ l then some (g a) else none := by
  induction l with
  | nil => rfl
  | cons x l ih =>
    by_cases e : x = a
    · subst e
      simp [Dict.get?]
    · simp only [List.map_cons, Dict.get?, e, if_false, ih, List.mem_cons, Ne.symm e, false_or]

theorem opsOf_first (H : Wf R f) {po : PyOrd} (hpo : po.Ok) (hE : f.NoEmptyFunc) :
    f.opsOf po = .ok ((PySet.ofList f.fs.keys).map fun n => (n, firstOp po f n)) := by
  unfold opsOf
  refine mapM_ok fun n hn => ?_
  obtain ⟨h, t, c, h1, h2, h3⟩ := first_call H hpo hE (PySet.mem_ofList.1 hn)
  rw [firstOp_eq h1 h3, h1]
  dsimp only
  rw [getE_ok.2 h3]
  rfl

theorem set_fold {β : Type} (ps d : Dict String β) (hps : (ps.map (·.1)).Nodup) (hd : ∀ p ∈ ps, p.1 ∉ d.keys) :
    ps.foldl (fun (d : Dict String β) p => d.set p.1 p.2) d = d ++ ps := by
  have hset : ∀ (d : Dict String β) k v, k ∉ d.keys → d.set k v = d ++ [(k, v)] := by
    intro d k v hk
    induction d with
    | nil => rfl
    | cons q d ih =>
      have h1 : q.1 ≠ k := fun e => hk (by simp [Dict.keys, e])
      have h2 : k ∉ Dict.keys d := fun h => hk (by simp only [Dict.keys, List.map_cons, List.mem_cons]; exact .inr h)
      obtain ⟨a, b⟩ := q
      simp only [Dict.set, h1, if_false, ih h2, List.cons_append]
  induction ps generalizing d with
  | nil => simp
  | cons p ps ih =>
    rw [List.map_cons, List.nodup_cons] at hps
    rw [List.foldl_cons, hset _ _ _ (hd p (by simp)), ih _ hps.2]
    · simp
    · intro q hq h
      have : q.1 ∈ Dict.keys d ∨ q.1 = p.1 := by simpa [Dict.keys] using h
      rcases this with h | h
      · exact hd q (by simp [hq]) h
      · exact hps.1 (h ▸ List.mem_map.2 ⟨q, hq, rfl⟩)

theorem draw_ok (hR : RecOk R) (H : Wf R f) (L : LabelsOk f) {po : PyOrd} (hpo : po.Ok) (ver : String → String) (verbose : Bool) (hE : f.NoEmptyFunc) :
    ∃ d, f.draw po ver verbose = .ok d ∧ DrawnAs ver verbose (firstOp po f) f d := by
  obtain ⟨s0, hs0, h0⟩ := drawStats_ok hR H L ver
  have hst : (if verbose then (f.drawStats ver).map some else .ok none) = (Except.ok (if verbose then some s0 else none) : Except Err (Option DrawStats)) := by
    cases verbose
    · rfl
    · simp only [if_true, hs0]; rfl
  have hvmem : ∀ v, v ∈ po.set (PySet.ofList f.vs.keys) ↔ f.IsVar v := fun v => by rw [(hpo.set _).mem_iff, PySet.mem_ofList]
  have hfmem : ∀ v, v ∈ po.set (PySet.ofList f.fs.keys) ↔ f.IsFunc v := fun v => by rw [(hpo.set _).mem_iff, PySet.mem_ofList]
  obtain ⟨vn, v1, v2⟩ := mapM_rel (as := po.set (PySet.ofList f.vs.keys)) (fun v hv => drawVar_ok h0 (verbose := verbose) ((hvmem v).1 hv))
  obtain ⟨fn, f1, f2⟩ := mapM_rel (as := po.set (PySet.ofList f.fs.keys)) (fun n hn => drawFunc_ok H hpo hE h0 (verbose := verbose) (op := firstOp po f)
    (fun n h t c hp hc => firstOp_eq hp hc) ((hfmem n).1 hn))
  have vk : vn.map (·.1) = po.set (PySet.ofList f.vs.keys) := forall₂_map_eq (fun _ _ h => h.1) v2
  have fk : fn.map (·.1) = po.set (PySet.ofList f.fs.keys) := forall₂_map_eq (fun _ _ h => h.1) f2
  have vk2 : vn.map (·.2.name) = po.set (PySet.ofList f.vs.keys) := forall₂_map_eq (fun _ _ h => h.2.1) v2
  have fk2 : fn.map (·.2.name) = po.set (PySet.ofList f.fs.keys) := forall₂_map_eq (fun _ _ h => h.2.1) f2
  have fnd : (po.set (PySet.ofList f.fs.keys)).Nodup := (hpo.set _).nodup_iff.2 (PySet.nodup_ofList _)
  have vnd : (po.set (PySet.ofList f.vs.keys)).Nodup := (hpo.set _).nodup_iff.2 (PySet.nodup_ofList _)
  have hfold : fn.foldl (fun (d : Dict String DrawNode) p => d.set p.1 p.2) vn = vn ++ fn := by
    refine set_fold fn vn (by rw [fk]; exact fnd) fun p hp h => ?_
    have h1 : p.1 ∈ po.set (PySet.ofList f.vs.keys) := by rw [← vk]; exact h
    have h2 : p.1 ∈ po.set (PySet.ofList f.fs.keys) := by rw [← fk]; exact List.mem_map.2 ⟨p, hp, rfl⟩
    exact H.graph.disj _ ((hvmem _).1 h1) ((hfmem _).1 h2)
  have hname : ∀ p ∈ vn ++ fn, p.2.name = p.1 := by
    intro p hp
    rcases List.mem_append.1 hp with hp | hp
    · obtain ⟨a, _, h⟩ := forall₂_mem_right v2 hp
      rw [h.1, h.2.1]
    · obtain ⟨a, _, h⟩ := forall₂_mem_right f2 hp
      rw [h.1, h.2.1]
  have hget : ∀ n, f.IsVar n ∨ f.IsFunc n → ∃ b, Dict.get? (vn ++ fn) n = some b ∧ b.name = n := by
    intro n hn
    have : n ∈ Dict.keys (vn ++ fn) := by
      unfold Dict.keys
      rw [List.map_append, vk, fk, List.mem_append, hvmem, hfmem]
      exact hn
    obtain ⟨b, hb⟩ := Dict.mem_keys.1 this
    exact ⟨b, hb, hname _ (Dict.mem_of_get? hb)⟩
  obtain ⟨es, e1, e2⟩ := mapM_rel (F := f.drawEdge po (if verbose then some s0 else none) (vn ++ fn)) (as := f.edges)
    (P := fun e (x : DrawEdge) => x.src = e.1 ∧ x.dst = e.2.1 ∧ ∃ k, Numbers (Flows f e.1 e.2.1 e.2.2) k ∧
      x.label = arrowLabel verbose (if e.2.1 ∈ f.fs.keys then firstOp po f e.2.1 else "") e.2.2 k) (by
    intro e he
    have he := mem_edges'.1 he
    obtain ⟨k, hk, nk⟩ := h0.edges e he
    have hends : (f.IsVar e.1 ∨ f.IsFunc e.1) ∧ (f.IsVar e.2.1 ∨ f.IsFunc e.2.1) :=
      (H.graph.bip _ _ _ he).elim (fun h => ⟨.inl h.1, .inr h.2⟩) fun h => ⟨.inr h.1, .inl h.2⟩
    obtain ⟨a, ha, na⟩ := hget _ hends.1
    obtain ⟨b, hb, nb⟩ := hget _ hends.2
    have hl : (if Dict.get? ((PySet.ofList f.fs.keys).map fun n => (n, firstOp po f n)) e.2.1 = some makeListName ∧ e.2.2 = "elts" then "*elts" else e.2.2) =
        (if (if e.2.1 ∈ f.fs.keys then firstOp po f e.2.1 else "") = "__make_list__" ∧ e.2.2 = "elts" then "*elts" else e.2.2) := by
      rw [get?_pairs]
      by_cases hd : e.2.1 ∈ f.fs.keys
      · simp [hd, makeListName]
      · have : ¬ ("" = "__make_list__") := by decide
        simp [hd, makeListName]
    unfold drawEdge
    rw [opsOf_first H hpo hE]
    cases verbose with
    | false =>
      simp only [bind, Except.bind, Bool.false_eq_true, if_false, getE_ok.2 ha, getE_ok.2 hb]
      refine ⟨_, rfl, na, nb, k, nk, ?_⟩
      rw [hl]
      simp [arrowLabel]
    | true =>
      simp only [bind, Except.bind, if_true, hk, getE_ok.2 ha, getE_ok.2 hb]
      refine ⟨_, rfl, na, nb, k, nk, ?_⟩
      rw [hl]
      simp [arrowLabel, String.append_assoc])
  refine ⟨⟨(vn ++ fn).map (·.2), es⟩, ?_, ?_, ?_, ?_, ?_, f.edges, PySet.nodup_ofList _, fun e => mem_edges', e2⟩
  · unfold draw
    simp only [hst, bind, Except.bind, v1, f1, hfold, e1]
  · show (((vn ++ fn).map (·.2)).map (·.name)).Nodup
    rw [List.map_map, List.map_append]
    show (vn.map (·.2.name) ++ fn.map (·.2.name)).Nodup
    rw [vk2, fk2, List.nodup_append]
    refine ⟨vnd, fnd, ?_⟩
    rintro a ha b hb rfl
    exact H.graph.disj _ ((hvmem _).1 ha) ((hfmem _).1 hb)
  · intro n
    show n ∈ ((vn ++ fn).map (·.2)).map (·.name) ↔ _
    rw [List.map_map, List.map_append]
    show n ∈ vn.map (·.2.name) ++ fn.map (·.2.name) ↔ _
    rw [vk2, fk2, List.mem_append, hvmem, hfmem]
  · intro b hb hv
    obtain ⟨p, hp, rfl⟩ := List.mem_map.1 hb
    rcases List.mem_append.1 hp with hp | hp
    · obtain ⟨a, _, h⟩ := forall₂_mem_right v2 hp
      obtain ⟨_, rfl, h3, h4⟩ := h
      exact ⟨h3, h4⟩
    · obtain ⟨a, ha, h⟩ := forall₂_mem_right f2 hp
      rw [h.2.1] at hv
      exact absurd ((hfmem _).1 ha) (H.graph.disj _ hv)
  · intro b hb hv
    obtain ⟨p, hp, rfl⟩ := List.mem_map.1 hb
    rcases List.mem_append.1 hp with hp | hp
    · obtain ⟨a, ha, h⟩ := forall₂_mem_right v2 hp
      rw [h.2.1] at hv
      exact absurd hv (H.graph.disj _ ((hvmem _).1 ha))
    · obtain ⟨a, _, h⟩ := forall₂_mem_right f2 hp
      obtain ⟨_, rfl, h3, h4⟩ := h
      exact ⟨h3, h4⟩

/-- A function without calls: nothing is drawn. -/
theorem draw_empty {po : PyOrd} (hpo : po.Ok) (ver : String → String) (verbose : Bool) {n : String} (hn : f.IsFunc n) (hno : ∀ h, ¬ f.HasCall n h) (d : Drawing) :
    f.draw po ver verbose ≠ .ok d := by
  intro h
  unfold draw at h
  obtain ⟨st, _, h⟩ := exBind_ok.1 h
  obtain ⟨vn, _, h⟩ := exBind_ok.1 h
  obtain ⟨fn, h1, h⟩ := exBind_ok.1 h
  clear h
  have hm : n ∈ po.set (PySet.ofList f.fs.keys) := (hpo.set _).mem_iff.2 (PySet.mem_ofList.2 hn)
  generalize po.set (PySet.ofList f.fs.keys) = l at h1 hm
  induction l generalizing fn with
  | nil => exact nomatch hm
  | cons m l ih =>
    rw [List.mapM_cons] at h1
    obtain ⟨b, h2, h1⟩ := exBind_ok.1 h1
    obtain ⟨bs, h3, _⟩ := exBind_ok.1 h1
    rcases List.mem_cons.1 hm with rfl | hm
    · unfold drawFunc at h2
      cases hp : po.set (getOr f.fs n) with
      | nil => rw [hp] at h2; exact nomatch h2
      | cons h t => exact hno h (mem_getOr.1 ((hpo.set _).mem_iff.1 (by rw [hp]; simp)))
    · exact ih bs h3 hm

end Verif.CFrame
