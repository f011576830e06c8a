import Verif.Model.CFrameView
import Verif.Props.StorageFrame
import Verif.Props.FrameReach
/-!
C84: what a frame shows is what is in it.
-/
namespace Verif.Props

open Verif CFrame

theorem mapM_rel {α β : Type} {F : α → Except Err β} {P : α → β → Prop} : ∀ {l : List α}, (∀ a ∈ l, ∃ b, F a = .ok b ∧ P a b) → ∃ bs, l.mapM F = .ok bs ∧ All2 P l bs := by
  intro l
  induction l with
  | nil => intro _; exact ⟨[], rfl, .nil⟩
  | cons a l ih =>
    intro h
    obtain ⟨b, h1, h2⟩ := h a (by simp)
    obtain ⟨bs, h3, h4⟩ := ih fun a ha => h a (List.mem_cons_of_mem _ ha)
    exact ⟨b :: bs, by rw [List.mapM_cons, h1, h3]; rfl, .cons h2 h4⟩

theorem all2_map {α β γ : Type} {F : α → γ} {G : β → γ} {l : List α} {m : List β} (h : All2 (fun a b => G b = F a) l m) : m.map G = l.map F := by
  induction h with
  | nil => rfl
  | cons h _ ih => rw [List.map_cons, List.map_cons, ih, h]

theorem sets_some {A B : Type} {G : A → B} {x : String} {y : B} : ∀ {ps : List (String × A)} {d : Dict String B}, (ps.foldl (fun d p => d.set p.1 (G p.2)) d).get? x = some y →
    (∃ p ∈ ps, p.1 = x ∧ G p.2 = y) ∨ (x ∉ ps.map Prod.fst ∧ d.get? x = some y) := by
  intro ps
  induction ps with
  | nil => intro d h; exact .inr ⟨by simp, h⟩
  | cons p ps ih =>
    intro d h
    rcases ih h with ⟨q, hq, e⟩ | ⟨hx, h⟩
    · exact .inl ⟨q, List.mem_cons_of_mem _ hq, e⟩
    · rw [Dict.get?_set] at h
      split at h
      · rename_i e
        exact .inl ⟨p, by simp, e, Option.some.inj h⟩
      · rename_i e
        exact .inr ⟨by rw [List.map_cons, List.mem_cons, not_or]; exact ⟨fun h => e h.symm, hx⟩, h⟩

theorem sets_keys {A B : Type} {G : A → B} {x : String} : ∀ {ps : List (String × A)} {d : Dict String B},
    x ∈ (ps.foldl (fun d p => d.set p.1 (G p.2)) d).keys ↔ x ∈ ps.map Prod.fst ∨ x ∈ d.keys := by
  intro ps
  induction ps with
  | nil => intro d; simp
  | cons p ps ih =>
    intro d
    rw [List.foldl_cons, ih, Dict.mem_keys_set, List.map_cons, List.mem_cons]
    constructor
    · rintro (h | h | h)
      · exact .inl (.inr h)
      · exact .inl (.inl h)
      · exact .inr h
    · rintro ((h | h) | h)
      · exact .inr (.inl h)
      · exact .inl h
      · exact .inr (.inr h)

/-- C84, `cf.values` and `cf.get_var_values`: for every well-formed frame, one entry for each variable, with exactly its refs, and one for each function, with
exactly its calls. -/
theorem C84_values {R : FCall → Prop} {f : CFrame} (H : Wf R f) :
    ∃ d, f.values = .ok d ∧ (∀ n, n ∈ d.keys ↔ f.IsVar n ∨ f.IsFunc n) ∧
      (∀ v, f.IsVar v → ∃ rs, d.get? v = some (.refs rs) ∧ f.getVarValues v = .ok rs ∧ (∀ h, f.HasRef v h ↔ ∃ r ∈ rs, r.hid = h) ∧ ∀ r ∈ rs, f.refs.get? r.hid = some r) ∧
      ∀ n, f.IsFunc n → ∃ cs, d.get? n = some (.calls cs) ∧ (∀ h, f.HasCall n h ↔ ∃ c ∈ cs, c.hid = h) ∧ ∀ c ∈ cs, R c := by
  have hv : ∀ v, f.IsVar v → ∃ rs, f.getVarValues v = .ok rs ∧ (∀ h, f.HasRef v h ↔ ∃ r ∈ rs, r.hid = h) ∧ ∀ r ∈ rs, f.refs.get? r.hid = some r := by
    intro v hv
    obtain ⟨hs, e⟩ := Dict.mem_keys.1 hv
    obtain ⟨rs, h1, h2⟩ := mapM_rel (F := getE f.refs) (P := fun h r => f.refs.get? h = some r) (l := hs) fun h hh => by
      obtain ⟨r, hr⟩ := Dict.mem_keys.1 ((H.ref.refs h).2 ⟨v, hs, e, hh⟩)
      exact ⟨r, getE_ok.2 hr, hr⟩
    refine ⟨rs, ?_, fun h => ⟨?_, ?_⟩, fun r hr => ?_⟩
    · unfold getVarValues
      rw [getE_ok.2 e]
      exact h1
    · rintro ⟨hs', e', hh⟩
      rw [e] at e'
      cases e'
      obtain ⟨r, hr, h3⟩ := h2.mem_left hh
      exact ⟨r, hr, H.ref.refHid _ _ h3⟩
    · rintro ⟨r, hr, rfl⟩
      obtain ⟨h, hh, h3⟩ := h2.mem_right hr
      exact ⟨hs, e, (H.ref.refHid _ _ h3) ▸ hh⟩
    · obtain ⟨h, hh, h3⟩ := h2.mem_right hr
      exact (H.ref.refHid _ _ h3).symm ▸ h3
  have hf : ∀ n, f.IsFunc n → ∃ cs, (do let hs ← getE f.fs n; hs.mapM (getE f.calls)) = .ok cs ∧ (∀ h, f.HasCall n h ↔ ∃ c ∈ cs, c.hid = h) ∧ ∀ c ∈ cs, R c := by
    intro n hn
    obtain ⟨hs, e⟩ := Dict.mem_keys.1 hn
    obtain ⟨cs, h1, h2⟩ := mapM_rel (F := getE f.calls) (P := fun h c => c.hid = h ∧ R c) (l := hs) fun h hh => by
      obtain ⟨c, hc, h'⟩ := H.get_call (show f.HasCall n h from ⟨hs, e, hh⟩)
      exact ⟨c, getE_ok.2 hc, h'⟩
    refine ⟨cs, ?_, fun h => ⟨?_, ?_⟩, fun c hc => ?_⟩
    · rw [getE_ok.2 e]
      exact h1
    · rintro ⟨hs', e', hh⟩
      rw [e] at e'
      cases e'
      obtain ⟨c, hc, h3⟩ := h2.mem_left hh
      exact ⟨c, hc, h3.1⟩
    · rintro ⟨c, hc, rfl⟩
      obtain ⟨h, hh, h3⟩ := h2.mem_right hc
      exact ⟨hs, e, h3.1 ▸ hh⟩
    · obtain ⟨h, _, h3⟩ := h2.mem_right hc
      exact h3.2
  obtain ⟨vars, a1, a2⟩ := mapM_rel (l := f.vs.keys) (F := fun v => do let rs ← f.getVarValues v; .ok (v, NodeVals.refs rs))
    (P := fun v p => p.1 = v ∧ ∃ rs, p.2 = .refs rs ∧ f.getVarValues v = .ok rs) fun v h => by
      obtain ⟨rs, h1, _⟩ := hv v h
      exact ⟨(v, .refs rs), by rw [h1]; rfl, rfl, rs, rfl, h1⟩
  obtain ⟨funcs, b1, b2⟩ := mapM_rel (l := f.fs.keys) (F := fun n => do let hs ← getE f.fs n; let cs ← hs.mapM (getE f.calls); .ok (n, NodeVals.calls cs))
    (P := fun n p => p.1 = n ∧ ∃ cs, p.2 = .calls cs ∧ (do let hs ← getE f.fs n; hs.mapM (getE f.calls)) = .ok cs) fun n h => by
      obtain ⟨cs, h1, _⟩ := hf n h
      refine ⟨(n, .calls cs), ?_, rfl, cs, rfl, h1⟩
      obtain ⟨hs, e1, e2⟩ := exBind_ok.1 h1
      exact exBind_ok.2 ⟨hs, e1, exBind_ok.2 ⟨cs, e2, rfl⟩⟩
  have hkv : ∀ n, n ∈ vars.map Prod.fst ↔ f.IsVar n := fun n => ⟨fun h => by
    obtain ⟨p, hp, rfl⟩ := List.mem_map.1 h
    obtain ⟨v, hv', e, _⟩ := a2.mem_right hp
    exact e ▸ hv', fun h => by
    obtain ⟨p, hp, e, _⟩ := a2.mem_left h
    exact List.mem_map.2 ⟨p, hp, e⟩⟩
  have hkf : ∀ n, n ∈ funcs.map Prod.fst ↔ f.IsFunc n := fun n => ⟨fun h => by
    obtain ⟨p, hp, rfl⟩ := List.mem_map.1 h
    obtain ⟨v, hv', e, _⟩ := b2.mem_right hp
    exact e ▸ hv', fun h => by
    obtain ⟨p, hp, e, _⟩ := b2.mem_left h
    exact List.mem_map.2 ⟨p, hp, e⟩⟩
  have hkeys : ∀ n, n ∈ ((vars ++ funcs).foldl (fun d p => Dict.set d p.1 p.2) []).keys ↔ f.IsVar n ∨ f.IsFunc n := by
    intro n
    refine (sets_keys (G := id)).trans ?_
    rw [List.map_append, List.mem_append, hkv, hkf]
    simp [Dict.keys]
  have hget : ∀ n y, ((vars ++ funcs).foldl (fun d p => Dict.set d p.1 p.2) []).get? n = some y → ∃ p ∈ vars ++ funcs, p.1 = n ∧ p.2 = y := by
    intro n y h
    rcases sets_some (G := id) h with h | ⟨_, h⟩
    · exact h
    · cases h
  refine ⟨_, exBind_ok.2 ⟨vars, a1, exBind_ok.2 ⟨funcs, b1, rfl⟩⟩, hkeys, fun v h => ?_, fun n h => ?_⟩
  · obtain ⟨y, hy⟩ := Dict.mem_keys.1 ((hkeys v).2 (.inl h))
    obtain ⟨p, hp, rfl, rfl⟩ := hget v y hy
    obtain ⟨rs, c1, c2, c3⟩ := hv p.1 h
    rcases List.mem_append.1 hp with hp | hp
    · obtain ⟨v', _, e, rs', e', h'⟩ := a2.mem_right hp
      rw [← e, c1] at h'
      cases h'
      exact ⟨rs, e' ▸ hy, c1, c2, c3⟩
    · exact absurd ((hkf p.1).1 (List.mem_map_of_mem hp)) (H.graph.disj _ h)
  · obtain ⟨y, hy⟩ := Dict.mem_keys.1 ((hkeys n).2 (.inr h))
    obtain ⟨p, hp, rfl, rfl⟩ := hget n y hy
    obtain ⟨cs, c1, c2, c3⟩ := hf p.1 h
    rcases List.mem_append.1 hp with hp | hp
    · exact absurd h (H.graph.disj _ ((hkv p.1).1 (List.mem_map_of_mem hp)))
    · obtain ⟨v', _, e, cs', e', h'⟩ := b2.mem_right hp
      rw [← e, c1] at h'
      cases h'
      exact ⟨cs, e' ▸ hy, c2, c3⟩

/-- The row shows the inputs and outputs of the call, those that are not in the frame as null. -/
structure RowShows (f : CFrame) (c : FCall) (row : Dict String (Option FRef)) : Prop where
  cols : ∀ x, x ∈ row.keys ↔ x ∈ c.inputs.keys ∨ x ∈ c.outputs.keys
  cell : ∀ p, (p ∈ c.inputs ∨ p ∈ c.outputs) → (∃ v, f.HasRef v p.2.hid) → row.get? p.1 = some (some p.2)
  null : ∀ p, (p ∈ c.inputs ∨ p ∈ c.outputs) → (¬ ∃ v, f.HasRef v p.2.hid) → row.get? p.1 = some none

theorem funcRow_shows {R : FCall → Prop} (hR : RecOk R) {f : CFrame} (H : Wf R f) {c : FCall} (hc : R c) (hcl : ∀ x ∈ c.inputs.keys, x ∉ c.outputs.keys) :
    RowShows f c (f.funcRow c) := by
  have hcols : ∀ x, x ∈ (f.funcRow c).keys ↔ x ∈ c.inputs.keys ∨ x ∈ c.outputs.keys := by
    intro x
    unfold funcRow
    rw [sets_keys, sets_keys]
    constructor
    · rintro (h | h | h)
      · exact .inr h
      · exact .inl h
      · simp [Dict.keys] at h
    · rintro (h | h)
      · exact .inr (.inl h)
      · exact .inl h
  have hcell : ∀ p, (p ∈ c.inputs ∨ p ∈ c.outputs) → (f.funcRow c).get? p.1 = some (f.cellOf p.2) := by
    intro p hp
    obtain ⟨y, hy⟩ := Dict.mem_keys.1 ((hcols p.1).2 (hp.imp (List.mem_map_of_mem (f := Prod.fst)) (List.mem_map_of_mem (f := Prod.fst))))
    rw [hy]
    have same : ∀ {d : Dict String FRef}, d.keys.Nodup → ∀ {q : String × FRef}, q ∈ d → p ∈ d → q.1 = p.1 → q = p := by
      intro d hd q hq hp e
      have h1 := (Dict.get?_eq_some_iff hd).2 hq
      have h2 := (Dict.get?_eq_some_iff hd).2 hp
      rw [e, h2] at h1
      exact Prod.ext e (Option.some.inj h1).symm
    rcases sets_some (G := f.cellOf) hy with ⟨q, hq, e, rfl⟩ | ⟨hx, hy⟩
    · rcases hp with hp | hp
      · exact absurd (e ▸ List.mem_map_of_mem (f := Prod.fst) hq) (hcl p.1 (List.mem_map_of_mem hp))
      · rw [same (hR.outputs c hc) hq hp e]
    · rcases hp with hp | hp
      · rcases sets_some (G := f.cellOf) hy with ⟨q, hq, e, rfl⟩ | ⟨_, h⟩
        · rw [same (hR.inputs c hc) hq hp e]
        · cases h
      · exact absurd (List.mem_map_of_mem hp) hx
  have hhas : ∀ h, f.refs.has h = true ↔ ∃ v, f.HasRef v h := fun h => Dict.has_iff.trans (H.ref.refs h)
  refine ⟨hcols, fun p hp hv => ?_, fun p hp hv => ?_⟩
  · rw [hcell p hp]
    exact congrArg some (if_pos ((hhas _).2 hv))
  · rw [hcell p hp]
    exact congrArg some (if_neg fun h => hv ((hhas _).1 h))

/-- C84, `cf.get_func_table(n)` (partial: for functions without a call that has an input and an output of the same name, see `C84_refuted_same_name`): one row for each call of
the function, with all inputs and outputs under their names; what is not in the frame is null. -/
theorem C84_func_table_partial {R : FCall → Prop} (hR : RecOk R) {f : CFrame} (H : Wf R f) {n : String} (hn : f.IsFunc n)
    (hcl : ∀ c, R c → f.HasCall n c.hid → ∀ x ∈ c.inputs.keys, x ∉ c.outputs.keys) :
    ∃ hs rows, f.fs.get? n = some hs ∧ f.funcTable n = .ok rows ∧ All2 (fun h row => ∃ c, R c ∧ c.hid = h ∧ RowShows f c row) hs rows := by
  obtain ⟨hs, e⟩ := Dict.mem_keys.1 hn
  obtain ⟨rows, h1, h2⟩ := mapM_rel (F := fun h => do let c ← getE f.calls h; .ok (f.funcRow c)) (P := fun h row => ∃ c, R c ∧ c.hid = h ∧ RowShows f c row) (l := hs) fun h hh => by
    have hc' : f.HasCall n h := ⟨hs, e, hh⟩
    obtain ⟨c, hc, rfl, hcR⟩ := H.get_call hc'
    exact ⟨f.funcRow c, exBind_ok.2 ⟨c, getE_ok.2 hc, rfl⟩, c, hcR, rfl, funcRow_shows hR H hcR (hcl c hcR hc')⟩
  refine ⟨hs, rows, e, ?_, h2⟩
  unfold funcTable
  rw [getE_ok.2 e]
  exact h1

/-- The number says how many calls `c` there are with `P c`. -/
def Counts (P : String → Prop) (k : Nat) : Prop := ∃ cs : List String, cs.Nodup ∧ cs.length = k ∧ ∀ c, c ∈ cs ↔ P c

theorem counts_setLen {P : String → Prop} {l : List String} (h : ∀ c, c ∈ l ↔ P c) : Counts P (setLen l) :=
  ⟨PySet.ofList l, PySet.nodup_ofList _, rfl, fun c => PySet.mem_ofList.trans (h c)⟩

/-- C84, `cf.var_info(v)`: the number of values; one entry for each edge; for an outgoing edge to the function `n` with label `l`, the number of calls of `n` that have a value of
`v` as an input belonging to `l`; for an incoming edge from the function `n`, the number of calls of `n` that the frame knows as creators of values of `v`, among them all calls of `n`
with an output that belongs to an edge of `n` and is in `v`. -/
theorem C84_var_info {R : FCall → Prop} (hR : RecOk R) {f : CFrame} (H : Wf R f) (L : LabelsOk f) {v : String} (hv : f.IsVar v) :
    ∃ m cr co, f.varInfo v = .ok (m, cr, co) ∧ Counts (f.HasRef v) m ∧
      (cr.map fun e => (e.1, e.2.1)).Nodup ∧ (∀ n l, (∃ k, (n, l, k) ∈ cr) ↔ f.HasEdge n v l) ∧ (co.map fun e => (e.1, e.2.1)).Nodup ∧ (∀ n l, (∃ k, (n, l, k) ∈ co) ↔ f.HasEdge v n l) ∧
      (∀ n l k, (n, l, k) ∈ co → Counts (fun h => f.HasCall n h ∧ ∃ c, f.calls.get? h = some c ∧ ∃ p ∈ c.inputs, nameProj c.op p.1 = l ∧ f.HasRef v p.2.hid) k) ∧
      ∀ n l k, (n, l, k) ∈ cr → ∃ P, Counts P k ∧ (∀ h, P h → f.HasCall n h ∧ ∃ c, f.calls.get? h = some c ∧ ∃ p ∈ c.outputs, f.HasRef v p.2.hid) ∧
        ∀ h c, f.HasCall n h → f.calls.get? h = some c → ∀ p ∈ c.outputs, f.HasRef v p.2.hid → (∃ w, f.HasEdge n w (nameProj c.op p.1)) → P h := by
  obtain ⟨hs, e⟩ := Dict.mem_keys.1 hv
  have hhs : ∀ x, x ∈ hs ↔ f.HasRef v x := fun x => ⟨fun h => ⟨hs, e, h⟩, fun ⟨hs', e', h⟩ => by rw [e] at e'; cases e'; exact h⟩
  have mIn : ∀ x : String × String × String, x ∈ f.inEdges v ↔ f.HasEdge x.1 x.2.1 x.2.2 ∧ x.2.1 = v := by
    intro x
    unfold inEdges
    rw [PySet.mem_ofList, List.mem_filter, decide_eq_true_eq]
    exact and_congr_left fun _ => mem_edges
  have mOut : ∀ x : String × String × String, x ∈ f.outEdges v ↔ f.HasEdge x.1 x.2.1 x.2.2 ∧ x.1 = v := by
    intro x
    unfold outEdges
    rw [PySet.mem_ofList, List.mem_filter, decide_eq_true_eq]
    exact and_congr_left fun _ => mem_edges
  obtain ⟨cr, a1, a2⟩ := mapM_rel (l := f.inEdges v) (F := fun e => do let cs ← f.adjEltsEdge e hs .back; .ok (e.1, e.2.2, setLen cs))
    (P := fun e t => t.1 = e.1 ∧ t.2.1 = e.2.2 ∧ Counts (fun y => ∃ x ∈ hs, LeadsTo f .back e.2.2 v x e.1 y) t.2.2) fun x hx => by
      obtain ⟨s, d, l⟩ := x
      obtain ⟨h1, rfl⟩ := (mIn _).1 hx
      obtain ⟨ys, g1, g2⟩ := adjEltsEdge_spec hR H L (dir := .back) h1 (hids := hs) fun x hx => .inl ((hhs x).1 hx)
      exact ⟨(s, l, setLen ys), exBind_ok.2 ⟨ys, g1, rfl⟩, rfl, rfl, counts_setLen g2⟩
  obtain ⟨co, b1, b2⟩ := mapM_rel (l := f.outEdges v) (F := fun e => do let cs ← f.adjEltsEdge e hs .forward; .ok (e.2.1, e.2.2, setLen cs))
    (P := fun e t => t.1 = e.2.1 ∧ t.2.1 = e.2.2 ∧ Counts (fun y => ∃ x ∈ hs, LeadsTo f .forward e.2.2 v x e.2.1 y) t.2.2) fun x hx => by
      obtain ⟨s, d, l⟩ := x
      obtain ⟨h1, rfl⟩ := (mOut _).1 hx
      obtain ⟨ys, g1, g2⟩ := adjEltsEdge_spec hR H L (dir := .forward) h1 (hids := hs) fun x hx => .inl ((hhs x).1 hx)
      exact ⟨(d, l, setLen ys), exBind_ok.2 ⟨ys, g1, rfl⟩, rfl, rfl, counts_setLen g2⟩
  have ecr : (cr.map fun e => (e.1, e.2.1)) = (f.inEdges v).map fun e => (e.1, e.2.2) := by
    exact all2_map (a2.imp fun _ _ h => Prod.ext h.1 h.2.1)
  have eco : (co.map fun e => (e.1, e.2.1)) = (f.outEdges v).map fun e => (e.2.1, e.2.2) := by
    exact all2_map (b2.imp fun _ _ h => Prod.ext h.1 h.2.1)
  refine ⟨setLen hs, cr, co, ?_, counts_setLen hhs, ?_, fun n l => ⟨?_, ?_⟩, ?_, fun n l => ⟨?_, ?_⟩, fun n l k hk => ?_, fun n l k hk => ?_⟩
  · unfold varInfo
    exact exBind_ok.2 ⟨hs, getE_ok.2 e, exBind_ok.2 ⟨cr, a1, exBind_ok.2 ⟨co, b1, rfl⟩⟩⟩
  · rw [ecr]
    refine List.Nodup.map_on (fun x hx y hy h => ?_) (PySet.nodup_ofList _)
    obtain ⟨_, h1⟩ := (mIn x).1 hx
    obtain ⟨_, h2⟩ := (mIn y).1 hy
    simp only [Prod.mk.injEq] at h
    exact Prod.ext h.1 (Prod.ext (h1.trans h2.symm) h.2)
  · rintro ⟨k, hk⟩
    obtain ⟨x, hx, h1, h2, _⟩ := a2.mem_right hk
    obtain ⟨h3, h4⟩ := (mIn x).1 hx
    simp only at h1 h2
    rw [h1, h2, ← h4]
    exact h3
  · intro h
    obtain ⟨⟨n', l', k⟩, hk, h1, h2, _⟩ := a2.mem_left ((mIn (n, v, l)).2 ⟨h, rfl⟩)
    simp only at h1 h2
    exact ⟨k, h1 ▸ h2 ▸ hk⟩
  · rw [eco]
    refine List.Nodup.map_on (fun x hx y hy h => ?_) (PySet.nodup_ofList _)
    obtain ⟨_, h1⟩ := (mOut x).1 hx
    obtain ⟨_, h2⟩ := (mOut y).1 hy
    simp only [Prod.mk.injEq] at h
    exact Prod.ext (h1.trans h2.symm) (Prod.ext h.1 h.2)
  · rintro ⟨k, hk⟩
    obtain ⟨x, hx, h1, h2, _⟩ := b2.mem_right hk
    obtain ⟨h3, h4⟩ := (mOut x).1 hx
    simp only at h1 h2
    rw [h1, h2, ← h4]
    exact h3
  · intro h
    obtain ⟨⟨n', l', k⟩, hk, h1, h2, _⟩ := b2.mem_left ((mOut (v, n, l)).2 ⟨h, rfl⟩)
    simp only at h1 h2
    exact ⟨k, h1 ▸ h2 ▸ hk⟩
  · obtain ⟨x, hx, h1, h2, cs, c1, c2, c3⟩ := b2.mem_right hk
    simp only at h1 h2
    refine ⟨cs, c1, c2, fun c => (c3 c).trans ⟨?_, ?_⟩⟩
    · rintro ⟨y, hy, ⟨_, d1, call, d2, p, d3, d4, d5⟩ | ⟨d1, _⟩⟩
      · exact ⟨h1 ▸ d1, call, d2, p, d3, d4.trans h2.symm, d5 ▸ (hhs y).1 hy⟩
      · exact absurd d1 (H.graph.disj _ hv)
    · rintro ⟨d1, call, d2, p, d3, d4, d5⟩
      exact ⟨p.2.hid, (hhs _).2 d5, .inl ⟨hv, h1 ▸ d1, call, d2, p, d3, d4.trans h2, rfl⟩⟩
  · obtain ⟨x, hx, h1, h2, hc⟩ := a2.mem_right hk
    simp only at h1 h2
    refine ⟨_, hc, ?_, ?_⟩
    · rintro y ⟨z, hz, ⟨_, d1, d2⟩ | ⟨d1, _⟩⟩
      · obtain ⟨_, call, d3, p, d4, d5⟩ := H.creator _ _ d2
        exact ⟨h1 ▸ d1, call, d3, p, d4, d5 ▸ (hhs z).1 hz⟩
      · exact absurd d1 (H.graph.disj _ hv)
    · intro h c d1 d2 p d3 d4 ⟨w, d5⟩
      refine ⟨p.2.hid, (hhs _).2 d4, .inl ⟨hv, h1 ▸ d1, ?_⟩⟩
      have hh := (H.call.callOk _ _ d2).1
      rw [← hh]
      exact (H.outs n c p w d3 ⟨hh.symm ▸ d1, hh.symm ▸ d2, d5⟩).2

/-- C84, `get_var_stats` and `get_func_stats`: one line for each variable and function, with the number of its values and calls. -/
theorem C84_stats {f : CFrame} (hv : f.vs.keys.Nodup) (hf : f.fs.keys.Nodup) :
    (∀ v, f.IsVar v ↔ ∃ k, (v, k) ∈ f.varStats) ∧ (∀ v k, (v, k) ∈ f.varStats → Counts (f.HasRef v) k) ∧
    (∀ n, f.IsFunc n ↔ ∃ k, (n, k) ∈ f.funcStats) ∧ (∀ n k, (n, k) ∈ f.funcStats → Counts (f.HasCall n) k) := by
  refine ⟨fun v => ⟨fun h => ?_, ?_⟩, fun v k h => ?_, fun v => ⟨fun h => ?_, ?_⟩, fun v k h => ?_⟩
  · obtain ⟨p, hp, rfl⟩ := List.mem_map.1 h
    exact ⟨_, List.mem_map_of_mem hp⟩
  · rintro ⟨k, h⟩
    obtain ⟨p, hp, e⟩ := List.mem_map.1 h
    cases e
    exact List.mem_map_of_mem hp
  · obtain ⟨p, hp, e⟩ := List.mem_map.1 h
    cases e
    have := (Dict.get?_eq_some_iff hv).2 hp
    exact counts_setLen fun c => ⟨fun hc => ⟨p.2, this, hc⟩, fun ⟨hs, e, hc⟩ => by rw [this] at e; cases e; exact hc⟩
  · obtain ⟨p, hp, rfl⟩ := List.mem_map.1 h
    exact ⟨_, List.mem_map_of_mem hp⟩
  · rintro ⟨k, h⟩
    obtain ⟨p, hp, e⟩ := List.mem_map.1 h
    cases e
    exact List.mem_map_of_mem hp
  · obtain ⟨p, hp, e⟩ := List.mem_map.1 h
    cases e
    have := (Dict.get?_eq_some_iff hf).2 hp
    exact counts_setLen fun c => ⟨fun hc => ⟨p.2, this, hc⟩, fun ⟨hs, e, hc⟩ => by rw [this] at e; cases e; exact hc⟩

/-- C84, `storage.cf(op).get_func_table(op.name)` (partial like `C83_cf_op_partial` and `C84_func_table_partial`). After any orderly processes the table has one row for each
recorded call of the op and nothing else; the cells of a row are exactly the recorded inputs and outputs of the call, and none of them is null. -/
theorem C84_recorded_table_partial (W : World) (hW : W.Good) (o : Option (Joblib Val)) (thr : Nat) (ho : ∀ j, o = some j → j = [])
    (ps : List (List Cmd × End)) (p : List Cmd) (h : KeptOK W (.fresh o thr) ps p) (hp : ∀ c ∈ p, c.NoClear)
    (s : St) (hs : s = (runLast W.cfg (.fresh o thr) ps p).2.2) (hf : Shallow W.cfg s)
    (op : String) (hop : op.toLower ∉ sqlNames) (hcl : ∀ r ∈ s.calls.pers, r.op = op → CFrame.NoClash op r.name)
    (hne : ∀ r ∈ s.calls.pers, ∀ r' ∈ s.calls.pers, r.op = op → r.callHid = r'.callHid → r.name = r'.name → r.dir = r'.dir) :
    ∃ g s' hs rows, cf W.cfg (.op op) s = (.ok g, s') ∧ s'.calls = s.calls ∧ g.funcTable op = .ok rows ∧ (∀ k, k ∈ hs ↔ ∃ r ∈ s.calls.pers, r.op = op ∧ r.callHid = k) ∧
      All2 (fun k row => (∀ x ref, row.get? x = some (some ref) ↔ ∃ r ∈ s.calls.pers, r.callHid = k ∧ r.name = x ∧ r.refHid = ref.hid ∧ r.refCid = ref.cid) ∧
        ∀ x, row.get? x ≠ some none) hs rows := by
  obtain ⟨g, s', h1, h2, h3, _, h5, h6, h7, _⟩ := C83_cf_op_partial W hW o thr ho ps p h hp s hs hf op hop hcl
  subst hs
  have hq := quer_last hW ho h hp hf
  have hR := answered_recOk hW hq
  have hapart : ∀ c, Answered W.cfg (runLast W.cfg (.fresh o thr) ps p).2.2 c → g.HasCall op c.hid → c.op = op ∧ ∀ x ∈ c.inputs.keys, x ∉ c.outputs.keys := by
    intro c hc hcg
    obtain ⟨obj, rfl, g1, _⟩ := answered_of hW hq hc
    obtain ⟨r, hr, e1, e2⟩ := (h6 _).1 hcg
    have hop' : obj.op = op := ((g1.header r hr e2).1).symm.trans e1
    refine ⟨hop', fun x hx hy => ?_⟩
    obtain ⟨p, hp, rfl⟩ := List.mem_map.1 hx
    obtain ⟨q, hq', e⟩ := List.mem_map.1 hy
    obtain ⟨r, hr, a1, a2, a3, _⟩ := (g1.inputs _ _ _).1 (mem_toF_inputs.1 hp)
    obtain ⟨r', hr', b1, b2, b3, _⟩ := (g1.outputs _ _ _).1 (mem_toF_outputs.1 hq')
    have := hne r hr r' hr' (((g1.header r hr a1).1).trans hop') (a1.trans b1.symm) (a3.trans (e.symm.trans b3.symm))
    rw [a2, b2] at this
    cases this
  obtain ⟨hs, rows, t1, t2, t3⟩ := C84_func_table_partial hR h3 ((h5 op).2 rfl) fun c hc hcg => (hapart c hc hcg).2
  refine ⟨g, s', hs, rows, h1, h2, t2, fun k => ?_, t3.imp_mem fun k hk row _ hrow => ?_⟩
  · rw [← h6]
    exact ⟨fun hk => ⟨hs, t1, hk⟩, fun ⟨hs', e, hk⟩ => by rw [t1] at e; cases e; exact hk⟩
  · obtain ⟨c, hc, rfl, S⟩ := hrow
    obtain ⟨hco, hca⟩ := hapart c hc ⟨hs, t1, hk⟩
    obtain ⟨obj, rfl, g1, _⟩ := answered_of hW hq hc
    have hin : ∀ q, (q ∈ obj.toF.inputs ∨ q ∈ obj.toF.outputs) ↔
        ∃ r ∈ (runLast W.cfg (.fresh o thr) ps p).2.2.calls.pers, r.callHid = obj.toF.hid ∧ r.name = q.1 ∧ r.refHid = q.2.hid ∧ r.refCid = q.2.cid := by
      intro q
      constructor
      · rintro (hq' | hq')
        · obtain ⟨r, hr, a1, _, a3, a4⟩ := (g1.inputs _ _ _).1 (mem_toF_inputs.1 hq')
          exact ⟨r, hr, a1, a3, a4⟩
        · obtain ⟨r, hr, a1, _, a3, a4⟩ := (g1.outputs _ _ _).1 (mem_toF_outputs.1 hq')
          exact ⟨r, hr, a1, a3, a4⟩
      · rintro ⟨r, hr, a1, a3, a4⟩
        cases hd : r.dir with
        | in_ => exact .inl (mem_toF_inputs.2 ((g1.inputs _ _ _).2 ⟨r, hr, a1, hd, a3, a4⟩))
        | out => exact .inr (mem_toF_outputs.2 ((g1.outputs _ _ _).2 ⟨r, hr, a1, hd, a3, a4⟩))
    have hcell : ∀ q, (q ∈ obj.toF.inputs ∨ q ∈ obj.toF.outputs) → row.get? q.1 = some (some q.2) := by
      intro q hq'
      refine S.cell q hq' ?_
      obtain ⟨r, hr, a1, a3, a4, _⟩ := (hin q).1 hq'
      exact (h7 _).2 ⟨r, hr, ((g1.header r hr a1).1).trans hco, a4⟩
    have hall : ∀ x y, row.get? x = some y → ∃ q, (q ∈ obj.toF.inputs ∨ q ∈ obj.toF.outputs) ∧ q.1 = x ∧ y = some q.2 := by
      intro x y hy
      have : ∃ q, (q ∈ obj.toF.inputs ∨ q ∈ obj.toF.outputs) ∧ q.1 = x := by
        rcases (S.cols x).1 (Dict.mem_keys.2 ⟨y, hy⟩) with hx | hx <;> obtain ⟨q, hq', e⟩ := List.mem_map.1 hx
        · exact ⟨q, .inl hq', e⟩
        · exact ⟨q, .inr hq', e⟩
      obtain ⟨q, hq', rfl⟩ := this
      rw [hcell q hq'] at hy
      exact ⟨q, hq', rfl, (Option.some.inj hy).symm⟩
    refine ⟨fun x ref => ⟨fun hx => ?_, fun hx => ?_⟩, fun x hx => ?_⟩
    · obtain ⟨q, hq', rfl, e⟩ := hall x _ hx
      cases e
      exact (hin q).1 hq'
    · exact hcell (x, ref) ((hin (x, ref)).2 hx)
    · obtain ⟨q, _, _, e⟩ := hall x _ hx
      cases e

/-! ### cases -/

section
open Ex

/-- a frame with two calls of `f` and one of `h`, which has an input that is not in the frame -/
example : ∃ d, frameFH.values = .ok d ∧ ∀ n, n ∈ d.keys ↔ frameFH.IsVar n ∨ frameFH.IsFunc n :=
  let ⟨d, h1, h2, _⟩ := C84_values wf_frameFH
  ⟨d, h1, h2⟩

example : ∃ hs rows, frameFH.fs.get? "h" = some hs ∧ frameFH.funcTable "h" = .ok rows ∧
    All2 (fun h row => ∃ c, c ∈ recd4 ∧ c.hid = h ∧ RowShows frameFH c row) hs rows :=
  C84_func_table_partial recOk4 wf_frameFH (by decide +kernel) fun c hc _ x hx hy => by
    have : ∀ c ∈ recd4, ∀ x ∈ Dict.keys c.inputs, x ∉ Dict.keys c.outputs := by decide +kernel
    exact this c hc x hx hy

/-- `w = h(y, x2)` without the argument `q` -/
example : (do let g ← runOps {} [.addFunc "h", .addVar "v", .addEdge "v" "h" "p", .addVar "o", .addEdge "h" "o" "output_0", .addCall "h" c4]; g.funcTable "h") =
    .ok [[("p", some y), ("q", none), ("output_0", some w)]] := by decide +kernel

example : (frameFH.varInfo "v").toOption = some (2, [("f", "output_0", 2)], [("h", "p", 1)]) ∧
    (frameFH.varInfo "a").toOption = some (2, [], [("f", "a", 2), ("h", "q", 1)]) := by
  refine ⟨?_, ?_⟩ <;> decide +kernel

example : ∃ m cr co, frameFH.varInfo "v" = .ok (m, cr, co) ∧ Counts (frameFH.HasRef "v") m :=
  let ⟨m, cr, co, h1, h2, _⟩ := C84_var_info recOk4 wf_frameFH (labelsOk_of (by decide +kernel)) (v := "v") (by decide +kernel)
  ⟨m, cr, co, h1, h2⟩

example : frameFH.vs.keys.Nodup ∧ frameFH.fs.keys.Nodup := by decide +kernel

/-- `storage.cf(inc).get_func_table("inc")` after the day of C82 -/
example : ∃ g s' hs rows, cf Ex.W.cfg (.op "inc") asked = (.ok g, s') ∧ s'.calls = asked.calls ∧ g.funcTable "inc" = .ok rows ∧
    (∀ k, k ∈ hs ↔ ∃ r ∈ asked.calls.pers, r.op = "inc" ∧ r.callHid = k) ∧
    All2 (fun k row => (∀ x ref, row.get? x = some (some ref) ↔ ∃ r ∈ asked.calls.pers, r.callHid = k ∧ r.name = x ∧ r.refHid = ref.hid ∧ r.refCid = ref.cid) ∧
      ∀ x, row.get? x ≠ some none) hs rows :=
  C84_recorded_table_partial Ex.W Ex.good none 100 nofun _ _ askDay_ok askDay_keeps asked rfl (shallow_sound asked_shallow) "inc" (by decide +kernel)
    (fun r hr e => e ▸ asked_names.noClash hr) (by
      have : ∀ r ∈ asked.calls.pers, ∀ r' ∈ asked.calls.pers, r.op = "inc" → r.callHid = r'.callHid → r.name = r'.name → r.dir = r'.dir := by decide +kernel
      exact this)

end

/-! ### refutation -/

/-- a call of `def f(output_0): ...` -/
def clashCall : FCall := ⟨"c", "f", [("output_0", ⟨"x", "cx"⟩)], [("output_0", ⟨"y", "cy"⟩)]⟩
def clashFrame : CFrame := ((CFrame.fromOp "f" [clashCall]).toOption).getD {}

/-- C84 is false for a function with an argument called like an output: the table has one column for both, with the output, and the input is not shown. -/
theorem C84_refuted_same_name : RecOk (· ∈ [clashCall]) ∧ clashFrame.check = true ∧ (∃ v, clashFrame.HasRef v "x") ∧
    clashFrame.funcTable "f" = .ok [[("output_0", some ⟨"y", "cy"⟩)]] := by
  refine ⟨recOk_of (by decide +kernel), ?_, ⟨"var_0", ["x"], ?_, ?_⟩, ?_⟩ <;> decide +kernel

end Verif.Props
