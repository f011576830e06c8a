import Verif.Proofs.CFrameExpandFresh
import Mathlib.Data.Finset.Card
import Mathlib.Data.Finset.Prod
/-!
Expanding a frame with nodes being reused (the default): no step fails, and the loops come to an end.
-/
namespace Verif

open Props

namespace CFrame

variable {R S : FCall → Prop} {f g : CFrame} {F V : String → Prop}

/-! ### nothing fails -/

theorem Base.get_call (H : Base R f) {n h : String} (hn : f.HasCall n h) : ∃ c, f.calls.get? h = some c ∧ c.hid = h ∧ R c := by
  obtain ⟨c, hc⟩ := Dict.mem_keys.1 ((H.call.calls h).2 ⟨n, hn⟩)
  exact ⟨c, hc, H.call.callOk h c hc⟩

theorem mapM_total {α β : Type} {G : α → Except Err β} {as : List α} (h : ∀ a ∈ as, ∃ b, G a = .ok b) : ∃ bs, as.mapM G = .ok bs := by
  induction as with
  | nil => exact ⟨[], rfl⟩
  | cons a as ih =>
    obtain ⟨b, hb⟩ := h a (by simp)
    obtain ⟨bs, hbs⟩ := ih fun x hx => h x (by simp [hx])
    exact ⟨b :: bs, by rw [List.mapM_cons, hb, hbs]; rfl⟩

theorem ioAt_total (H : Base R f) {n h : String} (hn : f.HasCall n h) (l : String) (io : FCall → Dict String FRef) : ∃ r, f.ioAt l io h = .ok r := by
  obtain ⟨c, hc, _⟩ := H.get_call hn
  exact ⟨_, by unfold ioAt; rw [getE_ok.2 hc]; rfl⟩

theorem setOf_get_var (H : GraphWf f) {v : String} {s : List String} (h : f.vs.get? v = some s) : f.setOf v = some s := by
  have : f.fs.get? v = none := Dict.get?_eq_none.2 (H.disj v (Dict.mem_keys.2 ⟨s, h⟩))
  unfold setOf
  rw [this, h]
  rfl

theorem setOf_get_func {n : String} {s : List String} (h : f.fs.get? n = some s) : f.setOf n = some s := by
  unfold setOf
  rw [h]
  rfl

theorem adjEltsEdge_total (H : Base R f) {e : String × String × String} (he : f.HasEdge e.1 e.2.1 e.2.2) (dir : Side) :
    ∃ r, f.adjEltsEdge e ((f.setOf (startOf dir e)).getD []) dir = .ok r := by
  have sub : ∀ s : List String, PySet.subset s s = true := fun s => PySet.subset_iff.2 fun _ h => h
  have novar : ∀ {n}, f.IsFunc n → f.vs.get? n = none := fun hn => Dict.get?_eq_none.2 fun h => H.graph.disj _ h hn
  unfold adjEltsEdge
  rcases H.graph.bip _ _ _ he with ⟨hs, hd⟩ | ⟨hs, hd⟩
  · obtain ⟨s, es⟩ := Dict.mem_keys.1 hs
    obtain ⟨d, ed⟩ := Dict.mem_keys.1 hd
    cases dir with
    | back =>
      obtain ⟨r, hr⟩ := mapM_total (G := f.ioAt e.2.2 FCall.inputs) (as := d) fun h hh => ioAt_total H ⟨d, ed, hh⟩ _ _
      simp only [startOf, setOf_get_func ed, novar hd, Option.getD_some, getE_ok.2 ed, getE_ok.2 es, sub, if_true, bind, Except.bind, hr]
      exact ⟨_, rfl⟩
    | forward =>
      obtain ⟨r, hr⟩ := mapM_total (G := fun h => do
          let hs ← f.ioAt e.2.2 FCall.inputs h
          .ok (if hs.any (· ∈ s) then [h] else [])) (as := d) fun h hh => by
        obtain ⟨x, hx⟩ := ioAt_total H ⟨d, ed, hh⟩ e.2.2 FCall.inputs
        exact ⟨_, by rw [hx]; rfl⟩
      simp only [bind, Except.bind] at hr
      simp only [startOf, setOf_get_var H.graph es, es, Option.getD_some, getE_ok.2 ed, sub, if_true, bind, Except.bind, hr]
      exact ⟨_, rfl⟩
  · obtain ⟨s, es⟩ := Dict.mem_keys.1 hs
    obtain ⟨d, ed⟩ := Dict.mem_keys.1 hd
    cases dir with
    | back =>
      simp only [startOf, setOf_get_var H.graph ed, ed, Option.getD_some, getE_ok.2 es, sub, if_true, bind, Except.bind]
      exact ⟨_, rfl⟩
    | forward =>
      obtain ⟨r, hr⟩ := mapM_total (G := f.ioAt e.2.2 FCall.outputs) (as := s) fun h hh => ioAt_total H ⟨s, es, hh⟩ _ _
      simp only [startOf, setOf_get_func es, novar hs, Option.getD_some, getE_ok.2 ed, getE_ok.2 es, sub, if_true, bind, Except.bind, hr]
      exact ⟨_, rfl⟩

theorem foldlM_total {α β : Type} {step : β → α → Except Err β} {as : List α} (h : ∀ a ∈ as, ∀ b, ∃ b', step b a = .ok b') : ∀ b, ∃ b', as.foldlM step b = .ok b' := by
  induction as with
  | nil => intro b; exact ⟨b, rfl⟩
  | cons a as ih =>
    intro b
    obtain ⟨b', hb⟩ := h a (by simp) b
    obtain ⟨r, hr⟩ := ih (fun x hx => h x (by simp [hx])) b'
    exact ⟨r, by rw [List.foldlM_cons, hb]; exact hr⟩

theorem mapM_keys {β : Type} {G : String → Except Err β} : ∀ {ns : List String} {r : List (String × β)},
    (ns.mapM fun n => do let b ← G n; .ok (n, b)) = Except.ok (ε := Err) r → Dict.keys r = ns := by
  intro ns
  induction ns with
  | nil => intro r h; cases h; rfl
  | cons n ns ih =>
    intro r h
    rw [List.mapM_cons] at h
    obtain ⟨x, h1, h⟩ := exBind_ok.1 h
    obtain ⟨xs, h2, h⟩ := exBind_ok.1 h
    obtain ⟨b, _, h1⟩ := exBind_ok.1 h1
    cases h1
    cases h
    show n :: Dict.keys xs = n :: ns
    rw [ih h2]

theorem endElts_total (H : Base R f) (dir : Side) : ∃ r, f.endElts dir = .ok r ∧ Dict.keys r = f.nodes := by
  have : ∃ r, f.endElts dir = .ok r := by
    unfold endElts
    refine mapM_total fun n _ => ?_
    obtain ⟨r, hr⟩ := foldlM_total (step := fun acc e => do
      let hs ← f.adjEltsEdge e ((f.setOf (startOf dir e)).getD []) dir
      .ok (PySet.union acc hs)) (as := f.edgesAt dir n) (fun e he b => by
        obtain ⟨x, hx⟩ := adjEltsEdge_total H (mem_edgesAt.1 he).1 dir
        exact ⟨_, by rw [hx]; rfl⟩) []
    exact ⟨_, by rw [hr]; rfl⟩
  obtain ⟨r, hr⟩ := this
  refine ⟨r, hr, ?_⟩
  have h := hr
  unfold endElts at h
  refine mapM_keys (G := fun n => do
    let linked ← (f.edgesAt dir n).foldlM (fun acc e => do
      let hs ← f.adjEltsEdge e ((f.setOf (startOf dir e)).getD []) dir
      .ok (PySet.union acc hs)) []
    .ok (PySet.diff ((f.setOf n).getD []) linked)) ?_
  rw [← h]
  congr 1
  funext n
  cases (f.edgesAt dir n).foldlM (fun acc e => do
      let hs ← f.adjEltsEdge e ((f.setOf (startOf dir e)).getD []) dir
      .ok (PySet.union acc hs)) [] <;> rfl

theorem ops_total (hk : f.fs.keys.Nodup) (h : ∀ n, f.IsFunc n → ∃ x, f.HasCall n x) (H : Base R f) :
    ∃ o, f.ops = .ok o ∧ ∀ n, f.IsFunc n → ∃ c, f.HasCall n c.hid ∧ f.calls.get? c.hid = some c ∧ Dict.get? o n = some c.op := by
  have gen : ∀ ps : Dict String (List String), (∀ p ∈ ps, ∃ x t c, p.2 = x :: t ∧ f.calls.get? x = some c) →
      ∃ o : Dict String String, ps.mapM (fun p => (match p.2 with
        | [] => .error .notImplemented
        | h :: _ => do
          let c ← getE f.calls h
          .ok (p.1, c.op) : Except Err (String × String))) = .ok o ∧
        ∀ n s, ps.get? n = some s → ∃ x t c, s = x :: t ∧ f.calls.get? x = some c ∧ o.get? n = some c.op := by
    intro ps
    induction ps with
    | nil => intro _; exact ⟨[], rfl, by intro n s h; cases h⟩
    | cons p ps ih =>
      intro hp
      obtain ⟨x, t, c, e, hc⟩ := hp p (by simp)
      obtain ⟨o, ho, h'⟩ := ih fun q hq => hp q (by simp [hq])
      refine ⟨(p.1, c.op) :: o, ?_, ?_⟩
      · rw [List.mapM_cons, ho, e]
        simp only [getE_ok.2 hc, bind, Except.bind, pure, Except.pure]
      · intro n s hs
        rw [Dict.get?_cons] at hs ⊢
        split
        · rename_i en
          rw [if_pos en] at hs
          cases hs
          exact ⟨x, t, c, e, hc, rfl⟩
        · rename_i en
          rw [if_neg en] at hs
          exact h' n s hs
  obtain ⟨o, ho, h'⟩ := gen f.fs (fun p hp => by
    have hg : f.fs.get? p.1 = some p.2 := (Dict.get?_eq_some_iff hk).2 hp
    obtain ⟨y, s, hs, hy⟩ := h p.1 (Dict.mem_keys.2 ⟨_, hg⟩)
    rw [hg] at hs
    cases hs
    cases e : p.2 with
    | nil => rw [e] at hy; cases hy
    | cons x t =>
      obtain ⟨c, hc, _⟩ := H.get_call (n := p.1) (h := x) ⟨p.2, hg, by rw [e]; simp⟩
      exact ⟨x, t, c, rfl, hc⟩)
  refine ⟨o, ho, fun n hn => ?_⟩
  obtain ⟨s, hs⟩ := Dict.mem_keys.1 hn
  obtain ⟨x, t, c, e, hc, ho'⟩ := h' n s hs
  have := (H.call.callOk x c hc).1
  subst this
  exact ⟨c, ⟨s, hs, by rw [e]; simp⟩, hc, ho'⟩

/-- Looking for a function to be reused: the one that is found has calls of the op only; if none is found, there is none with such
calls. -/
theorem findFunc_total (hR : RecOk R) (H : Base R f) (U : Full f) {op : String} {cs : List FCall} (hne : cs ≠ []) (hc : ∀ c ∈ cs, R c ∧ c.op = op) :
    ∀ ns : List String, (∀ n ∈ ns, f.IsFunc n) → ∃ r, f.findFunc op (cs.map (·.hid)) ns = .ok r ∧
      (r = none → ∀ n ∈ ns, ∀ c, f.HasCall n c.hid → f.calls.get? c.hid = some c → c.op ≠ op) ∧
      ∀ n, r = some n → ∀ c, f.HasCall n c.hid → f.calls.get? c.hid = some c → c.op = op := by
  obtain ⟨o, ho, hops⟩ := ops_total U.keys U.call H
  intro ns
  induction ns with
  | nil => intro _; exact ⟨none, rfl, by simp, by simp⟩
  | cons n ns ih =>
    intro hn
    obtain ⟨s, hs⟩ := Dict.mem_keys.1 (hn n (by simp))
    unfold findFunc
    rw [getE_ok.2 hs]
    simp only [bind, Except.bind]
    split
    · rename_i hsub
      refine ⟨_, rfl, fun h => (by cases h), fun m hm c hc1 hc2 => ?_⟩
      cases hm
      rw [Bool.or_eq_true, Bool.and_eq_true, PySet.subset_iff, PySet.subset_iff] at hsub
      have key : ∃ c0, f.HasCall n c0.hid ∧ f.calls.get? c0.hid = some c0 ∧ c0.op = op := by
        have pick : ∀ c0 ∈ cs, f.HasCall n c0.hid → ∃ c0, f.HasCall n c0.hid ∧ f.calls.get? c0.hid = some c0 ∧ c0.op = op := by
          intro c0 h0 hin
          obtain ⟨c1, k1, k2, k3⟩ := H.get_call hin
          rw [hR.hid c1 c0 k3 (hc c0 h0).1 k2] at k1
          exact ⟨c0, hin, k1, (hc c0 h0).2⟩
        rcases hsub with hsub | ⟨hsub, hne'⟩
        · obtain ⟨c0, h0⟩ := List.exists_mem_of_ne_nil _ hne
          exact pick c0 h0 ⟨s, hs, hsub _ (List.mem_map.2 ⟨c0, h0, rfl⟩)⟩
        · obtain ⟨x, hx⟩ : ∃ x, x ∈ s := List.exists_mem_of_ne_nil _ (by
            intro e
            rw [e] at hne'
            simp at hne')
          obtain ⟨c0, h0, e⟩ := List.mem_map.1 (hsub x hx)
          exact pick c0 h0 ⟨s, hs, by rw [e]; exact hx⟩
      obtain ⟨c0, k1, k2, k3⟩ := key
      rw [← k3]
      exact U.same n c c0 hc1 hc2 k1 k2
    · obtain ⟨c0, k1, k2, k3⟩ := hops n (hn n (by simp))
      simp only [ho, getE_ok.2 k3]
      split
      · rename_i e
        refine ⟨_, rfl, fun h => (by cases h), fun m hm c hc1 hc2 => ?_⟩
        cases hm
        rw [← e]
        exact U.same n c c0 hc1 hc2 k1 k2
      · rename_i e
        obtain ⟨r, r1, r2, r3⟩ := ih fun m hm => hn m (by simp [hm])
        refine ⟨r, r1, fun hr m hm c hc1 hc2 => ?_, r3⟩
        rcases List.mem_cons.1 hm with rfl | hm
        · intro e'
          exact e ((U.same m c0 c k1 k2 hc1 hc2).trans e')
        · exact r2 hr m hm c hc1 hc2

theorem joinEdge_total (H : Base R f) {dir : Side} {v n l : String} {allow : Bool} (hv : f.IsVar v) (hn : f.IsFunc n)
    (ha : allow = true ∨ ¬ Joined f dir v n l) : ∃ g, f.joinEdge dir v n l allow = .ok g ∧
      ∀ v' n' l' dir', Joined g dir' v' n' l' → Joined f dir' v' n' l' ∨ l' = l := by
  have gen : ∀ s d, ((f.IsVar s ∧ f.IsFunc d) ∨ (f.IsFunc s ∧ f.IsVar d)) → (allow = true ∨ ¬ f.HasEdge s d l) →
      ∃ g, f.addEdge s d l allow = .ok g ∧ ∀ s' d' l', g.HasEdge s' d' l' → f.HasEdge s' d' l' ∨ l' = l := by
    intro s d hb ha
    unfold addEdge
    by_cases he : f.HasEdge s d l
    · rw [if_pos (mem_edges.2 he), if_pos (ha.resolve_right fun h => h he)]
      exact ⟨f, rfl, fun _ _ _ h => .inl h⟩
    · have h1 : s ∈ f.out.keys := (H.graph.outKey s).2 (hb.elim (fun h => .inl h.1) fun h => .inr h.1)
      have h2 : d ∈ f.inp.keys := (H.graph.inpKey d).2 (hb.elim (fun h => .inr h.2) fun h => .inl h.2)
      rw [if_neg (fun h => he (mem_edges.1 h)), if_pos (by rw [Bool.and_eq_true]; exact ⟨Dict.has_iff.2 h1, Dict.has_iff.2 h2⟩)]
      refine ⟨_, rfl, fun s' d' l' h => ?_⟩
      rcases inAdj_add.1 h with h | ⟨_, e, _⟩
      · exact .inl h
      · exact .inr e.symm
  cases dir with
  | back =>
    obtain ⟨g, h1, h2⟩ := gen n v (.inr ⟨hn, hv⟩) ha
    refine ⟨g, h1, fun v' n' l' dir' h => ?_⟩
    cases dir' <;> exact h2 _ _ _ h
  | forward =>
    obtain ⟨g, h1, h2⟩ := gen v n (.inl ⟨hv, hn⟩) ha
    refine ⟨g, h1, fun v' n' l' dir' h => ?_⟩
    cases dir' <;> exact h2 _ _ _ h

/-- The function has a variable for the label. -/
def Lab (dir : Side) (f : CFrame) (n l : String) : Prop := ∃ v, Joined f dir v n l

theorem Grows.lab (h : Grows S f g) {dir : Side} {n l : String} (hl : Lab dir f n l) : Lab dir g n l := by
  obtain ⟨v, hv⟩ := hl
  exact ⟨v, h.joined hv⟩

theorem lab_keys (H : Base R f) {dir : Side} {n l : String} {side : SetDict} (hs : Dict.get? (f.sideOf dir) n = some side) (h : Lab dir f n l) : l ∈ Dict.keys side := by
  obtain ⟨v, hv⟩ := h
  cases dir with
  | back =>
    obtain ⟨i, hi, h'⟩ := hv
    have : f.out.get? n = some side := hs
    rw [this] at hi
    cases hi
    exact h'.key
  | forward =>
    obtain ⟨i, hi, h'⟩ := (H.graph.sym _ _ _).1 hv
    have : f.inp.get? n = some side := hs
    rw [this] at hi
    cases hi
    exact h'.key

theorem addVar_joined (H : Base R f) {v : String} (hv : v ∉ f.nodes) {dir : Side} {w n l : String} (h : Joined (f.addVar v) dir w n l) : Joined f dir w n l := by
  have ho : ∀ {n l m}, InAdj (f.out.set v []) n l m ↔ InAdj f.out n l m := inAdj_set_nil fun _ _ => H.not_node_out hv
  cases dir <;> exact ho.1 h

/-- The variables on the other side: none of the steps fails. -/
theorem duals_total {dir : Side} {n : String} {cs : List FCall} {existing : List String} (hc : ∀ c ∈ cs, R c) :
    ∀ (ls : List String), (∀ l ∈ ls, l ∈ sideLabels dir.flip cs) → ls.Nodup → ∀ f : CFrame, Ready R F V f → f.IsFunc n →
      (∀ l ∈ ls, l ∉ existing → ¬ Lab dir.flip f n l) →
      ∃ g, ls.foldlM (dualVar dir true n cs existing) f = .ok g ∧ Ready R F V g ∧ Grows S f g ∧ g.fs = f.fs ∧ g.calls = f.calls ∧
        ((∀ l ∈ ls, l ∈ existing) → g = f) ∧ ∀ l ∈ ls, l ∉ existing → Lab dir.flip g n l := by
  intro ls
  induction ls with
  | nil => intro _ _ f E hn _; exact ⟨f, rfl, E, .refl, rfl, rfl, fun _ => rfl, by simp⟩
  | cons l ls ih =>
    intro hls hnd f E hn hlab
    rw [List.nodup_cons] at hnd
    have step : ∃ f', dualVar dir true n cs existing f l = .ok f' ∧ (∀ l', Lab dir.flip f' n l' → Lab dir.flip f n l' ∨ l' = l) ∧ (l ∈ existing → f' = f) ∧
        f'.fs = f.fs ∧ f'.calls = f.calls := by
      unfold dualVar
      by_cases he : l ∈ existing
      · rw [if_pos he]
        exact ⟨f, rfl, fun l' h => .inl h, fun _ => rfl, rfl, rfl⟩
      · rw [if_neg he]
        have hno := hlab l (by simp) he
        simp only [if_true]
        split
        · rename_i v hf
          obtain ⟨g, h1, h2⟩ := joinEdge_total E.base (dir := dir.flip) (l := l) (allow := false) (findVar_var hf) hn (.inr fun h => hno ⟨v, h⟩)
          obtain ⟨_, _, _, _, b5, b6⟩ := base_joinEdge (S := S) E.base h1 (findVar_var hf) hn
          refine ⟨g, h1, fun l' ⟨w, hw⟩ => ?_, fun h => absurd h he, b5, b6⟩
          exact (h2 _ _ _ _ hw).imp (fun h => ⟨w, h⟩) id
        · obtain ⟨c, p, k1, k2, rfl⟩ := sideLabels_spec hc (hls l (by simp))
          obtain ⟨v, v1, v2, v3⟩ := E.fresh_var k1 k2
          obtain ⟨a1, a2, a3⟩ := base_addVar (S := S) E.base v2
          simp only [v1, ended, bind, Except.bind]
          have hv : (f.addVar v).IsVar v := (a3 v).2 (.inl rfl)
          obtain ⟨g, h1, h2⟩ := joinEdge_total a1 (dir := dir.flip) (l := nameProj c.op p.1) (allow := false) hv (a2.func n hn)
            (.inr fun h => hno ⟨v, addVar_joined E.base v2 h⟩)
          obtain ⟨_, _, _, _, b5, b6⟩ := base_joinEdge (S := S) a1 h1 hv (a2.func n hn)
          refine ⟨g, h1, fun l' ⟨w, hw⟩ => ?_, fun h => absurd h he, b5, b6⟩
          exact (h2 _ _ _ _ hw).imp (fun h => ⟨w, addVar_joined E.base v2 h⟩) id
    obtain ⟨f', h1, h2, h3, h4, h5⟩ := step
    obtain ⟨b1, b2, b3, b4⟩ := dualVar_ok (S := S) E hn (sideLabels_spec hc (hls l (by simp))) h1
    obtain ⟨g, g1, g2, g3, g4, g5, g6, g7⟩ := ih (fun x hx => hls x (by simp [hx])) hnd.2 f' b1 b3 (by
      intro x hx hxe hL
      rcases h2 x hL with h | rfl
      · exact hlab x (by simp [hx]) hxe h
      · exact hnd.1 hx)
    refine ⟨g, by rw [List.foldlM_cons, h1]; exact g1, g2, b2.trans g3, g4.trans h4, g5.trans h5, fun h => ?_, ?_⟩
    · rw [g6 fun x hx => h x (by simp [hx]), h3 (h l (by simp))]
    · intro x hx hxe
      rcases List.mem_cons.1 hx with rfl | hx
      · exact g3.lab (b4.resolve_left hxe)
      · exact g7 x hx hxe

theorem glue_total {dir : Side} {n : String} : ∀ (xs : List (String × String)) (f : CFrame), Ready R F V f → f.IsFunc n → (∀ x ∈ xs, f.IsVar x.2) →
    ∃ g, xs.foldlM (fun f lv => f.joinEdge dir lv.2 n lv.1 true) f = .ok g ∧ Ready R F V g ∧ Grows S f g ∧ g.vs = f.vs ∧ g.fs = f.fs ∧ g.calls = f.calls := by
  intro xs
  induction xs with
  | nil => intro f E _ _; exact ⟨f, rfl, E, .refl, rfl, rfl, rfl⟩
  | cons x xs ih =>
    intro f E hn hv
    obtain ⟨f', h1, _⟩ := joinEdge_total E.base (dir := dir) (l := x.1) (allow := true) (hv x (by simp)) hn (.inl rfl)
    obtain ⟨b1, b2, b3, b4, b5, b6⟩ := base_joinEdge (S := S) E.base h1 (hv x (by simp)) hn
    obtain ⟨g, g1, g2, g3, g4, g5, g6⟩ := ih f' (E.congr b1 (fun w hw => by unfold IsVar at *; rwa [b4] at hw) (fun w hw => by unfold IsFunc at *; rwa [b5] at hw))
      (b2.func n hn) fun y hy => b2.var _ (hv y (by simp [hy]))
    exact ⟨g, by rw [List.foldlM_cons, h1]; exact g1, g2, b2.trans g3, g4.trans b4, g5.trans b5, g6.trans b6⟩

theorem addCall_some (H : Base R f) {n : String} {c : FCall} (hn : f.IsFunc n) : ∃ g, f.addCall n c true true = .ok g ∧ (f.fs.keys.Nodup → g.fs.keys.Nodup) := by
  obtain ⟨s, hs⟩ := Dict.mem_keys.1 hn
  by_cases hin : c.hid ∈ s
  · refine ⟨f, ?_, id⟩
    unfold addCall
    rw [getE_ok.2 hs]
    simp only [bind, Except.bind, hin, if_true]
  · obtain ⟨i, hi⟩ := Dict.mem_keys.1 ((H.graph.inpKey n).2 (.inr hn))
    obtain ⟨o, ho⟩ := Dict.mem_keys.1 ((H.graph.outKey n).2 (.inr hn))
    have hiv : ∀ l v, InSet i l v → f.IsVar v := by
      intro l v h
      rcases H.graph.bip _ _ _ ((H.graph.sym v n l).2 ((inAdj_of_get hi).2 h)) with h | h
      · exact h.1
      · exact absurd hn (H.graph.disj _ h.2)
    have hov : ∀ l v, InSet o l v → f.IsVar v := by
      intro l v h
      rcases H.graph.bip n v l ((inAdj_of_get ho).2 h) with h | h
      · exact absurd hn (H.graph.disj _ h.1)
      · exact h.2
    obtain ⟨g1, hg1, a1⟩ := addInputs_spec (n := n) (c := c) (i := i) (ps := c.inputs) (f := reg f n c s) (H.ref.congr rfl rfl rfl) hi hiv
    obtain ⟨g2, hg2, a2⟩ := addOutputs_spec (n := n) (c := c) (i := o) (ps := c.outputs) (f := g1) a1.wf
      (by rw [a1.rest]; exact ho) (fun l v h => (a1.keys v).2 (hov l v h))
    refine ⟨g2, ?_, fun h => ?_⟩
    · unfold addCall
      rw [getE_ok.2 hs]
      simp only [bind, Except.bind, hin, if_false, if_true]
      unfold reg at hg1
      rw [hg1]
      exact hg2
    · rw [a2.rest, a1.rest]
      exact Dict.nodup_set h _ _

theorem calls_total {n : String} : ∀ (cs : List FCall), (∀ c ∈ cs, R c) → (∀ c ∈ cs, S c) → ∀ f : CFrame, Ready R F V f → f.IsFunc n →
    ∃ g, cs.foldlM (fun f c => f.addCall n c true true) f = .ok g ∧ Ready R F V g ∧ Grows S f g ∧ (∀ v, g.IsVar v ↔ f.IsVar v) ∧ (∀ m, g.IsFunc m ↔ f.IsFunc m) ∧
      (∀ m h, g.HasCall m h ↔ f.HasCall m h ∨ (m = n ∧ ∃ c ∈ cs, c.hid = h)) ∧ (f.fs.keys.Nodup → g.fs.keys.Nodup) := by
  intro cs
  induction cs with
  | nil => intro _ _ f E _; exact ⟨f, rfl, E, .refl, fun _ => Iff.rfl, fun _ => Iff.rfl, by simp, id⟩
  | cons c cs ih =>
    intro hR hS f E hn
    obtain ⟨f', h1, hnd⟩ := addCall_some E.base (c := c) hn
    obtain ⟨b1, b2, b3, _, _, b6, b7⟩ := base_addCall (S := S) E.base (hR c (by simp)) (hS c (by simp)) h1
    have hcall : ∀ m h, f'.HasCall m h ↔ f.HasCall m h ∨ (m = n ∧ c.hid = h) := by
      rcases addCall_cases h1 with ⟨rfl, hin⟩ | ⟨s, hs, hni⟩
      · intro m h
        refine ⟨.inl, ?_⟩
        rintro (h | ⟨rfl, rfl⟩)
        · exact h
        · exact hin
      · intro m h
        rw [(addCall_base E.base (hR c (by simp)) hs hni (.inl h1)).1.fs]
        rw [eq_comm (a := h)]
    obtain ⟨g, g1, g2, g3, g4, g5, g6, g7⟩ := ih (fun x hx => hR x (by simp [hx])) (fun x hx => hS x (by simp [hx])) f'
      (E.congr b1 (fun w hw => (b6 w).1 hw) (fun w hw => (b7 w).1 hw)) (b2.func n hn)
    refine ⟨g, by rw [List.foldlM_cons, h1]; exact g1, g2, b2.trans g3, fun v => (g4 v).trans (b6 v), fun m => (g5 m).trans (b7 m), ?_, fun h => g7 (hnd h)⟩
    intro m h
    rw [g6, hcall]
    constructor
    · rintro ((h | ⟨rfl, e⟩) | ⟨rfl, c', hc', e⟩)
      · exact .inl h
      · exact .inr ⟨rfl, c, by simp, e⟩
      · exact .inr ⟨rfl, c', by simp [hc'], e⟩
    · rintro (h | ⟨rfl, c', hc', e⟩)
      · exact .inl (.inl h)
      · rcases List.mem_cons.1 hc' with rfl | hc'
        · exact .inl (.inr ⟨rfl, e⟩)
        · exact .inr ⟨rfl, c', hc', e⟩

/-! ### one group -/

theorem sideLabels_nodup (dir : Side) (cs : List FCall) : (sideLabels dir cs).Nodup := nodup_sortNames (PySet.nodup_ofList _)

/-- The frame has a call of the op. -/
def Covers (f : CFrame) (op : String) : Prop := ∃ n c, f.HasCall n c.hid ∧ f.calls.get? c.hid = some c ∧ c.op = op

theorem Grows.get (hR : RecOk R) (hf : Base R f) (hg : Base R g) (h : Grows S f g) {n : String} {c : FCall} (hn : f.HasCall n c.hid) (hc : f.calls.get? c.hid = some c) :
    g.calls.get? c.hid = some c := by
  obtain ⟨c', h1, h2, h3⟩ := hg.get_call (h.call _ _ hn)
  rwa [hR.hid c' c h3 (hf.call.callOk _ _ hc).2 h2] at h1

theorem Grows.covers (hR : RecOk R) (hf : Base R f) (hg : Base R g) (h : Grows S f g) {op : String} (hc : Covers f op) : Covers g op := by
  obtain ⟨n, c, h1, h2, h3⟩ := hc
  exact ⟨n, c, h.call _ _ h1, h.get hR hf hg h1 h2, h3⟩

/-- A group is added, with a function being reused if there is one: this does not fail; a new function is made only if the frame had
no call of the op; a new variable is made only if the function had none for the label. -/
theorem expandGroup_total (hR : RecOk R) (E : Ready R F V f) (U : Full f) {dir : Side} {k : GroupId} {cs : List FCall} (hne : cs ≠ [])
    (hc : ∀ c ∈ cs, R c ∧ c.op = k.1) (hs : ∀ c ∈ cs, S c) (hv : ∀ lv ∈ k.2, ∀ v ∈ lv.2, f.IsVar v) :
    ∃ g n, expandGroup dir true f (k, cs) = .ok g ∧ Ready R F V g ∧ Grows S f g ∧ Full g ∧ (∀ m, g.IsFunc m ↔ f.IsFunc m ∨ m = n) ∧ Covers g k.1 ∧
      (f.IsFunc n ∨ ¬ Covers f k.1) ∧
      ((∀ v, g.IsVar v ↔ f.IsVar v) ∨ ∃ l ∈ sideLabels dir.flip cs, ¬ Lab dir.flip f n l ∧ Lab dir.flip g n l) := by
  have hcR : ∀ c ∈ cs, R c := fun c h => (hc c h).1
  obtain ⟨c0, hc0⟩ := List.exists_mem_of_ne_nil _ hne
  -- the function
  have hfn : ∃ f1 n, f.groupFunc true k.1 cs = .ok (f1, n) ∧ Ready R F V f1 ∧ Grows S f f1 ∧ f1.IsFunc n ∧ (∀ m, f1.IsFunc m ↔ f.IsFunc m ∨ m = n) ∧
      f1.fs.keys.Nodup ∧ f1.vs = f.vs ∧ f1.calls = f.calls ∧ (∀ m h, f1.HasCall m h ↔ f.HasCall m h) ∧ (f.IsFunc n ∨ ¬ Covers f k.1) ∧
      (∀ c, f.HasCall n c.hid → f.calls.get? c.hid = some c → c.op = k.1) := by
    obtain ⟨r, r1, r2, r3⟩ := findFunc_total hR E.base U hne hc (sortNames f.fs.keys) fun n hn => mem_sortNames.1 hn
    unfold groupFunc lookFunc
    simp only [if_true, r1, bind, Except.bind]
    cases r with
    | some n =>
      have hn := findFunc_func r1
      refine ⟨f, n, rfl, E, .refl, hn, fun m => ⟨.inl, ?_⟩, U.keys, rfl, rfl, fun _ _ => Iff.rfl, .inl hn, r3 n rfl⟩
      rintro (h | rfl)
      · exact h
      · exact hn
    | none =>
      obtain ⟨n, h1, h2, h3⟩ := E.fresh_func (hcR c0 hc0)
      rw [(hc c0 hc0).2] at h1
      obtain ⟨a1, a2, a3⟩ := base_addFunc (S := S) E.base h2
      have hno : ∀ h, ¬ f.HasCall n h := fun h hh => h2 (mem_nodes.2 (.inr hh.key))
      have hcall : ∀ m h, (f.addFunc n).HasCall m h ↔ f.HasCall m h := fun m h => inSet_set_nil hno
      simp only [h1, ended]
      refine ⟨_, n, rfl, E.addFunc h2 h3, a2, (a3 n).2 (.inl rfl), fun m => (a3 m).trans or_comm, Dict.nodup_set U.keys _ _, rfl, rfl, hcall, .inr ?_,
        fun c hcn => absurd hcn (hno _)⟩
      rintro ⟨m, c, k1, k2, k3⟩
      exact r2 rfl m (mem_sortNames.2 k1.key) c k1 k2 k3
  obtain ⟨f1, n, h1, E1, G1, N1, F1, K1, V1, C1, HC1, hnew, hop⟩ := hfn
  obtain ⟨f2, h2, E2, G2, V2, F2, C2⟩ := glue_total (S := S) (dir := dir) (n := n) (k.2.flatMap fun lv => lv.2.map fun v => (lv.1, v)) f1 E1 N1 (by
    intro x hx
    obtain ⟨lv, hlv, hx⟩ := List.mem_flatMap.1 hx
    obtain ⟨v, hv', rfl⟩ := List.mem_map.1 hx
    exact G1.var v (hv lv hlv v hv'))
  have N2 : f2.IsFunc n := G2.func n N1
  obtain ⟨side, hside⟩ : ∃ side, Dict.get? (f2.sideOf dir.flip) n = some side := by
    cases dir with
    | back => exact Dict.mem_keys.1 ((E2.base.graph.inpKey n).2 (.inr N2))
    | forward => exact Dict.mem_keys.1 ((E2.base.graph.outKey n).2 (.inr N2))
  obtain ⟨f3, h3, E3, G3, F3, C3, same3, lab3⟩ := duals_total (S := S) (dir := dir) (n := n) (cs := cs) (existing := Dict.keys side) hcR (sideLabels dir.flip cs)
    (fun _ h => h) (sideLabels_nodup _ _) f2 E2 N2 (fun l _ hl hL => hl (lab_keys E2.base hside hL))
  obtain ⟨g, h4, E4, G4, V4, F4, HC4, K4⟩ := calls_total (S := S) (n := n) cs hcR hs f3 E3 (G3.func n N2)
  have G : Grows S f g := ((G1.trans G2).trans G3).trans G4
  have hcall : ∀ m h, g.HasCall m h ↔ f.HasCall m h ∨ (m = n ∧ ∃ c ∈ cs, c.hid = h) := by
    intro m h
    rw [HC4]
    have : f3.HasCall m h ↔ f.HasCall m h := by
      unfold HasCall
      rw [F3, F2]
      exact HC1 m h
    rw [this]
  have hfunc : ∀ m, g.IsFunc m ↔ f.IsFunc m ∨ m = n := by
    intro m
    rw [F4]
    unfold IsFunc
    rw [F3, F2]
    exact F1 m
  have hn0 : g.HasCall n c0.hid := (hcall _ _).2 (.inr ⟨rfl, c0, hc0, rfl⟩)
  have old : ∀ m c, f.HasCall m c.hid → g.calls.get? c.hid = some c → f.calls.get? c.hid = some c := by
    intro m c hm hg'
    obtain ⟨c', k1, k2, k3⟩ := E.base.get_call hm
    rwa [hR.hid c' c k3 (E4.base.call.callOk _ _ hg').2 k2] at k1
  have opn : ∀ c, g.HasCall n c.hid → g.calls.get? c.hid = some c → c.op = k.1 := by
    intro c hcn hcg
    rcases (hcall _ _).1 hcn with h | ⟨_, c', hc', e⟩
    · exact hop c h (old n c h hcg)
    · rw [← hR.hid c' c (hcR c' hc') (E4.base.call.callOk _ _ hcg).2 e]
      exact (hc c' hc').2
  have K3 : f3.fs.keys.Nodup := by rw [F3, F2]; exact K1
  refine ⟨g, n, ?_, E4, G, ⟨K4 K3, ?_, ?_⟩, hfunc, ?_, hnew, ?_⟩
  · unfold expandGroup
    simp only [h1, bind, Except.bind]
    have h2' := h2
    simp only [h2', getE_ok.2 hside, h3]
    exact h4
  · intro m hm
    rcases (hfunc m).1 hm with hm | rfl
    · obtain ⟨h, hh⟩ := U.call m hm
      exact ⟨h, G.call _ _ hh⟩
    · exact ⟨_, hn0⟩
  · intro m c c' k1 k2 k3 k4
    by_cases e : m = n
    · subst e
      rw [opn c k1 k2, opn c' k3 k4]
    · have k1' := ((hcall _ _).1 k1).resolve_right fun h => e h.1
      have k3' := ((hcall _ _).1 k3).resolve_right fun h => e h.1
      exact U.same m c c' k1' (old m c k1' k2) k3' (old m c' k3' k4)
  · obtain ⟨c, k1, k2, k3⟩ := E4.base.get_call hn0
    rw [hR.hid c c0 k3 (hcR c0 hc0) k2] at k1
    exact ⟨n, c0, hn0, k1, (hc c0 hc0).2⟩
  · by_cases hall : ∀ l ∈ sideLabels dir.flip cs, l ∈ Dict.keys side
    · refine .inl fun v => ?_
      rw [V4, same3 hall]
      unfold IsVar
      rw [V2, V1]
    · obtain ⟨l, hl⟩ := Classical.not_forall.1 hall
      obtain ⟨hl1, hl2⟩ := Classical.not_imp.1 hl
      refine .inr ⟨l, hl1, fun h => hl2 (lab_keys E2.base hside ((G1.trans G2).lab h)), G4.lab (lab3 l hl1 hl2)⟩

/-! ### the loops come to an end -/

open Classical in
/-- The recorded ops that have no call in the frame. -/
noncomputable def opsLeft (rec : List FCall) (f : CFrame) : Finset String := (rec.map (·.op)).toFinset.filter fun op => ¬ Covers f op

/-- The labels of the recorded calls on one side. -/
def allLabels (rec : List FCall) (dir : Side) : Finset String := (sideLabels dir rec).toFinset

open Classical in
/-- The functions and labels without a variable. -/
noncomputable def labelsLeft (rec : List FCall) (dir : Side) (f : CFrame) : Finset (String × String) :=
  (f.fs.keys.toFinset ×ˢ allLabels rec dir.flip).filter fun p => ¬ Lab dir.flip f p.1 p.2

theorem mem_opsLeft {rec : List FCall} {op : String} : op ∈ opsLeft rec f ↔ op ∈ rec.map (·.op) ∧ ¬ Covers f op := by
  classical
  unfold opsLeft
  rw [Finset.mem_filter, List.mem_toFinset]

theorem mem_labelsLeft {rec : List FCall} {dir : Side} {p : String × String} :
    p ∈ labelsLeft rec dir f ↔ (f.IsFunc p.1 ∧ p.2 ∈ allLabels rec dir.flip) ∧ ¬ Lab dir.flip f p.1 p.2 := by
  classical
  unfold labelsLeft
  rw [Finset.mem_filter, Finset.mem_product, List.mem_toFinset]

/-- What is left to be added. -/
noncomputable def left (rec : List FCall) (dir : Side) (f : CFrame) : Nat :=
  (opsLeft rec f).card * ((allLabels rec dir.flip).card + 1) + (labelsLeft rec dir f).card

/-- A bound on the number of functions. -/
noncomputable def room (rec : List FCall) (f : CFrame) : Nat := (opsLeft rec f).card + f.fs.keys.toFinset.card

theorem left_le_room (rec : List FCall) (dir : Side) (f : CFrame) : left rec dir f ≤ room rec f * ((allLabels rec dir.flip).card + 1) := by
  unfold left room
  have h1 : (labelsLeft rec dir f).card ≤ f.fs.keys.toFinset.card * (allLabels rec dir.flip).card := by
    rw [← Finset.card_product]
    refine Finset.card_le_card fun p hp => ?_
    rw [Finset.mem_product, List.mem_toFinset]
    exact (mem_labelsLeft.1 hp).1
  rw [Nat.add_mul]
  have : f.fs.keys.toFinset.card * (allLabels rec dir.flip).card ≤ f.fs.keys.toFinset.card * ((allLabels rec dir.flip).card + 1) := Nat.mul_le_mul_left _ (by omega)
  omega

/-- Adding a group never makes more to be left, and less if there is a new node. -/
theorem left_group (hR : RecOk R) {rec : List FCall} {dir : Side} (hf : Base R f) (hg : Base R g) (G : Grows S f g) {n op : String} {cs : List FCall}
    (hfunc : ∀ m, g.IsFunc m ↔ f.IsFunc m ∨ m = n) (hcov : Covers g op) (hop : op ∈ rec.map (·.op)) (hcs : ∀ c ∈ cs, c ∈ rec) (hnew : f.IsFunc n ∨ ¬ Covers f op)
    (hvar : (∀ v, g.IsVar v ↔ f.IsVar v) ∨ ∃ l ∈ sideLabels dir.flip cs, ¬ Lab dir.flip f n l ∧ Lab dir.flip g n l) :
    left rec dir g ≤ left rec dir f ∧ room rec g ≤ room rec f ∧ ((∀ m, m ∈ g.nodes ↔ m ∈ f.nodes) ∨ left rec dir g < left rec dir f) := by
  have hops : opsLeft rec g ⊆ opsLeft rec f := by
    intro o ho
    rw [mem_opsLeft] at *
    exact ⟨ho.1, fun h => ho.2 (G.covers hR hf hg h)⟩
  have cops := Finset.card_le_card hops
  by_cases hn : f.IsFunc n
  · have hkeys : ∀ m, g.IsFunc m ↔ f.IsFunc m := fun m => (hfunc m).trans ⟨fun h => h.elim id fun e => e ▸ hn, .inl⟩
    have ek : g.fs.keys.toFinset = f.fs.keys.toFinset := by
      ext m
      rw [List.mem_toFinset, List.mem_toFinset]
      exact hkeys m
    have hlabs : labelsLeft rec dir g ⊆ labelsLeft rec dir f := by
      intro p hp
      rw [mem_labelsLeft] at *
      exact ⟨⟨(hkeys _).1 hp.1.1, hp.1.2⟩, fun h => hp.2 (G.lab h)⟩
    have clabs := Finset.card_le_card hlabs
    have cm := Nat.mul_le_mul_right ((allLabels rec dir.flip).card + 1) cops
    refine ⟨by unfold left; omega, by unfold room; rw [ek]; omega, ?_⟩
    rcases hvar with hv | ⟨l, hl, h1, h2⟩
    · exact .inl fun m => by rw [mem_nodes, mem_nodes, hv, hkeys]
    · refine .inr ?_
      have hlt : (labelsLeft rec dir g).card < (labelsLeft rec dir f).card := by
        refine Finset.card_lt_card ((Finset.ssubset_iff_of_subset hlabs).2 ⟨(n, l), ?_, ?_⟩)
        · rw [mem_labelsLeft]
          refine ⟨⟨hn, ?_⟩, h1⟩
          unfold allLabels
          rw [List.mem_toFinset]
          obtain ⟨c, hc, p, hp, e⟩ := mem_sideLabels.1 hl
          exact mem_sideLabels.2 ⟨c, hcs c hc, p, hp, e⟩
        · rw [mem_labelsLeft]
          exact fun h => h.2 h2
      unfold left
      omega
  · have hno := hnew.resolve_left hn
    have hlt : (opsLeft rec g).card < (opsLeft rec f).card := by
      refine Finset.card_lt_card ((Finset.ssubset_iff_of_subset hops).2 ⟨op, ?_, ?_⟩)
      · rw [mem_opsLeft]
        exact ⟨hop, hno⟩
      · rw [mem_opsLeft]
        exact fun h => h.2 hcov
    have ek : g.fs.keys.toFinset = insert n f.fs.keys.toFinset := by
      ext m
      rw [List.mem_toFinset, Finset.mem_insert, List.mem_toFinset]
      exact (hfunc m).trans or_comm
    have hlabs : labelsLeft rec dir g ⊆ labelsLeft rec dir f ∪ ({n} ×ˢ allLabels rec dir.flip) := by
      intro p hp
      rw [mem_labelsLeft, hfunc] at hp
      rw [Finset.mem_union, mem_labelsLeft, Finset.mem_product, Finset.mem_singleton]
      rcases hp.1.1.symm with e | h
      · exact .inr ⟨e, hp.1.2⟩
      · exact .inl ⟨⟨h, hp.1.2⟩, fun h' => hp.2 (G.lab h')⟩
    have clabs := (Finset.card_le_card hlabs).trans (Finset.card_union_le _ _)
    rw [Finset.card_product, Finset.card_singleton, Nat.one_mul] at clabs
    have hroom : room rec g ≤ room rec f := by
      unfold room
      rw [ek]
      have := Finset.card_insert_le n f.fs.keys.toFinset
      omega
    have hleft : left rec dir g < left rec dir f := by
      unfold left
      obtain ⟨u, hu⟩ : ∃ u, (opsLeft rec f).card = u + 1 := ⟨(opsLeft rec f).card - 1, by omega⟩
      have cm : (opsLeft rec g).card * ((allLabels rec dir.flip).card + 1) ≤ u * ((allLabels rec dir.flip).card + 1) := Nat.mul_le_mul_right _ (by omega)
      rw [hu, Nat.add_mul, Nat.one_mul]
      omega
    exact ⟨by omega, hroom, .inr hleft⟩

/-- The state between rounds. -/
structure Steady (R : FCall → Prop) (F V : String → Prop) (f : CFrame) : Prop where
  ready : Ready R F V f
  full : Full f
  var : f.vs.keys ≠ []

theorem setLen_nodes (h : ∀ m, m ∈ g.nodes ↔ m ∈ f.nodes) : setLen g.nodes = setLen f.nodes := by
  unfold setLen
  refine Nat.le_antisymm ?_ ?_
  · exact (List.Nodup.subperm (PySet.nodup_ofList _) fun x hx => PySet.mem_ofList.2 ((h x).1 (PySet.mem_ofList.1 hx))).length_le
  · exact (List.Nodup.subperm (PySet.nodup_ofList _) fun x hx => PySet.mem_ofList.2 ((h x).2 (PySet.mem_ofList.1 hx))).length_le

theorem expandGroups_total (hR : RecOk R) {rec : List FCall} (hrec : ∀ c ∈ rec, R c) {dir : Side} : ∀ (gs : List (GroupId × List FCall)) (f : CFrame), Ready R F V f → Full f →
    (∀ k ∈ gs, k.2 ≠ [] ∧ (∀ c ∈ k.2, c ∈ rec ∧ c.op = k.1.1) ∧ ∀ lv ∈ k.1.2, ∀ v ∈ lv.2, f.IsVar v) →
    ∃ g, gs.foldlM (expandGroup dir true) f = .ok g ∧ Ready R F V g ∧ Full g ∧ Grows (· ∈ rec) f g ∧ left rec dir g ≤ left rec dir f ∧ room rec g ≤ room rec f ∧
      ((∀ m, m ∈ g.nodes ↔ m ∈ f.nodes) ∨ left rec dir g < left rec dir f) := by
  intro gs
  induction gs with
  | nil => intro f E U _; exact ⟨f, rfl, E, U, .refl, Nat.le_refl _, Nat.le_refl _, .inl fun _ => Iff.rfl⟩
  | cons k gs ih =>
    intro f E U hk
    obtain ⟨k1, k2, k3⟩ := hk k (by simp)
    obtain ⟨f', n, a1, a2, a3, a4, a5, a6, a7, a8⟩ := expandGroup_total (S := (· ∈ rec)) hR E U (dir := dir) (k := k.1) k1 (fun c hc => ⟨hrec c (k2 c hc).1, (k2 c hc).2⟩)
      (fun c hc => (k2 c hc).1) k3
    obtain ⟨c0, hc0⟩ := List.exists_mem_of_ne_nil _ k1
    obtain ⟨l1, l2, l3⟩ := left_group hR (rec := rec) (dir := dir) E.base a2.base a3 a5 a6 (List.mem_map.2 ⟨c0, (k2 c0 hc0).1, (k2 c0 hc0).2⟩) (fun c hc => (k2 c hc).1) a7 a8
    obtain ⟨g, b1, b2, b3, b4, b5, b6, b7⟩ := ih f' a2 a4 fun x hx => ⟨(hk x (by simp [hx])).1, (hk x (by simp [hx])).2.1,
      fun lv hlv v hv => a3.var v ((hk x (by simp [hx])).2.2 lv hlv v hv)⟩
    refine ⟨g, by rw [List.foldlM_cons, a1]; exact b1, b2, b3, a3.trans b4, b5.trans l1, b6.trans l2, ?_⟩
    rcases l3 with l3 | l3
    · rcases b7 with b7 | b7
      · exact .inl fun m => (b7 m).trans (l3 m)
      · exact .inr (by omega)
    · exact .inr (by omega)

theorem expandOnce_total (hR : RecOk R) {rec : List FCall} (hrec : ∀ c ∈ rec, R c) {dir : Side} {skip : Bool} {varnames : List String} (E : Ready R F V f) (U : Full f)
    (hne : varnames ≠ []) (hv : ∀ v ∈ varnames, f.IsVar v) :
    ∃ g, f.expandOnce rec dir true skip varnames = .ok g ∧ Ready R F V g ∧ Full g ∧ Grows (· ∈ rec) f g ∧ left rec dir g ≤ left rec dir f ∧ room rec g ≤ room rec f ∧
      (setLen g.nodes = setLen f.nodes ∨ left rec dir g < left rec dir f) := by
  obtain ⟨ends, h1, h2⟩ := endElts_total E.base dir.flip
  obtain ⟨d, d1, d2⟩ := groups_ok E.base.ref dir varnames (selected rec dir skip f (ends.filter fun p => p.1 ∈ varnames))
  obtain ⟨g, g1, g2, g3, g4, g5, g6, g7⟩ := expandGroups_total hR hrec (dir := dir) (sortGroups d) f E U (by
    intro k hk
    obtain ⟨c, hc, _⟩ := d2.op k hk
    exact ⟨List.ne_nil_of_mem hc, fun c hc => ⟨(mem_selected.1 ((d2.sub k hk).subset hc)).1, (d2.same k hk c hc).symm⟩,
      fun lv hlv v hv' => hv v (d2.var k hk lv hlv v hv').1⟩)
  refine ⟨g, ?_, g2, g3, g4, g5, g6, g7.imp setLen_nodes id⟩
  unfold expandOnce
  rw [h1]
  simp only [bind, Except.bind]
  rw [if_neg]
  · unfold selected at d1
    rw [d1]
    exact g1
  · intro e
    obtain ⟨v, hv'⟩ := List.exists_mem_of_ne_nil _ hne
    have : v ∈ Dict.keys ends := by rw [h2]; exact mem_nodes.2 (.inl (hv v hv'))
    obtain ⟨p, hp, e'⟩ := List.mem_map.1 this
    have hm : p ∈ ends.filter fun p => p.1 ∈ varnames := List.mem_filter.2 ⟨hp, by rw [e']; simpa using hv'⟩
    rw [e] at hm
    cases hm

theorem expandAllVars_total (hR : RecOk R) {rec : List FCall} (hrec : ∀ c ∈ rec, R c) {dir : Side} {skip recursive : Bool} : ∀ (K : Nat) (f : CFrame), Steady R F V f →
    left rec dir f ≤ K → ∃ g, (∀ k, K + 1 ≤ k → f.expandAllVars rec dir true skip recursive k = .ok g) ∧ Steady R F V g ∧ Grows (· ∈ rec) f g ∧ room rec g ≤ room rec f := by
  intro K
  induction K with
  | zero =>
    intro f E hK
    obtain ⟨g, g1, g2, g3, g4, g5, g6, g7⟩ := expandOnce_total hR hrec (dir := dir) (skip := skip) E.ready E.full E.var fun v hv => hv
    refine ⟨g, fun k hk => ?_, ⟨g2, g3, vars_ne g4 E.var⟩, g4, g6⟩
    obtain ⟨j, rfl⟩ : ∃ j, k = j + 1 := ⟨k - 1, by omega⟩
    unfold expandAllVars
    rw [g1]
    simp only [bind, Except.bind]
    rw [if_pos (.inl (g7.resolve_right (by omega)))]
  | succ K ih =>
    intro f E hK
    obtain ⟨g, g1, g2, g3, g4, g5, g6, g7⟩ := expandOnce_total hR hrec (dir := dir) (skip := skip) E.ready E.full E.var fun v hv => hv
    have E' : Steady R F V g := ⟨g2, g3, vars_ne g4 E.var⟩
    by_cases hstop : setLen g.nodes = setLen f.nodes ∨ recursive = false
    · refine ⟨g, fun k hk => ?_, E', g4, g6⟩
      obtain ⟨j, rfl⟩ : ∃ j, k = j + 1 := ⟨k - 1, by omega⟩
      unfold expandAllVars
      rw [g1]
      simp only [bind, Except.bind]
      rw [if_pos hstop]
    · have hlt := g7.resolve_left fun h => hstop (.inl h)
      obtain ⟨r, r1, r2, r3, r4⟩ := ih g E' (by omega)
      refine ⟨r, fun k hk => ?_, r2, g4.trans r3, r4.trans g6⟩
      obtain ⟨j, rfl⟩ : ∃ j, k = j + 1 := ⟨k - 1, by omega⟩
      unfold expandAllVars
      rw [g1]
      simp only [bind, Except.bind]
      rw [if_neg hstop]
      exact r1 j (by omega)

/-! ### expand_all -/

/-- `len(res.refs) + len(res.calls)` -/
def eltCount (f : CFrame) : Nat := setLen f.refs.keys + setLen f.calls.keys

theorem setLen_mono {s t : List String} (h : ∀ x ∈ s, x ∈ t) : setLen s ≤ setLen t :=
  (List.Nodup.subperm (PySet.nodup_ofList s) fun x hx => PySet.mem_ofList.2 (h x (PySet.mem_ofList.1 hx))).length_le

theorem eltCount_mono (hf : Base R f) (hg : Base R g) (G : Grows S f g) : eltCount f ≤ eltCount g := by
  refine Nat.add_le_add (setLen_mono fun x hx => ?_) (setLen_mono fun x hx => ?_)
  · obtain ⟨v, hv⟩ := (hf.ref.refs x).1 hx
    exact (hg.ref.refs x).2 ⟨v, G.ref v x hv⟩
  · obtain ⟨v, hv⟩ := (hf.call.calls x).1 hx
    exact (hg.call.calls x).2 ⟨v, G.call v x hv⟩

/-- The values and calls that a frame can get by being expanded. -/
def eltBound (rec : List FCall) (f : CFrame) : Nat :=
  setLen (f.refs.keys ++ rec.flatMap fun c => (c.inputs ++ c.outputs).map (·.2.hid)) + setLen (f.calls.keys ++ rec.map (·.hid))

theorem eltCount_le {rec : List FCall} (hf : Base R f) (hg : Base R g) (G : Grows (· ∈ rec) f g) : eltCount g ≤ eltBound rec f := by
  refine Nat.add_le_add (setLen_mono fun x hx => ?_) (setLen_mono fun x hx => ?_)
  · obtain ⟨v, hv⟩ := (hg.ref.refs x).1 hx
    rw [List.mem_append]
    rcases G.newRef v x hv with h | ⟨n, c, hc, _, h⟩
    · exact .inl ((hf.ref.refs x).2 ⟨v, h⟩)
    · refine .inr (List.mem_flatMap.2 ⟨c, hc, ?_⟩)
      rcases h with ⟨p, hp, _, e⟩ | ⟨p, hp, _, e⟩
      · exact List.mem_map.2 ⟨p, List.mem_append.2 (.inl hp), e⟩
      · exact List.mem_map.2 ⟨p, List.mem_append.2 (.inr hp), e⟩
  · obtain ⟨n, hn⟩ := (hg.call.calls x).1 hx
    rw [List.mem_append]
    rcases G.newCall n x hn with h | ⟨c, hc, e⟩
    · exact .inl ((hf.call.calls x).2 ⟨n, h⟩)
    · exact .inr (List.mem_map.2 ⟨c, hc, e⟩)

theorem expandAll_total (hR : RecOk R) {rec : List FCall} (hrec : ∀ c ∈ rec, R c) {skip : Bool} {f0 : CFrame} (E0 : Base R f0) {K : Nat}
    (hK : ∀ dir, room rec f0 * ((allLabels rec (Side.flip dir)).card + 1) ≤ K) : ∀ (N : Nat) (f : CFrame), Steady R F V f → Grows (· ∈ rec) f0 f → room rec f ≤ room rec f0 →
    eltBound rec f0 ≤ eltCount f + N → ∃ g, (∀ rounds k, K + 1 ≤ rounds → N + 1 ≤ k → f.expandAll rec true skip rounds k (eltCount f) = .ok g) ∧ Steady R F V g ∧ Grows (· ∈ rec) f g := by
  have round : ∀ f : CFrame, Steady R F V f → room rec f ≤ room rec f0 → ∃ f1 f2, (∀ rounds, K + 1 ≤ rounds → f.expandAllVars rec .back true skip true rounds = .ok f1 ∧
      f1.expandAllVars rec .forward true skip true rounds = .ok f2) ∧ Steady R F V f2 ∧ Grows (· ∈ rec) f f2 ∧ room rec f2 ≤ room rec f := by
    intro f E hr
    have hb : ∀ (f : CFrame) dir, room rec f ≤ room rec f0 → left rec dir f ≤ K := fun f dir hr =>
      (left_le_room rec dir f).trans ((Nat.mul_le_mul_right _ hr).trans (hK dir))
    obtain ⟨f1, a1, a2, a3, a4⟩ := expandAllVars_total hR hrec (dir := .back) (skip := skip) (recursive := true) K f E (hb f _ hr)
    obtain ⟨f2, b1, b2, b3, b4⟩ := expandAllVars_total hR hrec (dir := .forward) (skip := skip) (recursive := true) K f1 a2 (hb f1 _ (a4.trans hr))
    exact ⟨f1, f2, fun rounds h => ⟨a1 rounds h, b1 rounds h⟩, b2, a3.trans b3, b4.trans a4⟩
  intro N
  induction N with
  | zero =>
    intro f E G hr hN
    obtain ⟨f1, f2, h1, E2, G2, _⟩ := round f E hr
    refine ⟨f2, fun rounds k hk1 hk2 => ?_, E2, G2⟩
    obtain ⟨j, rfl⟩ : ∃ j, k = j + 1 := ⟨k - 1, by omega⟩
    unfold expandAll
    rw [(h1 rounds hk1).1]
    simp only [bind, Except.bind]
    rw [(h1 rounds hk1).2]
    simp only
    have e1 := eltCount_mono E.ready.base E2.ready.base G2
    have e2 := eltCount_le E0 E2.ready.base (G.trans G2)
    rw [if_pos]
    show eltCount f2 = eltCount f
    omega
  | succ N ih =>
    intro f E G hr hN
    obtain ⟨f1, f2, h1, E2, G2, r2⟩ := round f E hr
    have e1 := eltCount_mono E.ready.base E2.ready.base G2
    by_cases hs : eltCount f2 = eltCount f
    · refine ⟨f2, fun rounds k hk1 hk2 => ?_, E2, G2⟩
      obtain ⟨j, rfl⟩ : ∃ j, k = j + 1 := ⟨k - 1, by omega⟩
      unfold expandAll
      rw [(h1 rounds hk1).1]
      simp only [bind, Except.bind]
      rw [(h1 rounds hk1).2]
      simp only
      rw [if_pos]
      exact hs
    · obtain ⟨g, g1, g2, g3⟩ := ih f2 E2 (G.trans G2) (r2.trans hr) (by omega)
      refine ⟨g, fun rounds k hk1 hk2 => ?_, g2, G2.trans g3⟩
      obtain ⟨j, rfl⟩ : ∃ j, k = j + 1 := ⟨k - 1, by omega⟩
      unfold expandAll
      rw [(h1 rounds hk1).1]
      simp only [bind, Except.bind]
      rw [(h1 rounds hk1).2]
      simp only
      rw [if_neg (show ¬ setLen f2.refs.keys + setLen f2.calls.keys = eltCount f from hs)]
      exact g1 rounds j hk1 (by omega)

end CFrame
end Verif
