import Verif.Proofs.CFrameExpandFresh
/-!
Expanding a frame without reusing nodes: what a round adds on the other side is in new variables, which are not attached in the direction of the round.
-/
namespace Verif

open Props

namespace CFrame

variable {R S : FCall → Prop} {f g : CFrame} {F V : String → Prop}

/-- The edge that `joinEdge` adds. -/
def IsJoin (dir : Side) (v n l a b m : String) : Prop :=
  match dir with
  | .back => a = n ∧ b = v ∧ m = l
  | .forward => a = v ∧ b = n ∧ m = l

theorem hasEdge_joinEdge {dir : Side} {v n l : String} {allow : Bool} (h : f.joinEdge dir v n l allow = .ok g) {a b m : String} (he : g.HasEdge a b m) :
    f.HasEdge a b m ∨ IsJoin dir v n l a b m := by
  have key : ∀ {s d}, f.addEdge s d l allow = .ok g → f.HasEdge a b m ∨ (a = s ∧ b = d ∧ m = l) := by
    intro s d h
    rcases addEdge_ok h with ⟨rfl, _⟩ | ⟨_, _, _, rfl⟩
    · exact .inl he
    · rcases inAdj_add.1 he with h' | ⟨h1, h2, h3⟩
      · exact .inl h'
      · exact .inr ⟨h1.symm, h3.symm, h2.symm⟩
  cases dir
  · exact key h
  · exact key h

/-- What a group adds, besides values: a new function `n`, its calls and its edges; on the side of the direction they come from the variables `vs`, on the other
side they lead to new variables. -/
structure AddsFunc (dir : Side) (n : String) (vs : String → Prop) (cs : List FCall) (f g : CFrame) : Prop where
  edge : ∀ a b l, g.HasEdge a b l → f.HasEdge a b l ∨ a = n ∨ b = n
  call : ∀ m h, g.HasCall m h → f.HasCall m h ∨ m = n ∧ ∃ c ∈ cs, c.hid = h
  glued : ∀ v l, Joined g dir v n l → vs v
  dual : ∀ v l, Joined g dir.flip v n l → v ∉ f.nodes

theorem AddsFunc.join {dir dir' : Side} {n : String} {vs : String → Prop} {cs : List FCall} {g' : CFrame} (h : AddsFunc dir n vs cs f g) {v l : String} {allow : Bool} (hvn : v ≠ n)
    (hj : g.joinEdge dir' v n l allow = .ok g') (hfs : g'.fs = g.fs) (hv : dir' = dir → vs v) (hv' : dir' = dir.flip → v ∉ f.nodes) : AddsFunc dir n vs cs f g' := by
  refine ⟨fun a b m he => ?_, fun m h' hc => h.call m h' (by unfold HasCall at hc ⊢; rwa [hfs] at hc), fun w m hw => ?_, fun w m hw => ?_⟩
  · rcases hasEdge_joinEdge hj he with he | he
    · exact h.edge a b m he
    · cases dir' with
      | back => exact .inr (.inl he.1)
      | forward => exact .inr (.inr he.2.1)
  · cases dir with
    | back =>
      rcases hasEdge_joinEdge hj hw with he | he
      · exact h.glued w m he
      · cases dir' with
        | back => exact he.2.1 ▸ hv rfl
        | forward => exact absurd he.1.symm hvn
    | forward =>
      rcases hasEdge_joinEdge hj hw with he | he
      · exact h.glued w m he
      · cases dir' with
        | back => exact absurd he.2.1.symm hvn
        | forward => exact he.1 ▸ hv rfl
  · cases dir with
    | back =>
      rcases hasEdge_joinEdge hj hw with he | he
      · exact h.dual w m he
      · cases dir' with
        | back => exact absurd he.2.1.symm hvn
        | forward => exact he.1 ▸ hv' rfl
    | forward =>
      rcases hasEdge_joinEdge hj hw with he | he
      · exact h.dual w m he
      · cases dir' with
        | back => exact he.2.1 ▸ hv' rfl
        | forward => exact absurd he.1.symm hvn

theorem AddsFunc.congr {dir : Side} {n : String} {vs : String → Prop} {cs : List FCall} {g' : CFrame} (h : AddsFunc dir n vs cs f g) (he : ∀ a b l, g'.HasEdge a b l → g.HasEdge a b l)
    (hc : ∀ m h, g'.HasCall m h → g.HasCall m h ∨ m = n ∧ ∃ c ∈ cs, c.hid = h) : AddsFunc dir n vs cs f g' := by
  refine ⟨fun a b l h' => h.edge a b l (he a b l h'), fun m h' hm => (hc m h' hm).elim (h.call m h') .inr, fun v l hj => ?_, fun v l hj => ?_⟩
  · refine h.glued v l ?_
    cases dir
    · exact he _ _ _ hj
    · exact he _ _ _ hj
  · refine h.dual v l ?_
    cases dir
    · exact he _ _ _ hj
    · exact he _ _ _ hj

theorem Base.not_edge (H : Base R f) {n : String} (hn : n ∉ f.nodes) {a b l : String} (he : f.HasEdge a b l) : a ≠ n ∧ b ≠ n :=
  ⟨fun e => H.not_node_out hn (e ▸ he), fun e => H.not_node_inp hn (e ▸ (H.graph.sym _ _ _).1 he)⟩

theorem addCall_adds (H : Base R f) {n : String} {c : FCall} (hc : R c) {allow : Bool} (h : f.addCall n c true allow = .ok g) :
    (∀ a b l, g.HasEdge a b l → f.HasEdge a b l) ∧ ∀ m h, g.HasCall m h → f.HasCall m h ∨ m = n ∧ h = c.hid := by
  rcases addCall_cases h with ⟨rfl, _⟩ | ⟨s, hs', hn⟩
  · exact ⟨fun _ _ _ h => h, fun _ _ h => .inl h⟩
  have h' : f.addCall n c true true = .ok g ∨ f.addCall n c true false = .ok g := by
    cases allow
    · exact .inr h
    · exact .inl h
  obtain ⟨A, -⟩ := addCall_base H hc hs' hn h'
  exact ⟨fun a b l he => by unfold HasEdge at he ⊢; rwa [A.out] at he, fun m h hm => (A.fs m h).1 hm⟩

theorem joined_grows (h : Grows S f g) {dir : Side} {v n l : String} (hj : Joined f dir v n l) : Joined g dir v n l := by
  cases dir
  · exact h.edge _ _ _ hj
  · exact h.edge _ _ _ hj

theorem joinEdge_other {dir : Side} {v n l : String} {allow : Bool} (h : f.joinEdge dir v n l allow = .ok g) (hvn : v ≠ n) :
    (g.sideOf dir.flip).get? n = (f.sideOf dir.flip).get? n := by
  cases dir with
  | back =>
    rcases addEdge_ok h with ⟨rfl, _⟩ | ⟨_, _, _, rfl⟩
    · rfl
    · exact Dict.get?_set_ne _ _ hvn
  | forward =>
    rcases addEdge_ok h with ⟨rfl, _⟩ | ⟨_, _, _, rfl⟩
    · rfl
    · exact Dict.get?_set_ne _ _ hvn

theorem expandGroup_adds (E : Ready R F V f) {dir : Side} {k : GroupId} {cs : List FCall} (hk : ∃ c ∈ cs, k.1 = c.op)
    (hc : ∀ c ∈ cs, R c) (hv : ∀ lv ∈ k.2, ∀ v ∈ lv.2, f.IsVar v) (h : expandGroup dir false f (k, cs) = .ok g) :
    ∃ n, n ∉ f.nodes ∧ g.IsFunc n ∧ AddsFunc dir n (fun v => ∃ lv ∈ k.2, v ∈ lv.2) cs f g ∧ ∀ l ∈ sideLabels dir.flip cs, ∃ v, Joined g dir.flip v n l := by
  unfold expandGroup at h
  obtain ⟨⟨f1, n⟩, h1, h⟩ := exBind_ok.1 h
  simp only at h
  obtain ⟨f2, h2, h⟩ := exBind_ok.1 h
  obtain ⟨side, h3, h⟩ := exBind_ok.1 h
  obtain ⟨f3, h4, h5⟩ := exBind_ok.1 h
  obtain ⟨c0, hc0, hk0⟩ := hk
  rw [hk0] at h1
  obtain ⟨E1, G1, N1, hnew⟩ := groupFunc_ok (S := R) E (hc c0 hc0) h1
  simp only at E1 G1 N1 hnew
  obtain ⟨hn, rfl⟩ : n ∉ f.nodes ∧ f1 = f.addFunc n := by
    rcases hnew with ⟨_, h⟩ | h
    · cases h
    · exact h
  have A1 : AddsFunc dir n (fun v => ∃ lv ∈ k.2, v ∈ lv.2) cs f (f.addFunc n) := by
    have he : ∀ {a b l}, (f.addFunc n).HasEdge a b l → f.HasEdge a b l := fun h => (inAdj_set_nil fun _ _ => E.base.not_node_out hn).1 h
    refine ⟨fun a b l h => .inl (he h), fun m h hm => ?_, fun v l hj => ?_, fun v l hj => ?_⟩
    · exact .inl ((inSet_set_nil fun _ => not_inSet_of_key (by rw [mem_nodes] at hn; exact (not_or.1 hn).2)).1 hm)
    · cases dir
      · exact absurd rfl (E.base.not_edge hn (he hj)).1
      · exact absurd rfl (E.base.not_edge hn (he hj)).2
    · cases dir
      · exact absurd rfl (E.base.not_edge hn (he hj)).2
      · exact absurd rfl (E.base.not_edge hn (he hj)).1
  have S1 : ((f.addFunc n).sideOf dir.flip).get? n = some [] := by
    cases dir <;> exact Dict.get?_set_self _ _ _
  obtain ⟨⟨E2, G2, N2, A2, S2⟩, -, -⟩ := foldlM_keeps (step := fun f (lv : String × String) => joinEdge f dir lv.2 n lv.1 false)
    (P := fun g => Ready R F V g ∧ Grows R f g ∧ g.IsFunc n ∧ AddsFunc dir n (fun v => ∃ lv ∈ k.2, v ∈ lv.2) cs f g ∧ (g.sideOf dir.flip).get? n = some []) (Q := fun _ _ => True) _ (by
      intro lv hlv a b ⟨Ea, Ga, Na, Aa, Sa⟩ hab
      obtain ⟨lvs, hlvs, hlv⟩ := List.mem_flatMap.1 hlv
      obtain ⟨v, hv', rfl⟩ := List.mem_map.1 hlv
      have hvv := hv lvs hlvs v hv'
      obtain ⟨b1, b2, b3, b4, b5, _⟩ := base_joinEdge (S := R) Ea.base hab (Ga.var v hvv) Na
      refine ⟨⟨Ea.congr b1 (fun w hw => by unfold IsVar at *; rwa [b4] at hw) (fun w hw => by unfold IsFunc at *; rwa [b5] at hw), Ga.trans b2, b2.func n Na, ?_,
        (joinEdge_other hab fun e => hn (e ▸ mem_nodes.2 (.inl hvv))).trans Sa⟩, trivial, fun _ _ => trivial⟩
      refine Aa.join (fun e => hn (e ▸ mem_nodes.2 (.inl hvv))) hab b5 (fun _ => ⟨lvs, hlvs, hv'⟩) (fun e => ?_)
      cases dir <;> cases e) (f.addFunc n) f2 ⟨E1, G1, N1, A1, S1⟩ h2
  obtain rfl : side = [] := Option.some.inj ((getE_ok.1 h3).symm.trans S2)
  obtain ⟨⟨E3, G3, N3, A3⟩, J3, -⟩ := foldlM_keeps (step := dualVar dir false n cs (Dict.keys []))
    (P := fun g => Ready R F V g ∧ Grows R f g ∧ g.IsFunc n ∧ AddsFunc dir n (fun v => ∃ lv ∈ k.2, v ∈ lv.2) cs f g) (Q := fun l g => ∃ v, Joined g dir.flip v n l) (sideLabels dir.flip cs) (by
      intro l hl a b ⟨Ea, Ga, Na, Aa⟩ hab
      have hsp := sideLabels_spec hc hl
      obtain ⟨b1, b2, b3, b4⟩ := dualVar_ok (S := R) Ea Na hsp hab
      refine ⟨⟨b1, Ga.trans b2, b3, ?_⟩, b4.resolve_left (by simp [Dict.keys]), fun _ ⟨v, hv⟩ => ⟨v, joined_grows b2 hv⟩⟩
      unfold dualVar at hab
      split at hab
      · cases hab; exact Aa
      · simp only [Bool.false_eq_true, if_false] at hab
        obtain ⟨c, p, hcR, hp, rfl⟩ := hsp
        obtain ⟨v, e1, e2, e3⟩ := Ea.fresh_var hcR hp
        simp only [e1, ended, bind, Except.bind] at hab
        obtain ⟨a1, a2, a3⟩ := base_addVar (S := R) Ea.base e2
        obtain ⟨_, _, _, _, b5, _⟩ := base_joinEdge (S := R) a1 hab ((a3 v).2 (.inl rfl)) (a2.func n Na)
        have A' : AddsFunc dir n (fun v => ∃ lv ∈ k.2, v ∈ lv.2) cs f (a.addVar v) :=
          Aa.congr (fun _ _ _ h => (inAdj_set_nil fun _ _ => Ea.base.not_node_out e2).1 h) (fun _ _ h => .inl h)
        refine A'.join (fun e => e2 (by rw [e]; exact mem_nodes.2 (.inr Na))) hab b5 (fun e => ?_) (fun _ h => e2 (Ga.node h))
        cases dir <;> cases e) f2 f3 ⟨E2, G2, N2, A2⟩ h4
  obtain ⟨⟨E4, N4, A4, J4⟩, -, -⟩ := foldlM_keeps (step := fun f c => addCall f n c true false)
    (P := fun g => Ready R F V g ∧ g.IsFunc n ∧ AddsFunc dir n (fun v => ∃ lv ∈ k.2, v ∈ lv.2) cs f g ∧ ∀ l ∈ sideLabels dir.flip cs, ∃ v, Joined g dir.flip v n l) (Q := fun _ _ => True) cs (by
      intro c hcs a b ⟨Ea, Na, Aa, Ja⟩ hab
      obtain ⟨b1, b2, b3, _, _, b6, b7⟩ := base_addCall (S := R) Ea.base (hc c hcs) (hc c hcs) hab
      obtain ⟨d1, d2⟩ := addCall_adds Ea.base (hc c hcs) hab
      exact ⟨⟨Ea.congr b1 (fun w hw => (b6 w).1 hw) (fun w hw => (b7 w).1 hw), b2.func n Na, Aa.congr d1 fun m h hm => (d2 m h hm).imp_right fun hm => ⟨hm.1, c, hcs, hm.2.symm⟩,
        fun l hl => (Ja l hl).elim fun v hv => ⟨v, joined_grows b2 hv⟩⟩, trivial, fun _ _ => trivial⟩) f3 g ⟨E3, N3, A3, J3⟩ h5
  exact ⟨n, hn, N4, A4, J4⟩

/-- What the groups add, relative to the frame before. -/
structure Beyond (R : FCall → Prop) (dir : Side) (f g : CFrame) : Prop where
  side : ∀ v m l, g.IsVar v → Joined g dir v m l → f.IsVar v
  dual : ∀ v m l, f.IsVar v → Joined g dir.flip v m l → Joined f dir.flip v m l
  call : ∀ m h, f.IsFunc m → g.HasCall m h → f.HasCall m h
  full : ∀ m h, g.HasCall m h → ¬ f.IsFunc m → ∃ c, R c ∧ c.hid = h ∧ ∀ p ∈ ioRefs dir.flip c, ∃ v, Joined g dir.flip v m (nameProj c.op p.1)

theorem Base.joined_var (H : Base R f) {dir : Side} {v m l : String} (h : Joined f dir v m l) : v ∈ f.nodes := by
  refine Classical.byContradiction fun hv => ?_
  cases dir
  · exact (H.not_edge hv h).2 rfl
  · exact (H.not_edge hv h).1 rfl

theorem Beyond.step {f0 : CFrame} {dir : Side} (Hf : Base R f) (Hg : Base R g) (h0 : Grows S f0 f) (h1 : Grows S f g) (B : Beyond R dir f0 f) {n : String} (hn : n ∉ f.nodes) (hnf : g.IsFunc n)
    {cs : List FCall} (A : AddsFunc dir n f0.IsVar cs f g) (hcs : ∀ c ∈ cs, R c)
    (hl : ∀ l ∈ sideLabels dir.flip cs, ∃ v, Joined g dir.flip v n l) : Beyond R dir f0 g := by
  have cases' : ∀ {d v m l}, g.IsVar v → Joined g d v m l → Joined f d v m l ∨ m = n := by
    intro d v m l hv hj
    have hvn : v ≠ n := fun e => Hg.graph.disj _ (e ▸ hv) hnf
    cases d with
    | back =>
      rcases A.edge _ _ _ hj with h | h | h
      · exact .inl h
      · exact .inr h
      · exact absurd h hvn
    | forward =>
      rcases A.edge _ _ _ hj with h | h | h
      · exact .inl h
      · exact absurd h hvn
      · exact .inr h
  refine ⟨fun v m l hv hj => ?_, fun v m l hv hj => ?_, fun m h hm hc => ?_, fun m h hc hm => ?_⟩
  · rcases cases' hv hj with h | rfl
    · refine B.side v m l ?_ h
      rcases mem_nodes.1 (Hf.joined_var h) with h' | h'
      · exact h'
      · exact absurd (h1.func _ h') (Hg.graph.disj _ hv)
    · exact A.glued v l hj
  · have hvg := h1.var v (h0.var v hv)
    rcases cases' hvg hj with h | rfl
    · exact B.dual v m l hv h
    · exact absurd (mem_nodes.2 (.inl (h0.var v hv))) (A.dual v l hj)
  · rcases A.call m h hc with h' | ⟨rfl, _⟩
    · exact B.call m h hm h'
    · exact absurd (mem_nodes.2 (.inr (h0.func m hm))) hn
  · rcases A.call m h hc with h' | ⟨rfl, c, hc', e⟩
    · obtain ⟨c, c1, c2, c3⟩ := B.full m h h' hm
      exact ⟨c, c1, c2, fun p hp => (c3 p hp).elim fun v hv => ⟨v, joined_grows h1 hv⟩⟩
    · exact ⟨c, hcs c hc', e, fun p hp => hl _ (mem_sideLabels.2 ⟨c, hc', p, hp, rfl⟩)⟩

theorem expandOnce_beyond (E : Ready R F V f) {rec : List FCall} (hrec : ∀ c ∈ rec, R c) {dir : Side} {varnames : List String}
    (hv : ∀ v ∈ varnames, f.IsVar v) (h : f.expandOnce rec dir false false varnames = .ok g) : Beyond R dir f g := by
  obtain ⟨ends, gs, h1, G, h2⟩ := expandOnce_cases h E.base.ref
  have hsub : ∀ c ∈ selected rec dir false f (ends.filter fun p => p.1 ∈ varnames), c ∈ rec := fun c hc => (mem_selected.1 hc).1
  obtain ⟨⟨_, _, B⟩, -⟩ := foldlM_keeps (step := expandGroup dir false) (P := fun g => Ready R F V g ∧ Grows R f g ∧ Beyond R dir f g) (Q := fun _ _ => True) gs (by
    intro k hk a b ⟨Ea, Ga, Ba⟩ hab
    have hcs : ∀ c ∈ k.2, R c := fun c hc => hrec c (hsub c ((G.sub k hk).subset hc))
    have hvs : ∀ lv ∈ k.1.2, ∀ v ∈ lv.2, f.IsVar v := fun lv hlv v hv' => hv v (G.var k hk lv hlv v hv').1
    obtain ⟨b1, b2, -⟩ := expandGroup_ok (S := R) Ea (G.op k hk) hcs hcs (fun lv hlv v hv' => Ga.var v (hvs lv hlv v hv')) hab
    obtain ⟨n, n1, n2, n3, n4⟩ := expandGroup_adds Ea (G.op k hk) hcs (fun lv hlv v hv' => Ga.var v (hvs lv hlv v hv')) hab
    exact ⟨⟨b1, Ga.trans b2, Ba.step Ea.base b1.base Ga b2 n1 n2 ⟨n3.edge, n3.call, fun v l hj => (n3.glued v l hj).elim fun lv hlv => hvs lv hlv.1 v hlv.2,
      fun v l hj => n3.dual v l hj⟩ hcs n4⟩, trivial, fun _ _ => trivial⟩) f g
    ⟨E, .refl, ⟨fun _ _ _ h _ => h, fun _ _ _ _ h => h, fun _ _ _ h => h, fun m h hc hm => absurd hc.key hm⟩⟩ h2
  exact B

/-- The variables of before keep their values. -/
theorem Beyond.old {dir : Side} {rec : List FCall} {varnames : List String} (Hf : Wf R f) (Hg : Wf R g) (hR : RecOk R) (h : Round rec dir varnames f g) (B : Beyond R dir f g)
    {v x : String} (hv : f.IsVar v) (hx : g.HasRef v x) : f.HasRef v x := by
  rcases h.newRef v x hx with h' | ⟨n, c, hc, ⟨a1, a2, p, hp, e, hj⟩, _⟩
  · exact h'
  have hj0 := B.dual v n _ hv hj
  have hfn : f.IsFunc n := by
    cases dir with
    | back => exact (Hf.graph.bip _ _ _ hj0).elim (fun h => h.2) (fun h => absurd h.1 (Hf.graph.disj _ hv))
    | forward => exact (Hf.graph.bip _ _ _ hj0).elim (fun h => absurd h.2 (Hf.graph.disj _ hv)) (fun h => h.1)
  obtain ⟨c2, b1, b2, b3⟩ := Hf.get_call (B.call n _ hfn a1)
  have : c2 = c := hR.hid c2 c b3 (Hg.call.callOk _ _ a2).2 b2
  subst this
  cases dir with
  | back => exact e ▸ (Hf.ins n c2 p v hp ⟨B.call n _ hfn a1, b1, (Hf.graph.sym _ _ _).1 hj0⟩).1
  | forward => exact e ▸ (Hf.outs n c2 p v hp ⟨B.call n _ hfn a1, b1, hj0⟩).1

/-- What a round has added is not attached in its direction. -/
theorem Beyond.unattached {dir : Side} {rec : List FCall} {varnames : List String} (Hf : Wf R f) (Hg : Wf R g) (hR : RecOk R) (h : Round rec dir varnames f g) (B : Beyond R dir f g)
    {v x : String} (hx : g.HasRef v x) (hn : ¬ f.HasRef v x) : Unattached g dir v x := by
  refine ⟨hx, fun m c' ⟨_, _, q, _, _, hj'⟩ => hn (B.old Hf Hg hR h (B.side v m _ hx.key hj') hx)⟩

end CFrame
end Verif
