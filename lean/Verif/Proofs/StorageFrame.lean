import Verif.Proofs.Queries
import Verif.Proofs.CFrameForward
import Verif.Props.FrameExpand
import Verif.Props.FrameNames
import Verif.Spec.StorageFrame
/-!
Expanding a frame back with the calls of a storage.
-/
namespace Verif

open Props CFrame

variable {W : World} {F V : String → Prop}

theorem answered_key (hW : W.Good) {s : St} (hs : Quer W s) {k : String} (hr : ∃ r ∈ s.calls.pers, r.callHid = k) : ∃ c, Answered W.cfg s c ∧ c.hid = k := by
  obtain ⟨cs, s', g1, _, g2⟩ := mgetCall_of hW hs (hids := [k]) (by simpa using hr)
  cases g2 with
  | @cons _ c _ _ f1 f2 =>
    obtain ⟨d, e1, e2, e3, e4⟩ := f1
    exact ⟨c.toF, batch_answered hW hs hr ⟨d, e1, e2, e3, e4⟩, e4.hid.trans e2.hid⟩

theorem hasIO_out (hW : W.Good) {s : St} (hs : Quer W s) {c y : String} :
    HasIO s.calls.pers .out c y ↔ ∃ k, Answered W.cfg s k ∧ k.hid = c ∧ Touches .back k y := by
  constructor
  · rintro ⟨r, hr, h1, h2, h3⟩
    obtain ⟨k, hk, rfl⟩ := answered_key hW hs ⟨r, hr, h1⟩
    obtain ⟨obj, rfl, g1, _⟩ := answered_of hW hs hk
    exact ⟨_, hk, rfl, (r.name, ⟨r.refHid, r.refCid⟩), mem_toF_outputs.2 ((g1.outputs _ _ _).2 ⟨r, hr, h1, h2, rfl, rfl, rfl⟩), h3⟩
  · rintro ⟨k, hk, rfl, p, hp, rfl⟩
    obtain ⟨obj, rfl, g1, _⟩ := answered_of hW hs hk
    obtain ⟨r, hr, e1, e2, _, e4, _⟩ := (g1.outputs _ _ _).1 (mem_toF_outputs.1 hp)
    exact ⟨r, hr, e1, e2, e4⟩

theorem hasIO_in (hW : W.Good) {s : St} (hs : Quer W s) {c y : String} :
    HasIO s.calls.pers .in_ c y ↔ ∃ k, Answered W.cfg s k ∧ k.hid = c ∧ Touches .forward k y := by
  constructor
  · rintro ⟨r, hr, h1, h2, h3⟩
    obtain ⟨k, hk, rfl⟩ := answered_key hW hs ⟨r, hr, h1⟩
    obtain ⟨obj, rfl, g1, _⟩ := answered_of hW hs hk
    exact ⟨_, hk, rfl, (r.name, ⟨r.refHid, r.refCid⟩), mem_toF_inputs.2 ((g1.inputs _ _ _).2 ⟨r, hr, h1, h2, rfl, rfl, rfl⟩), h3⟩
  · rintro ⟨k, hk, rfl, p, hp, rfl⟩
    obtain ⟨obj, rfl, g1, _⟩ := answered_of hW hs hk
    obtain ⟨r, hr, e1, e2, _, e4, _⟩ := (g1.inputs _ _ _).1 (mem_toF_inputs.1 hp)
    exact ⟨r, hr, e1, e2, e4⟩

theorem answered_eq (hW : W.Good) {s s' : St} (h : Quer W s) (h' : Quer W s') (e : s'.calls = s.calls) : Answered W.cfg s' = Answered W.cfg s := by
  funext c
  exact propext ⟨answered_still hW h' h e.symm, answered_still hW h h' e⟩

/-- A query while expanding back. -/
theorem creators_recorded (hW : W.Good) {s : St} (hs : Quer W s) {ord : List String → List String} (hord : ∀ l, (ord l).Perm l) (refs : List String) :
    ∃ cs s', getCreatorCalls W.cfg ord false refs s = (.ok cs, s') ∧ Quer W s' ∧ s'.calls = s.calls ∧ (cs.map CallObj.toF).Nodup ∧
      ∀ c, c ∈ cs.map CallObj.toF ↔ Answered W.cfg s c ∧ ∃ x ∈ refs, Touches .back c x := by
  obtain ⟨cs, s', h1, h2, h3, h4⟩ := creators_run hW hs hord refs
  have hq := quiet_creators W.cfg ord refs s
  rw [h1] at hq
  refine ⟨cs, s', h1, hs.after h2 hq, hq.calls, ?_, fun c => ⟨fun hc => ?_, fun ⟨hc, x, hx, ht⟩ => ?_⟩⟩
  · have : ((cs.map CallObj.toF).map FCall.hid).Nodup := by
      rw [List.map_map]; exact h3.nodup
    exact List.Nodup.of_map _ this
  · obtain ⟨obj, ho, rfl⟩ := List.mem_map.1 hc
    refine ⟨h4 obj ho, ?_⟩
    obtain ⟨r, hr, g1, g2, g3⟩ := (h3.exactly obj.hid).1 (List.mem_map_of_mem ho)
    exact ⟨r.refHid, g2, (r.name, ⟨r.refHid, r.refCid⟩), mem_toF_outputs.2 (((h3.calls obj ho).outputs _ _ _).2 ⟨r, hr, g3, g1, rfl, rfl, rfl⟩), rfl⟩
  · obtain ⟨r, hr, e1, e2, e3⟩ := (hasIO_out hW hs).2 ⟨c, hc, rfl, ht⟩
    obtain ⟨obj', ho', he⟩ := List.mem_map.1 ((h3.exactly c.hid).2 ⟨r, hr, e2, e3 ▸ hx, e1⟩)
    rw [(answered_recOk hW hs).hid _ _ hc (h4 obj' ho') he.symm]
    exact List.mem_map_of_mem ho'

/-- One round of expanding back. -/
theorem creators_round (hW : W.Good) {s : St} (hs : Quer W s) {ord : List String → List String} (hord : ∀ l, (ord l).Perm l) {f : CFrame}
    (H : Sound (Answered W.cfg s) F V f) (hne : f.vs.keys ≠ []) :
    ∃ g s' rec, f.expandOnceAt W.cfg ord false .back false false f.vs.keys s = (.ok g, s') ∧ Quer W s' ∧ s'.calls = s.calls ∧ Sound (Answered W.cfg s) F V g ∧
      Round rec .back f.vs.keys f g ∧ (∀ c ∈ rec, Answered W.cfg s c) ∧ (∀ c, Answered W.cfg s c → ∀ v x, Unattached f .back v x → Touches .back c x → c ∈ rec) ∧
      Beyond (Answered W.cfg s) .back f g := by
  have hR := answered_recOk hW hs
  obtain ⟨ends, h1, h2, h3⟩ := endElts_unattached hR H.wf H.labels .back
  obtain ⟨cs, s', q1, q2, q3, q4, q5⟩ := creators_recorded hW hs hord (valsUnion (ends.filter fun p => p.1 ∈ f.vs.keys))
  have hsel : recordedAt (cs.map CallObj.toF) .back (valsUnion (ends.filter fun p => p.1 ∈ f.vs.keys)) = cs.map CallObj.toF := by
    refine List.filter_eq_self.2 fun c hc => ?_
    obtain ⟨_, x, hx, p, hp, e⟩ := (q5 c).1 hc
    exact List.any_eq_true.2 ⟨p, hp, decide_eq_true (e ▸ hx)⟩
  obtain ⟨g, g1, g2, g3⟩ := expandOnce_fresh hR H (rec := cs.map CallObj.toF) (fun c hc => ((q5 c).1 hc).1) q4 (dir := .back)
    (fun c hc => apart_back hR ((q5 c).1 hc).1) (fun v hv => hv) hne
  refine ⟨g, s', cs.map CallObj.toF, ?_, q2, q3, g2, g3, fun c hc => ((q5 c).1 hc).1, fun c hc v x hu ht => ?_,
    expandOnce_beyond H.ready (fun c hc => ((q5 c).1 hc).1) (fun v hv => hv) g1⟩
  · unfold expandOnce at g1
    unfold expandOnceAt
    simp only [h1, bind, Except.bind] at g1
    simp only [h1]
    rw [bind_eq (show M.lift (Except.ok ends) s = (.ok ends, s) from rfl)]
    split at g1
    · cases g1
    · rename_i hel
      rw [if_neg hel, bind_eq q1]
      rw [hsel] at g1
      simp only [Bool.false_eq_true, if_false] at g1 ⊢
      cases hg : f.groupCalls (cs.map CallObj.toF) f.vs.keys .back with
      | error e => rw [hg] at g1; cases g1
      | ok d =>
        rw [hg] at g1
        rw [bind_eq (show M.lift (Except.ok d) s' = (.ok d, s') from rfl)]
        simp only at g1
        rw [g1]
        rfl
  · refine (q5 c).2 ⟨hc, x, ?_, ht⟩
    rw [mem_valsUnion]
    exact ⟨v, inSet_filter.2 ⟨hu.1.key, (h3 v x hu.1.key).2 hu⟩⟩

/-- Every function has an edge for every input of its calls. -/
def Shut (f : CFrame) : Prop := ∀ n c, f.HasCall n c.hid → f.calls.get? c.hid = some c → ∀ p ∈ c.inputs, ∃ w, f.HasEdge w n (nameProj c.op p.1)

theorem Shut.ref {R : FCall → Prop} {f : CFrame} (h : Shut f) (hf : Wf R f) {n : String} {c : FCall} (hn : f.HasCall n c.hid) (hc : f.calls.get? c.hid = some c)
    {p : String × FRef} (hp : p ∈ c.inputs) : ∃ w, f.HasEdge w n (nameProj c.op p.1) ∧ f.HasRef w p.2.hid := by
  obtain ⟨w, hw⟩ := h n c hn hc p hp
  exact ⟨w, hw, (hf.ins n c p w hp ⟨hn, hc, (hf.graph.sym _ _ _).1 hw⟩).1⟩

theorem Round.shut {R : FCall → Prop} (hR : RecOk R) {rec : List FCall} {f g : CFrame} (hf : Wf R f) (hg : Wf R g)
    (h : Round rec .back f.vs.keys f g) (B : Beyond R .back f g) (hs : Shut f) : Shut g := by
  intro n c hn hc p hp
  by_cases hn' : f.IsFunc n
  · obtain ⟨c2, b1, b2, b3⟩ := hf.get_call (B.call n _ hn' hn)
    rw [hR.hid c2 c b3 (hg.call.callOk _ _ hc).2 b2] at b1
    obtain ⟨w, hw⟩ := hs n c (B.call n _ hn' hn) b1 p hp
    exact ⟨w, h.grows.edge _ _ _ hw⟩
  · obtain ⟨c', c1, e, c2⟩ := B.full n _ hn hn'
    have : c' = c := hR.hid c' c c1 (hg.call.callOk _ _ hc).2 e
    subst this
    exact c2 p hp

theorem From.trans {rows : List Row} {x y z : String} (h1 : From rows x y) (h2 : From rows y z) : From rows x z := by
  induction h2 with
  | here => exact h1
  | step _ a b ih => exact .step ih a b

theorem expandAt_back (hW : W.Good) {s0 : St} (hs0 : Quer W s0) {ord : Nat → List String → List String} (hord : ∀ i l, (ord i l).Perm l)
    {rank : String → Nat} (hrank : ∀ c, Answered W.cfg s0 c → ∀ p ∈ c.inputs, ∀ q ∈ c.outputs, rank p.2.hid < rank q.2.hid) :
    ∀ (k i : Nat) (f : CFrame) (s : St), Quer W s → s.calls = s0.calls → Sound (Answered W.cfg s0) F V f → f.vs.keys ≠ [] → Shut f →
      (∀ v x, Unattached f .back v x → ∀ c, Answered W.cfg s0 c → Touches .back c x → rank x < k) →
      ∃ g s', (∀ j, k + 1 ≤ j → f.expandAt W.cfg ord false .back false false true i j s = (.ok g, s')) ∧ Quer W s' ∧ s'.calls = s0.calls ∧
        Sound (Answered W.cfg s0) F V g ∧ Shut g ∧ (∀ v x, Unattached g .back v x → ∀ c, Answered W.cfg s0 c → ¬ Touches .back c x) ∧
        CFrame.Grows (Answered W.cfg s0) f g ∧ (∀ v y, g.HasRef v y → ∃ w x, f.HasRef w x ∧ From s0.calls.pers x y) ∧
        (∀ n h, g.HasCall n h → f.HasCall n h ∨ ∃ w x, f.HasRef w x ∧ History s0.calls.pers x h) ∧ ∀ v, f.IsVar v → ∀ x, g.HasRef v x → f.HasRef v x := by
  have hR := answered_recOk hW hs0
  intro k
  induction k with
  | zero =>
    intro i f s hs hc H hne hshut hb
    have hA := answered_eq hW hs0 hs hc
    obtain ⟨g, s', rec, g1, g2, g3, g4, g5, g6, g7, g8⟩ := creators_round hW hs (hord i) (hA ▸ H) hne
    rw [hA] at g6 g7
    have hcomp : ∀ v x, Unattached f .back v x → ∀ c, Answered W.cfg s0 c → ¬ Touches .back c x := fun v x hu c hc ht => absurd (hb v x hu c hc ht) (by omega)
    have := g5.idle fun v _ x hu c hc' => hcomp v x hu c (g6 c hc')
    subst this
    refine ⟨g, s', fun j hj => ?_, g2, g3.trans hc, H, hshut, hcomp, .refl, fun v y h => ⟨v, y, h, .here⟩, fun n h hh => .inl hh, fun _ _ _ h => h⟩
    obtain ⟨j, rfl⟩ := Nat.exists_eq_add_of_le' (show 1 ≤ j by omega)
    unfold expandAt
    rw [bind_eq g1, if_pos (.inl rfl)]
    rfl
  | succ k ih =>
    intro i f s hs hc H hne hshut hb
    have hA := answered_eq hW hs0 hs hc
    obtain ⟨g, s', rec, g1, g2, g3, g4, g5, g6, g7, g8⟩ := creators_round hW hs (hord i) (hA ▸ H) hne
    rw [hA] at g4 g6 g7 g8
    by_cases hcomp : ∀ v x, Unattached f .back v x → ∀ c, Answered W.cfg s0 c → ¬ Touches .back c x
    · have := g5.idle fun v _ x hu c hc' => hcomp v x hu c (g6 c hc')
      subst this
      refine ⟨g, s', fun j hj => ?_, g2, g3.trans hc, H, hshut, hcomp, .refl, fun v y h => ⟨v, y, h, .here⟩, fun n h hh => .inl hh, fun _ _ _ h => h⟩
      obtain ⟨j, rfl⟩ := Nat.exists_eq_add_of_le' (show 1 ≤ j by omega)
      unfold expandAt
      rw [bind_eq g1, if_pos (.inl rfl)]
      rfl
    · have hlt : setLen f.nodes < setLen g.nodes := by
        simp only [Classical.not_forall] at hcomp
        obtain ⟨v, x, hu, c, hc, ht'⟩ := hcomp
        obtain ⟨n, n1, n2⟩ := g5.attached v hu.1.key x hu c (g7 c hc v x hu (Classical.not_not.1 ht')) (Classical.not_not.1 ht')
        exact nodes_lt g5.grows n1 (mem_nodes.2 (.inr n2.1.key))
      have hG : CFrame.Grows (Answered W.cfg s0) f g := g5.grows.mono g6
      obtain ⟨g', s'', a1, a2, a3, a4, a5, a6, a7, a8, a9, a10⟩ := ih (i + 1) g s' g2 (g3.trans hc) g4 (vars_ne g5.grows hne) (Round.shut hR H.wf g4.wf g5 g8 hshut) (by
        intro v x hu c hc ht'
        rcases g5.newRef v x hu.1 with hr | ⟨n, c2, hc2, ha, w, hw, y, hy, hty⟩
        · have hu' := hu.of_grows hR g4.wf H.wf g5.grows hr
          obtain ⟨n, _, ha⟩ := g5.attached v hr.key x hu' c (g7 c hc v x hu' ht') ht'
          exact absurd ha (hu.2 n c)
        · obtain ⟨_, _, p, hp, e, _⟩ := ha
          obtain ⟨q, hq, e'⟩ := hty
          have h1 := hrank c2 (g6 c2 hc2) p hp q hq
          have h2 := hb w y hy c2 (g6 c2 hc2) ⟨q, hq, e'⟩
          rw [e, e'] at h1
          omega)
      have hnew : ∀ v y, g.HasRef v y → ∃ w x, f.HasRef w x ∧ From s0.calls.pers x y := by
        intro v y hy
        rcases g5.newRef v y hy with hr | ⟨n, c2, hc2, ha, w, hw, x, hx, hty⟩
        · exact ⟨v, y, hr, .here⟩
        · obtain ⟨_, _, p, hp, e, _⟩ := ha
          exact ⟨w, x, hx.1, .step .here ((hasIO_out hW hs0).2 ⟨c2, g6 c2 hc2, rfl, hty⟩) ((hasIO_in hW hs0).2 ⟨c2, g6 c2 hc2, rfl, p, hp, e⟩)⟩
      refine ⟨g', s'', fun j hj => ?_, a2, a3, a4, a5, a6, hG.trans a7, fun v y hy => ?_, fun n h hh => ?_,
        fun v hv x hx => g8.old H.wf g4.wf hR g5 hv (a10 v (g5.grows.var v hv) x hx)⟩
      · obtain ⟨j, rfl⟩ := Nat.exists_eq_add_of_le' (show 1 ≤ j by omega)
        unfold expandAt
        rw [bind_eq g1, if_neg (by rintro (h | h) <;> [omega; cases h])]
        exact a1 j (by omega)
      · obtain ⟨w, x, hx, hf⟩ := a8 v y hy
        obtain ⟨w', x', hx', hf'⟩ := hnew w x hx
        exact ⟨w', x', hx', hf'.trans hf⟩
      · rcases a9 n h hh with hh | ⟨w, x, hx, y, hy, hio⟩
        · rcases g5.newCall n h hh with hh | ⟨c, hc', rfl, w, _, y, hy, hty⟩
          · exact .inl hh
          · exact .inr ⟨w, y, hy.1, y, .here, (hasIO_out hW hs0).2 ⟨c, g6 c hc', rfl, hty⟩⟩
        · obtain ⟨w', x', hx', hf'⟩ := hnew w x hx
          exact .inr ⟨w', x', hx', y, hf'.trans hy, hio⟩

/-- Expanding back to the end: exactly the history. -/
theorem expandAt_history (hW : W.Good) {s0 : St} (hs0 : Quer W s0) {ord : Nat → List String → List String} (hord : ∀ i l, (ord i l).Perm l)
    {f : CFrame} {s : St} (hs : Quer W s) (hc : s.calls = s0.calls) (H : Sound (Answered W.cfg s0) F V f) (hne : f.vs.keys ≠ []) (hshut : Shut f) :
    ∃ g s' K, (∀ j, K ≤ j → f.expandAt W.cfg ord false .back false false true 0 j s = (.ok g, s')) ∧ s'.calls = s0.calls ∧
      Sound (Answered W.cfg s0) F V g ∧ CFrame.Grows (Answered W.cfg s0) f g ∧ (∀ y, (∃ v, g.HasRef v y) ↔ ∃ w x, f.HasRef w x ∧ From s0.calls.pers x y) ∧
      (∀ h, (∃ n, g.HasCall n h) ↔ (∃ n, f.HasCall n h) ∨ ∃ w x, f.HasRef w x ∧ History s0.calls.pers x h) ∧
      (∀ v y, g.HasRef v y → ∀ c, Answered W.cfg s0 c → Touches .back c y → ∃ n, Attached g .back v y n c) ∧ Shut g ∧
      ∀ v, f.IsVar v → ∀ x, g.HasRef v x → f.HasRef v x := by
  have hR := answered_recOk hW hs0
  obtain ⟨rank, hrank⟩ := answered_acyclic hW hs0
  obtain ⟨m, hm⟩ := bounded rank (f.vs.keys.flatMap fun v => getOr f.vs v)
  obtain ⟨g, s', a1, a2, a3, a4, a5, a6, a7, a8, a9, a10⟩ := expandAt_back (F := F) (V := V) hW hs0 hord hrank m 0 f s hs hc H hne hshut (by
    intro v x hu c _ _
    refine hm x (List.mem_flatMap.2 ⟨v, hu.1.key, ?_⟩)
    obtain ⟨l, h1, h2⟩ := hu.1
    unfold getOr
    rw [h1]
    exact h2)
  have hatt : ∀ v y, g.HasRef v y → ∀ c, Answered W.cfg s0 c → Touches .back c y → ∃ n, Attached g .back v y n c := by
    intro v y hy c hcA ht
    by_cases hu : ∃ n c', Attached g .back v y n c'
    · obtain ⟨n, c', ha⟩ := hu
      obtain ⟨p, hp, e⟩ := ht
      obtain ⟨_, h1, q, hq, e', _⟩ := id ha
      have := hR.creator c' c q p (a4.wf.call.callOk _ _ h1).2 hcA hq hp (e'.trans e.symm)
      exact ⟨n, this ▸ ha⟩
    · exact absurd ht (a6 v y ⟨hy, fun n c' ha => hu ⟨n, c', ha⟩⟩ c hcA)
  have hfrom : ∀ w x y, f.HasRef w x → From s0.calls.pers x y → ∃ v, g.HasRef v y := by
    intro w x y hx hf
    induction hf with
    | here => exact ⟨w, a7.ref _ _ hx⟩
    | step _ h1 h2 ih =>
      obtain ⟨v, hv⟩ := ih
      obtain ⟨k, hk, rfl, ht⟩ := (hasIO_out hW hs0).1 h1
      obtain ⟨k', hk', e, p, hp, rfl⟩ := (hasIO_in hW hs0).1 h2
      have : k' = k := hR.hid _ _ hk' hk e
      subst this
      obtain ⟨n, b1, b2, _⟩ := hatt v _ hv k' hk ht
      exact (a5.ref a4.wf b1 b2 hp).imp fun _ h => h.2
  refine ⟨g, s', m + 1, a1, a3, a4, a7, fun y => ⟨fun ⟨v, hv⟩ => a8 v y hv, fun ⟨w, x, hx, hf⟩ => hfrom w x y hx hf⟩,
    fun h => ⟨fun ⟨n, hn⟩ => (a9 n h hn).imp_left fun hh => ⟨n, hh⟩, ?_⟩, hatt, a5, a10⟩
  rintro (⟨n, hn⟩ | ⟨w, x, hx, y, hy, hio⟩)
  · exact ⟨n, a7.call _ _ hn⟩
  · obtain ⟨v, hv⟩ := hfrom w x y hx hy
    obtain ⟨k, hk, rfl, ht⟩ := (hasIO_out hW hs0).1 hio
    obtain ⟨n, hn⟩ := hatt v y hv k hk ht
    exact ⟨n, hn.1⟩

/-- Every row of the table is an input or output of an answered call, and the other way round. -/
theorem answered_row (hW : W.Good) {s : St} (hs : Quer W s) {r : Row} (hr : r ∈ s.calls.pers) :
    ∃ c, Answered W.cfg s c ∧ c.hid = r.callHid ∧ c.op = r.op ∧ ((r.dir = .in_ ∧ (r.name, ⟨r.refHid, r.refCid⟩) ∈ c.inputs) ∨ (r.dir = .out ∧ (r.name, ⟨r.refHid, r.refCid⟩) ∈ c.outputs)) := by
  obtain ⟨k, hk, he⟩ := answered_key hW hs ⟨r, hr, rfl⟩
  obtain ⟨obj, rfl, g1, _⟩ := answered_of hW hs hk
  refine ⟨_, hk, he, ((g1.header r hr he.symm).1).symm, ?_⟩
  cases hd : r.dir with
  | in_ => exact .inl ⟨rfl, mem_toF_inputs.2 ((g1.inputs _ _ _).2 ⟨r, hr, he.symm, hd, rfl, rfl, rfl⟩)⟩
  | out => exact .inr ⟨rfl, mem_toF_outputs.2 ((g1.outputs _ _ _).2 ⟨r, hr, he.symm, hd, rfl, rfl, rfl⟩)⟩

theorem row_answered (hW : W.Good) {s : St} (hs : Quer W s) {c : FCall} (hc : Answered W.cfg s c) :
    (∃ r ∈ s.calls.pers, r.callHid = c.hid ∧ r.op = c.op) ∧
    ∀ p, (p ∈ c.inputs ∨ p ∈ c.outputs) → ∃ r ∈ s.calls.pers, r.callHid = c.hid ∧ r.op = c.op ∧ r.name = p.1 ∧ r.refHid = p.2.hid := by
  obtain ⟨obj, rfl, g1, _⟩ := answered_of hW hs hc
  refine ⟨?_, fun p hp => ?_⟩
  · obtain ⟨r, hr, h1⟩ := g1.recorded
    exact ⟨r, hr, h1, (g1.header r hr h1).1⟩
  · rcases hp with hp | hp
    · obtain ⟨r, hr, e1, _, e3, e4, _⟩ := (g1.inputs _ _ _).1 (mem_toF_inputs.1 hp)
      exact ⟨r, hr, e1, (g1.header r hr e1).1, e3, e4⟩
    · obtain ⟨r, hr, e1, _, e3, e4, _⟩ := (g1.outputs _ _ _).1 (mem_toF_outputs.1 hp)
      exact ⟨r, hr, e1, (g1.header r hr e1).1, e3, e4⟩

theorem TableNames.names (hW : W.Good) {s : St} (hs : Quer W s) (h : TableNames s.calls.pers F V) {f : CFrame} (hf : ∀ n, f.IsFunc n → F n) (hv : ∀ v, f.IsVar v → V v) :
    NamesApart (Answered W.cfg s) F V f := by
  refine ⟨h.apart, fun c hc => ?_, fun c p hc hp => ?_, hf, hv⟩
  · obtain ⟨⟨r, hr, _, e⟩, _⟩ := row_answered hW hs hc
    exact e ▸ h.op r hr
  · obtain ⟨r, hr, _, e, e', _⟩ := (row_answered hW hs hc).2 p hp
    have := h.arg r hr
    rw [e, e'] at this
    exact this

theorem TableNames.noClash {rows : List Row} (h : TableNames rows F V) {r : Row} (hr : r ∈ rows) : CFrame.NoClash r.op r.name :=
  ⟨fun hn e => h.apart _ (h.op r hr).1 (e ▸ (h.arg r hr).1 hn), fun i e => h.apart _ (h.op r hr).1 (e ▸ (h.arg r hr).2 i)⟩

/-! ### the variables of `from_op` -/

theorem foldlM_hold {α β : Type} {g : β → α → Except Err β} {P : β → Prop} : ∀ {l : List α} {b b' : β}, P b → (∀ a ∈ l, ∀ b b', P b → g b a = .ok b' → P b') →
    l.foldlM g b = .ok b' → P b' := by
  intro l
  induction l with
  | nil => intro b b' hb _ h; cases h; exact hb
  | cons a l ih =>
    intro b b' hb hs h
    rw [List.foldlM_cons] at h
    obtain ⟨c, hc, h⟩ := exBind_ok.1 h
    exact ih (hs a (by simp) b c hb hc) (fun a ha => hs a (List.mem_cons_of_mem _ ha)) h

theorem vars_addRef {f g : CFrame} {v : String} {r : FRef} {a : Bool} (hf : ∀ v, f.IsVar v → V v) (h : f.addRef v r a = .ok g) : ∀ v, g.IsVar v → V v := by
  rcases addRef_ok h with ⟨rfl, _⟩ | ⟨s, hs, _, rfl⟩
  · exact hf
  · intro w hw
    rcases Dict.mem_keys_set.1 hw with rfl | h
    · exact hf _ (Dict.mem_keys.2 ⟨s, hs⟩)
    · exact hf w h

theorem vars_addCall {f g : CFrame} {n : String} {c : FCall} {a : Bool} (hf : ∀ v, f.IsVar v → V v) (h : f.addCall n c true a = .ok g) : ∀ v, g.IsVar v → V v := by
  unfold addCall at h
  obtain ⟨s, _, h⟩ := exBind_ok.1 h
  split at h
  · split at h
    · cases h; exact hf
    · cases h
  · simp only [if_true] at h
    obtain ⟨f2, h2, h⟩ := exBind_ok.1 h
    refine foldlM_hold (P := fun f : CFrame => ∀ v, f.IsVar v → V v) (foldlM_hold (P := fun f : CFrame => ∀ v, f.IsVar v → V v) ?_ ?_ h2) ?_ h
    · exact hf
    · intro p _ b b' hb h
      unfold addInput at h
      obtain ⟨i, _, h⟩ := exBind_ok.1 h
      split at h
      · cases h; exact hb
      · refine foldlM_hold (P := fun f : CFrame => ∀ v, f.IsVar v → V v) ?_ (fun v _ b b' hb h => vars_addRef hb h) h
        exact hb
    · intro p _ b b' hb h
      unfold addOutput at h
      obtain ⟨i, _, h⟩ := exBind_ok.1 h
      split at h
      · cases h; exact hb
      · refine foldlM_hold (P := fun f : CFrame => ∀ v, f.IsVar v → V v) ?_ (fun v _ b b' hb h => vars_addRef hb h) h
        exact hb

theorem vars_new {f g : CFrame} {hint s d l v : String} (hV : (numbered hint = none → V hint) ∧ ∀ i, V (idxName (stem hint) i)) (hf : ∀ v, f.IsVar v → V v)
    (hv : ended (f.getNewVname hint) = .ok v) (h : (f.addVar v).addEdge s d l false = .ok g) : ∀ v, g.IsVar v → V v := by
  obtain ⟨n, h1, _, h3⟩ := getNewVname_spec f hint
  rw [h1] at hv
  cases hv
  have hn : V v := by
    rcases h3 with ⟨rfl, h4⟩ | ⟨i, rfl⟩
    · exact hV.1 h4
    · exact hV.2 i
  have ha : ∀ w, (f.addVar v).IsVar w → V w := by
    intro w hw
    rcases Dict.mem_keys_set.1 hw with rfl | h
    · exact hn
    · exact hf w h
  rcases addEdge_ok h with ⟨rfl, _⟩ | ⟨_, _, _, rfl⟩
  · exact ha
  · exact ha

theorem vars_fromOp {op : String} {calls : List FCall} {g : CFrame} (hV : ∀ x, InputName calls x ∨ OutputName calls x → (numbered (nameProj op x) = none → V (nameProj op x)) ∧ ∀ i, V (idxName (stem (nameProj op x)) i))
    (h : fromOp op calls = .ok g) : ∀ v, g.IsVar v → V v := by
  unfold fromOp at h
  obtain ⟨n, _, h⟩ := exBind_ok.1 h
  obtain ⟨f1, h1, h⟩ := exBind_ok.1 h
  obtain ⟨f2, h2, h⟩ := exBind_ok.1 h
  have p1 : ∀ v, f1.IsVar v → V v := foldlM_hold (P := fun f : CFrame => ∀ v, f.IsVar v → V v) (b := CFrame.addFunc {} n) (fun v hv => by simp [CFrame.addFunc, IsVar, Dict.keys] at hv)
    (fun x hx b b' hb h => by
      obtain ⟨v, hv, h⟩ := exBind_ok.1 h
      exact vars_new (hV x (.inl (mem_inputNames.1 hx))) hb hv h) h1
  have p2 : ∀ v, f2.IsVar v → V v := foldlM_hold (P := fun f : CFrame => ∀ v, f.IsVar v → V v) p1
    (fun x hx b b' hb h => by
      obtain ⟨v, hv, h⟩ := exBind_ok.1 h
      exact vars_new (hV x (.inr (mem_outputNames.1 hx))) hb hv h) h2
  exact foldlM_hold (P := fun f : CFrame => ∀ v, f.IsVar v → V v) p2 (fun c _ b b' hb h => vars_addCall hb h) h

/-! ### `cf(op)` -/

theorem mem_opCallHids {rows : List Row} {op h : String} (ho : op.toLower ∉ sqlNames) : h ∈ opCallHids rows op ↔ ∃ r ∈ rows, r.op = op ∧ r.callHid = h := by
  unfold opCallHids sqlQuoted
  simp only [if_neg ho, PySet.mem_ofList, List.mem_map, List.mem_filter, decide_eq_true_eq, Option.some.injEq]
  exact ⟨fun ⟨r, ⟨h1, h2⟩, h3⟩ => ⟨r, h1, h2.symm, h3⟩, fun ⟨r, h1, h2, h3⟩ => ⟨r, ⟨h1, h2.symm⟩, h3⟩⟩

/-- The calls of an op. -/
theorem opCalls_run (hW : W.Good) {s : St} (hs : Quer W s) {op : String} (ho : op.toLower ∉ sqlNames) :
    ∃ cs s', mgetCall W.cfg (opCallHids s.calls.pers op) s = (.ok cs, s') ∧ Quer W s' ∧ s'.calls = s.calls ∧ ((cs.map CallObj.toF).map FCall.hid).Nodup ∧
      ∀ c, c ∈ cs.map CallObj.toF ↔ Answered W.cfg s c ∧ c.op = op := by
  have hrec : ∀ h ∈ opCallHids s.calls.pers op, ∃ r ∈ s.calls.pers, r.callHid = h := fun h hh => by
    obtain ⟨r, hr, _, e⟩ := (mem_opCallHids ho).1 hh
    exact ⟨r, hr, e⟩
  obtain ⟨cs, s', h1, h2, h3⟩ := mgetCall_of hW hs hrec
  have hq := quiet_mgetCall W.cfg (opCallHids s.calls.pers op) s
  rw [h1] at hq
  have hh : cs.map (·.hid) = opCallHids s.calls.pers op := by
    have : ∀ {l : List String} {cs : List CallObj}, All2 (fun h c => ∃ d, singleData s.callCache s.calls.pers h = some d ∧ DataOf s.calls.pers h d ∧ DataOK W d h ∧ ObjOf W d c) l cs →
        cs.map (·.hid) = l := by
      intro l cs h
      induction h with
      | nil => rfl
      | cons h _ ih =>
        obtain ⟨d, _, e2, _, e4⟩ := h
        rw [List.map_cons, ih, e4.hid.trans e2.hid]
    exact this h3
  have hA : ∀ c ∈ cs, Answered W.cfg s c.toF := by
    intro c hc
    obtain ⟨h, hh, hd⟩ := h3.mem_right hc
    exact batch_answered hW hs (hrec h hh) hd
  refine ⟨cs, s', h1, hs.after h2 hq, hq.calls, ?_, fun c => ⟨fun hc => ?_, fun ⟨hc, ho'⟩ => ?_⟩⟩
  · rw [List.map_map, show cs.map (FCall.hid ∘ CallObj.toF) = cs.map (·.hid) from rfl, hh]
    exact PySet.nodup_ofList _
  · obtain ⟨obj, hobj, rfl⟩ := List.mem_map.1 hc
    refine ⟨hA obj hobj, ?_⟩
    obtain ⟨r, hr, e1, e2⟩ := (mem_opCallHids ho).1 (hh ▸ List.mem_map_of_mem hobj : obj.hid ∈ opCallHids s.calls.pers op)
    obtain ⟨obj', e, g1, _⟩ := answered_of hW hs (hA obj hobj)
    have : obj'.hid = obj.hid ∧ obj'.op = obj.op := by
      exact ⟨congrArg FCall.hid e, congrArg FCall.op e⟩
    rw [show obj.toF.op = obj.op from rfl, ← this.2, ← (g1.header r hr (e2.trans this.1.symm)).1]
    exact e1
  · obtain ⟨⟨r, hr, e1, e2⟩, _⟩ := row_answered hW hs hc
    have : c.hid ∈ cs.map (·.hid) := hh ▸ (mem_opCallHids ho).2 ⟨r, hr, e2.trans ho', e1⟩
    obtain ⟨obj, hobj, he⟩ := List.mem_map.1 this
    rw [(answered_recOk hW hs).hid _ _ hc (hA obj hobj) he.symm]
    exact List.mem_map_of_mem hobj

end Verif
