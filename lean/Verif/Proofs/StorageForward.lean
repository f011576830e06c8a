import Verif.Proofs.StorageFrame
import Verif.Proofs.CFrameForward
import Verif.Spec.StorageForward
/-!
Expanding a frame forward with the calls of a storage.
-/
namespace Verif

open Props CFrame

variable {W : World} {F V : String → Prop}

/-- A query while expanding forward. -/
theorem consumers_recorded (hW : W.Good) {s : St} (hs : Quer W s) {ord : List String → List String} (hord : ∀ l, (ord l).Perm l) (refs : List String) :
    ∃ cs s', getConsumerCalls W.cfg ord false refs s = (.ok cs, s') ∧ Quer W s' ∧ s'.calls = s.calls ∧ (cs.map CallObj.toF).Nodup ∧
      ∀ c, c ∈ cs.map CallObj.toF ↔ Answered W.cfg s c ∧ ∃ x ∈ refs, Touches .forward c x := by
  obtain ⟨cs, s', h1, h2, h3, h4⟩ := consumers_run hW hs hord refs
  have hq := quiet_consumers W.cfg ord refs s
  rw [h1] at hq
  refine ⟨cs, s', h1, hs.after h2 hq, hq.calls, ?_, fun c => ⟨fun hc => ?_, fun ⟨hc, x, hx, ht⟩ => ?_⟩⟩
  · have : ((cs.map CallObj.toF).map FCall.hid).Nodup := by
      rw [List.map_map]; exact h3.nodup
    exact List.Nodup.of_map _ this
  · obtain ⟨obj, ho, rfl⟩ := List.mem_map.1 hc
    refine ⟨h4 obj ho, ?_⟩
    obtain ⟨r, hr, g1, g2, g3⟩ := (h3.exactly obj.hid).1 (List.mem_map_of_mem ho)
    exact ⟨r.refHid, g2, (r.name, ⟨r.refHid, r.refCid⟩), mem_toF_inputs.2 (((h3.calls obj ho).inputs _ _ _).2 ⟨r, hr, g3, g1, rfl, rfl, rfl⟩), rfl⟩
  · obtain ⟨r, hr, e1, e2, e3⟩ := (hasIO_in hW hs).2 ⟨c, hc, rfl, ht⟩
    obtain ⟨obj', ho', he⟩ := List.mem_map.1 ((h3.exactly c.hid).2 ⟨r, hr, e2, e3 ▸ hx, e1⟩)
    rw [(answered_recOk hW hs).hid _ _ hc (h4 obj' ho') he.symm]
    exact List.mem_map_of_mem ho'

/-- One round of expanding forward. -/
theorem consumers_round (hW : W.Good) {s : St} (hs : Quer W s) {ord : List String → List String} (hord : ∀ l, (ord l).Perm l) {f : CFrame}
    (H : Sound (Answered W.cfg s) F V f) (hne : f.vs.keys ≠ []) (hap : ∀ c, Answered W.cfg s c → ∀ v x, f.HasRef v x → Touches .forward c x → Apart .forward c) :
    ∃ g s' rec, f.expandOnceAt W.cfg ord false .forward false false f.vs.keys s = (.ok g, s') ∧ Quer W s' ∧ s'.calls = s.calls ∧ Sound (Answered W.cfg s) F V g ∧
      Round rec .forward f.vs.keys f g ∧ Beyond (Answered W.cfg s) .forward f g ∧ (∀ c ∈ rec, Answered W.cfg s c) ∧
      ∀ c, Answered W.cfg s c → ∀ v x, Unattached f .forward v x → Touches .forward c x → c ∈ rec := by
  have hR := answered_recOk hW hs
  obtain ⟨ends, h1, h2, h3⟩ := endElts_unattached hR H.wf H.labels .forward
  obtain ⟨cs, s', q1, q2, q3, q4, q5⟩ := consumers_recorded hW hs hord (valsUnion (ends.filter fun p => p.1 ∈ f.vs.keys))
  have hsel : recordedAt (cs.map CallObj.toF) .forward (valsUnion (ends.filter fun p => p.1 ∈ f.vs.keys)) = cs.map CallObj.toF := by
    refine List.filter_eq_self.2 fun c hc => ?_
    obtain ⟨_, x, hx, p, hp, e⟩ := (q5 c).1 hc
    exact List.any_eq_true.2 ⟨p, hp, decide_eq_true (e ▸ hx)⟩
  obtain ⟨g, g1, g2, g3⟩ := expandOnce_fresh hR H (rec := cs.map CallObj.toF) (fun c hc => ((q5 c).1 hc).1) q4 (dir := .forward)
    (fun c hc => by
      obtain ⟨hc', x, hx, ht⟩ := (q5 c).1 hc
      obtain ⟨v, hv⟩ := mem_valsUnion.1 hx
      obtain ⟨hv1, hv2⟩ := inSet_filter.1 hv
      exact hap c hc' v x ((h3 v x hv1).1 hv2).1 ht) (fun v hv => hv) hne
  have hB := expandOnce_beyond H.ready (fun c hc => ((q5 c).1 hc).1) (fun v hv => hv) g1
  refine ⟨g, s', cs.map CallObj.toF, ?_, q2, q3, g2, g3, hB, fun c hc => ((q5 c).1 hc).1, fun c hc v x hu ht => ?_⟩
  · unfold expandOnce at g1
    unfold expandOnceAt
    simp only [h1, bind, Except.bind] at g1
    simp only [h1]
    rw [bind_eq (show M.lift (Except.ok ends) s = (.ok ends, s) from rfl)]
    split at g1
    · cases g1
    · rename_i hel
      rw [if_neg hel, bind_eq q1]
      rw [hsel] at g1
      simp only [Bool.false_eq_true, if_false] at g1 ⊢
      cases hg : f.groupCalls (cs.map CallObj.toF) f.vs.keys .forward with
      | error e => rw [hg] at g1; cases g1
      | ok d =>
        rw [hg] at g1
        rw [bind_eq (show M.lift (Except.ok d) s' = (.ok d, s') from rfl)]
        simp only at g1
        rw [g1]
        rfl
  · refine (q5 c).2 ⟨hc, x, ?_, ht⟩
    rw [mem_valsUnion]
    exact ⟨v, inSet_filter.2 ⟨hu.1.key, (h3 v x hu.1.key).2 hu⟩⟩

/-- The outputs of every call are in the frame. -/
def OutShut (f : CFrame) : Prop := ∀ n c, f.HasCall n c.hid → f.calls.get? c.hid = some c → ∀ p ∈ c.outputs, ∃ w, f.HasRef w p.2.hid

theorem Round.outShut {R : FCall → Prop} (hR : RecOk R) {rec : List FCall} (hrec : ∀ c ∈ rec, R c) {f g : CFrame} (hf : Wf R f) (hg : Wf R g)
    (h : Round rec .forward f.vs.keys f g) (hs : OutShut f) : OutShut g := by
  intro n c hn hc p hp
  rcases h.newCall n c.hid hn with hn' | ⟨c', hc', e, hu⟩
  · obtain ⟨c2, b1, b2, b3⟩ := hf.get_call hn'
    rw [hR.hid c2 c b3 (hg.call.callOk _ _ hc).2 b2] at b1
    obtain ⟨w, hw⟩ := hs n c hn' b1 p hp
    exact ⟨w, h.grows.ref _ _ hw⟩
  · have : c' = c := hR.hid c' c (hrec c' hc') (hg.call.callOk _ _ hc).2 e
    subst this
    obtain ⟨_, v, _, hv⟩ := h.dual c' hc' hu p hp
    exact ⟨v, hv⟩

/-- Every value in a variable is there either without any call that uses it, or with all of them. -/
def AllOrNone (R : FCall → Prop) (f : CFrame) : Prop :=
  ∀ v x, f.HasRef v x → Unattached f .forward v x ∨ ∀ c, R c → Touches .forward c x → ∃ n, Attached f .forward v x n c

theorem Round.allOrNone {R : FCall → Prop} (hR : RecOk R) {f : CFrame} {rec : List FCall} (hrec : ∀ c, R c → ∀ v x, Unattached f .forward v x → Touches .forward c x → c ∈ rec) {g : CFrame} (hf : Wf R f) (hg : Wf R g)
    (h : Round rec .forward f.vs.keys f g) (B : Beyond R .forward f g) (hs : AllOrNone R f) : AllOrNone R g := by
  intro v x hx
  by_cases hr : f.HasRef v x
  · refine .inr fun c hc ht => ?_
    rcases hs v x hr with hu | ha
    · obtain ⟨n, _, ha⟩ := h.attached v hr.key x hu c (hrec c hc v x hu ht) ht
      exact ⟨n, ha⟩
    · obtain ⟨n, ha⟩ := ha c hc ht
      exact ⟨n, h.grows.attached hR hg hf ha⟩
  · exact .inl (B.unattached hf hg hR h hx hr)

theorem Into.trans {rows : List Row} {x y z : String} (h1 : Into rows x y) (h2 : Into rows y z) : Into rows x z := by
  induction h2 with
  | here => exact h1
  | step _ a b ih => exact .step ih a b

theorem expandAt_into (hW : W.Good) {s0 : St} (hs0 : Quer W s0) {ord : Nat → List String → List String} (hord : ∀ i l, (ord i l).Perm l)
    {ht : String → Nat} (hht : ∀ c, Answered W.cfg s0 c → ∀ x y, Touches .forward c x → Touches .back c y → ht y < ht x) :
    ∀ (k i : Nat) (f : CFrame) (s : St), Quer W s → s.calls = s0.calls → Sound (Answered W.cfg s0) F V f → f.vs.keys ≠ [] → OutShut f → AllOrNone (Answered W.cfg s0) f →
      (∀ c, Answered W.cfg s0 c → ∀ v x y, f.HasRef v x → Into s0.calls.pers x y → Touches .forward c y → Apart .forward c) →
      (∀ v x, Unattached f .forward v x → ∀ c, Answered W.cfg s0 c → Touches .forward c x → ht x < k) →
      ∃ g s', (∀ j, k + 1 ≤ j → f.expandAt W.cfg ord false .forward false false true i j s = (.ok g, s')) ∧ Quer W s' ∧ s'.calls = s0.calls ∧
        Sound (Answered W.cfg s0) F V g ∧ OutShut g ∧ AllOrNone (Answered W.cfg s0) g ∧
        (∀ v x, Unattached g .forward v x → ∀ c, Answered W.cfg s0 c → ¬ Touches .forward c x) ∧
        CFrame.Grows (Answered W.cfg s0) f g ∧ (∀ v y, g.HasRef v y → ∃ w x, f.HasRef w x ∧ Into s0.calls.pers x y) ∧
        ∀ n h, g.HasCall n h → f.HasCall n h ∨ ∃ w x, f.HasRef w x ∧ Later s0.calls.pers x h := by
  have hR := answered_recOk hW hs0
  intro k
  induction k with
  | zero =>
    intro i f s hs hc H hne hshut hall hap hb
    have hA := answered_eq hW hs0 hs hc
    obtain ⟨g, s', rec, g1, g2, g3, g4, g5, gB, g6, g7⟩ := consumers_round hW hs (hord i) (hA ▸ H) hne (hA ▸ fun c hc v x hx ht => hap c hc v x x hx .here ht)
    rw [hA] at g6 g7
    have hcomp : ∀ v x, Unattached f .forward v x → ∀ c, Answered W.cfg s0 c → ¬ Touches .forward c x := fun v x hu c hc ht => absurd (hb v x hu c hc ht) (by omega)
    have := g5.idle fun v _ x hu c hc' => hcomp v x hu c (g6 c hc')
    subst this
    refine ⟨g, s', fun j hj => ?_, g2, g3.trans hc, H, hshut, hall, hcomp, .refl, fun v y h => ⟨v, y, h, .here⟩, fun n h hh => .inl hh⟩
    obtain ⟨j, rfl⟩ := Nat.exists_eq_add_of_le' (show 1 ≤ j by omega)
    unfold expandAt
    rw [bind_eq g1, if_pos (.inl rfl)]
    rfl
  | succ k ih =>
    intro i f s hs hc H hne hshut hall hap hb
    have hA := answered_eq hW hs0 hs hc
    obtain ⟨g, s', rec, g1, g2, g3, g4, g5, gB, g6, g7⟩ := consumers_round hW hs (hord i) (hA ▸ H) hne (hA ▸ fun c hc v x hx ht => hap c hc v x x hx .here ht)
    rw [hA] at g4 g6 g7 gB
    by_cases hcomp : ∀ v x, Unattached f .forward v x → ∀ c, Answered W.cfg s0 c → ¬ Touches .forward c x
    · have := g5.idle fun v _ x hu c hc' => hcomp v x hu c (g6 c hc')
      subst this
      refine ⟨g, s', fun j hj => ?_, g2, g3.trans hc, H, hshut, hall, hcomp, .refl, fun v y h => ⟨v, y, h, .here⟩, fun n h hh => .inl hh⟩
      obtain ⟨j, rfl⟩ := Nat.exists_eq_add_of_le' (show 1 ≤ j by omega)
      unfold expandAt
      rw [bind_eq g1, if_pos (.inl rfl)]
      rfl
    · have hlt : setLen f.nodes < setLen g.nodes := by
        simp only [Classical.not_forall] at hcomp
        obtain ⟨v, x, hu, c, hc, ht'⟩ := hcomp
        obtain ⟨n, n1, n2⟩ := g5.attached v hu.1.key x hu c (g7 c hc v x hu (Classical.not_not.1 ht')) (Classical.not_not.1 ht')
        exact nodes_lt g5.grows n1 (mem_nodes.2 (.inr n2.1.key))
      have hG : CFrame.Grows (Answered W.cfg s0) f g := g5.grows.mono g6
      have hnew : ∀ v y, g.HasRef v y → ∃ w x, f.HasRef w x ∧ Into s0.calls.pers x y := by
        intro v y hy
        rcases g5.newRef v y hy with hr | ⟨n, c2, hc2, ha, w, hw, x, hx, hty⟩
        · exact ⟨v, y, hr, .here⟩
        · obtain ⟨_, _, p, hp, e, _⟩ := ha
          exact ⟨w, x, hx.1, .step .here ((hasIO_in hW hs0).2 ⟨c2, g6 c2 hc2, rfl, hty⟩) ((hasIO_out hW hs0).2 ⟨c2, g6 c2 hc2, rfl, p, hp, e⟩)⟩
      obtain ⟨g', s'', a1, a2, a3, a4, a5, a5', a6, a7, a8, a9⟩ := ih (i + 1) g s' g2 (g3.trans hc) g4 (vars_ne g5.grows hne) (Round.outShut hR g6 H.wf g4.wf g5 hshut)
        (Round.allOrNone hR g7 H.wf g4.wf g5 gB hall) (fun c hc v x y hx hxy ht => by
          obtain ⟨w, x', hx', hxx⟩ := hnew v x hx
          exact hap c hc w x' y hx' (hxx.trans hxy) ht) (by
        intro v x hu c hc ht'
        rcases g5.newRef v x hu.1 with hr | ⟨n, c2, hc2, ha, w, hw, y, hy, hty⟩
        · have hu' := hu.of_grows hR g4.wf H.wf g5.grows hr
          obtain ⟨n, _, ha⟩ := g5.attached v hr.key x hu' c (g7 c hc v x hu' ht') ht'
          exact absurd ha (hu.2 n c)
        · obtain ⟨_, _, p, hp, e, _⟩ := ha
          have h1 := hht c2 (g6 c2 hc2) y x hty ⟨p, hp, e⟩
          have h2 := hb w y hy c2 (g6 c2 hc2) hty
          omega)
      refine ⟨g', s'', fun j hj => ?_, a2, a3, a4, a5, a5', a6, hG.trans a7, fun v y hy => ?_, fun n h hh => ?_⟩
      · obtain ⟨j, rfl⟩ := Nat.exists_eq_add_of_le' (show 1 ≤ j by omega)
        unfold expandAt
        rw [bind_eq g1, if_neg (by rintro (h | h) <;> [omega; cases h])]
        exact a1 j (by omega)
      · obtain ⟨w, x, hx, hf⟩ := a8 v y hy
        obtain ⟨w', x', hx', hf'⟩ := hnew w x hx
        exact ⟨w', x', hx', hf'.trans hf⟩
      · rcases a9 n h hh with hh | ⟨w, x, hx, y, hy, hio⟩
        · rcases g5.newCall n h hh with hh | ⟨c, hc', rfl, w, _, y, hy, hty⟩
          · exact .inl hh
          · exact .inr ⟨w, y, hy.1, y, .here, (hasIO_in hW hs0).2 ⟨c, g6 c hc', rfl, hty⟩⟩
        · obtain ⟨w', x', hx', hf'⟩ := hnew w x hx
          exact .inr ⟨w', x', hx', y, hf'.trans hy, hio⟩

/-- The values computed from `x` have smaller heights. -/
theorem answered_height (hW : W.Good) {s : St} (hs : Quer W s) :
    ∃ ht : String → Nat, ∀ c, Answered W.cfg s c → ∀ x y, Touches .forward c x → Touches .back c y → ht y < ht x := by
  obtain ⟨rank, hrank⟩ := answered_acyclic hW hs
  obtain ⟨m, hm⟩ := bounded rank (s.calls.pers.map (·.refHid))
  refine ⟨fun x => m - rank x, fun c hc x y ⟨p, hp, e⟩ ⟨q, hq, e'⟩ => ?_⟩
  have h1 := hrank c hc p hp q hq
  obtain ⟨r, hr, _, _, _, e4⟩ := (row_answered hW hs hc).2 q (.inr hq)
  have h2 := hm q.2.hid (e4 ▸ List.mem_map_of_mem hr)
  rw [e, e'] at h1
  rw [e'] at h2
  show m - rank y < m - rank x
  omega

/-- A call that makes no list with several elements has its inputs under different labels. -/
theorem OneElement.apart (hW : W.Good) {s : St} (hs : Quer W s) {c : FCall} (hc : Answered W.cfg s c) (h : OneElement s.calls.pers c.hid) : Apart .forward c := by
  have hR := answered_recOk hW hs
  refine apart_forward hR hc fun hop => ?_
  obtain ⟨obj, rfl, g1, _⟩ := answered_of hW hs hc
  have hsame : ∀ p ∈ obj.toF.inputs, ∀ q ∈ obj.toF.inputs, p.1 = q.1 := by
    intro p hp q hq
    obtain ⟨r, hr, e1, e2, e3, _⟩ := (g1.inputs _ _ _).1 (mem_toF_inputs.1 hp)
    obtain ⟨r', hr', f1, f2, f3, _⟩ := (g1.inputs _ _ _).1 (mem_toF_inputs.1 hq)
    rw [← e3, ← f3]
    exact h r hr r' hr' e1 f1 e2 f2 ((g1.header r hr e1).1.trans hop)
  have hnd := hR.inputs _ hc
  match hi : obj.toF.inputs with
  | [] => simp
  | [_] => simp
  | p :: q :: l =>
    rw [hi] at hsame hnd
    simp only [Dict.keys, List.map_cons, List.nodup_cons, List.mem_cons] at hnd
    exact absurd (.inl (hsame p (by simp) q (by simp))) hnd.1

/-- Expanding forward to the end, from a frame without functions: exactly what was computed. -/
theorem expandAt_later (hW : W.Good) {s0 : St} (hs0 : Quer W s0) {ord : Nat → List String → List String} (hord : ∀ i l, (ord i l).Perm l)
    {f : CFrame} {s : St} (hs : Quer W s) (hc : s.calls = s0.calls) (H : Sound (Answered W.cfg s0) F V f) (hne : f.vs.keys ≠ []) (hnf : ∀ n h, ¬ f.HasCall n h)
    (hone : ∀ v x c, f.HasRef v x → Later s0.calls.pers x c → OneElement s0.calls.pers c) :
    ∃ g s' K, (∀ j, K ≤ j → f.expandAt W.cfg ord false .forward false false true 0 j s = (.ok g, s')) ∧ s'.calls = s0.calls ∧
      Sound (Answered W.cfg s0) F V g ∧ CFrame.Grows (Answered W.cfg s0) f g ∧ (∀ y, (∃ v, g.HasRef v y) ↔ ∃ w x, f.HasRef w x ∧ Into s0.calls.pers x y) ∧
      (∀ h, (∃ n, g.HasCall n h) ↔ ∃ w x, f.HasRef w x ∧ Later s0.calls.pers x h) ∧
      ∀ v y, g.HasRef v y → ∀ c, Answered W.cfg s0 c → Touches .forward c y → ∃ n, Attached g .forward v y n c := by
  have hR := answered_recOk hW hs0
  obtain ⟨ht, hht⟩ := answered_height hW hs0
  obtain ⟨m, hm⟩ := bounded ht (f.vs.keys.flatMap fun v => getOr f.vs v)
  obtain ⟨g, s', a1, a2, a3, a4, a5, a5', a6, a7, a8, a9⟩ := expandAt_into (F := F) (V := V) hW hs0 hord hht m 0 f s hs hc H hne (fun n c hn => absurd hn (hnf n _))
    (fun v x hx => .inl ⟨hx, fun n c ha => hnf n _ ha.1⟩)
    (fun c hc v x y hx hxy ht => (hone v x c.hid hx ⟨y, hxy, (hasIO_in hW hs0).2 ⟨c, hc, rfl, ht⟩⟩).apart hW hs0 hc) (by
    intro v x hu c _ _
    refine hm x (List.mem_flatMap.2 ⟨v, hu.1.key, ?_⟩)
    obtain ⟨l, h1, h2⟩ := hu.1
    unfold getOr
    rw [h1]
    exact h2)
  have hatt : ∀ v y, g.HasRef v y → ∀ c, Answered W.cfg s0 c → Touches .forward c y → ∃ n, Attached g .forward v y n c := by
    intro v y hy c hcA ht
    rcases a5' v y hy with hu | h
    · exact absurd ht (a6 v y hu c hcA)
    · exact h c hcA ht
  have hinto : ∀ w x y, f.HasRef w x → Into s0.calls.pers x y → ∃ v, g.HasRef v y := by
    intro w x y hx hf
    induction hf with
    | here => exact ⟨w, a7.ref _ _ hx⟩
    | step _ h1 h2 ih =>
      obtain ⟨v, hv⟩ := ih
      obtain ⟨k, hk, rfl, ht⟩ := (hasIO_in hW hs0).1 h1
      obtain ⟨k', hk', e, p, hp, rfl⟩ := (hasIO_out hW hs0).1 h2
      have : k' = k := hR.hid _ _ hk' hk e
      subst this
      obtain ⟨n, b1, b2, _⟩ := hatt v _ hv k' hk ht
      exact a5 n k' b1 b2 p hp
  refine ⟨g, s', m + 1, a1, a3, a4, a7, fun y => ⟨fun ⟨v, hv⟩ => a8 v y hv, fun ⟨w, x, hx, hf⟩ => hinto w x y hx hf⟩,
    fun h => ⟨fun ⟨n, hn⟩ => (a9 n h hn).elim (fun hh => absurd hh (hnf n h)) id, ?_⟩, hatt⟩
  rintro ⟨w, x, hx, y, hy, hio⟩
  obtain ⟨v, hv⟩ := hinto w x y hx hy
  obtain ⟨k, hk, rfl, ht⟩ := (hasIO_in hW hs0).1 hio
  obtain ⟨n, hn⟩ := hatt v y hv k hk ht
  exact ⟨n, hn.1⟩

end Verif
