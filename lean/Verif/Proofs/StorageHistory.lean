import Verif.Props.StorageFrame
import Verif.Props.FrameTable
import Verif.Spec.StorageHistory
/-!
The past of a value in a frame that shows the history.
-/
namespace Verif

open Props CFrame

variable {W : World} {f g : CFrame}

theorem madeBy_out {s0 : St} (H : Wf (Answered W.cfg s0) g) {v h n : String} {c : FCall} (hm : g.MadeBy v h n c) :
    Answered W.cfg s0 c ∧ Touches .back c h := by
  obtain ⟨call, h1, p, hp, e⟩ := (H.creator h c.hid hm.1).2
  rw [hm.2.1] at h1
  cases h1
  exact ⟨(H.call.callOk _ _ hm.2.1).2, p, hp, e⟩

/-- What is in the past of a value has to do with it. -/
theorem past_sound (hW : W.Good) {s0 : St} (hq : Quer W s0) (H : Wf (Answered W.cfg s0) g) {inc : Bool} {v x : String} (hv : g.HasRef v x) {b : String × String}
    (h : Star (g.MadeFrom inc) (v, x) b) :
    (g.HasRef b.1 b.2 ∧ From s0.calls.pers x b.2) ∨ (g.HasCall b.1 b.2 ∧ inc = true ∧ History s0.calls.pers x b.2) := by
  induction h with
  | refl => exact .inl ⟨hv, .here⟩
  | tail _ hbc ih =>
    rcases ih with ⟨_, hf⟩ | ⟨hc, _⟩
    · cases hbc with
      | input hm hp he =>
        obtain ⟨hA, ht⟩ := madeBy_out H hm
        exact .inl ⟨(H.ins _ _ _ _ hp ⟨hm.2.2.1, hm.2.1, (H.graph.sym _ _ _).1 he⟩).1,
          .step hf ((hasIO_out hW hq).2 ⟨_, hA, rfl, ht⟩) ((hasIO_in hW hq).2 ⟨_, hA, rfl, _, hp, rfl⟩)⟩
      | call hm hi =>
        obtain ⟨hA, ht⟩ := madeBy_out H hm
        exact .inr ⟨hm.2.2.1, hi, _, hf, (hasIO_out hW hq).2 ⟨_, hA, rfl, ht⟩⟩
    · have no : ∀ {h n c}, ¬ g.MadeBy _ h n c := fun {h n c} hm => by
        obtain ⟨l, hl⟩ := hm.2.2.2
        rcases H.graph.bip _ _ _ hl with ⟨h1, _⟩ | ⟨_, h2⟩
        · exact H.graph.disj _ h1 hm.2.2.1.key
        · exact H.graph.disj _ h2 hc.key
      cases hbc with
      | input hm => exact absurd hm no
      | call hm => exact absurd hm no

theorem made_of (hW : W.Good) {s0 : St} (hq : Quer W s0) (H : Wf (Answered W.cfg s0) g) (hS : ShowsHistory s0.calls.pers f g) {v y k : String} (hv : g.HasRef v y)
    (hio : HasIO s0.calls.pers .out k y) : ∃ n c, c.hid = k ∧ Answered W.cfg s0 c ∧ g.MadeBy v y n c := by
  obtain ⟨n, hn, r, hr, rfl, hd, rfl, he⟩ := hS.joined v y k hv hio
  obtain ⟨c, hc, e1, e2, ⟨hd', _⟩ | ⟨_, hm⟩⟩ := answered_row hW hq hr
  · rw [hd] at hd'; cases hd'
  rw [← e1] at hn
  obtain ⟨c2, b1, b2, b3⟩ := H.get_call hn
  rw [(answered_recOk hW hq).hid c2 c b3 hc b2] at b1
  rw [← e2] at he
  exact ⟨n, c, e1, hc, (H.outs n c _ v hm ⟨hn, b1, he⟩).2, b1, hn, _, he⟩

/-- And all of it is there. -/
theorem past_complete (hW : W.Good) {s0 : St} (hq : Quer W s0) (H : Wf (Answered W.cfg s0) g) (hS : ShowsHistory s0.calls.pers f g) {inc : Bool} {v x : String}
    (hv : g.HasRef v x) {y : String} (h : From s0.calls.pers x y) : ∃ w, g.HasRef w y ∧ g.Past inc v x w y := by
  induction h with
  | here => exact ⟨v, hv, .refl⟩
  | step _ h1 h2 ih =>
    obtain ⟨w, hw, hp⟩ := ih
    obtain ⟨n, c, rfl, hc, hm⟩ := made_of hW hq H hS hw h1
    obtain ⟨r, hr, e1, e2, rfl⟩ := h2
    obtain ⟨w', w1, w2⟩ := hS.inputs n r hr (e1 ▸ hm.2.2.1) e2
    obtain ⟨c', hc', e3, e4, ⟨_, hin⟩ | ⟨hd', _⟩⟩ := answered_row hW hq hr
    · have : c' = c := (answered_recOk hW hq).hid c' c hc' hc (e3.trans e1)
      subst this
      rw [← e4] at w2
      exact ⟨w', w1, .tail hp (.input hm hin w2)⟩
    · rw [e2] at hd'; cases hd'

theorem row_history (hW : W.Good) {s0 : St} (hq : Quer W s0) (H : Wf (Answered W.cfg s0) g) (hS : ShowsHistory s0.calls.pers f g) {inc : Bool} {v x : String}
    (hv : g.HasRef v x) {r : TRow} (hr : g.IsRowOf inc v x r) : RowHistory s0.calls.pers g inc x r := by
  have cell : ∀ k y, (∃ s, r.get? k = some s ∧ y ∈ s) ↔ g.Past inc v x k y := by
    intro k y
    have := hr k
    cases hk : r.get? k with
    | none => rw [hk] at this; exact ⟨fun ⟨s, h, _⟩ => (by cases h), fun h => absurd h (this y)⟩
    | some s =>
      rw [hk] at this
      exact ⟨fun ⟨s', h, hy⟩ => by cases h; exact (this.2.2.2 y).1 hy, fun h => ⟨s, rfl, (this.2.2.2 y).2 h⟩⟩
  refine ⟨fun y => ⟨fun ⟨k, s, hk, h1, h2⟩ => ?_, fun h => ?_⟩, fun c => ⟨fun ⟨k, s, hk, h1, h2⟩ => ?_, fun ⟨hi, y, hy, hio⟩ => ?_⟩, fun k s y h1 h2 => ?_⟩
  · rcases past_sound hW hq H hv ((cell k y).1 ⟨s, h1, h2⟩) with h | h
    · exact h.2
    · exact absurd h.1.key (H.graph.disj _ hk)
  · obtain ⟨w, hw, hp⟩ := past_complete hW hq H hS (inc := inc) hv h
    obtain ⟨s, h1, h2⟩ := (cell w y).2 hp
    exact ⟨w, s, hw.key, h1, h2⟩
  · rcases past_sound hW hq H hv ((cell k c).1 ⟨s, h1, h2⟩) with h | h
    · exact absurd hk (H.graph.disj _ h.1.key)
    · exact h.2
  · obtain ⟨w, hw, hp⟩ := past_complete hW hq H hS (inc := inc) hv hy
    obtain ⟨n, k, rfl, _, hm⟩ := made_of hW hq H hS hw hio
    obtain ⟨s, h1, h2⟩ := (cell n k.hid).2 (.tail hp (.call hm hi))
    exact ⟨n, s, hm.2.2.1.key, h1, h2⟩
  · exact (past_sound hW hq H hv ((cell k y).1 ⟨s, h1, h2⟩)).imp And.left And.left

end Verif
