import Verif.Proofs.Attach
import Verif.Props.Upkeep
/-!
C76: `attach` puts the values into the refs.
-/
namespace Verif.Props

open Verif

/-- C76: at any point of any process, attaching a result of a call succeeds, writes nothing, and gives refs with the same ids that hold what `unwrap` gives;
attached in place, the ref can be unwrapped from then on without the storage, whatever becomes of it.
Partial: not for ops that return lists of collections (`C07_refuted`); and what is returned for a list ref is a list and not a ref (`C76_refuted_list`). -/
theorem C76_attach_partial (W : World) (hW : W.Good) (o : Option (Joblib Val)) (thr : Nat) (ho : ∀ j, o = some j → j = [])
    (ps : List (List Cmd × End)) (p : List Cmd) (h : KeptOK W (.fresh o thr) ps p) (hflat : ∀ d args, Cmd.call d args ∈ p → OutsFlat d) (hfu : 0 < W.cfg.fuel)
    (r : Ref) (hr : r ∈ (runLast W.cfg (.fresh o thr) ps p).2.1) :
    ∃ v, (unwrapRef W.cfg r (runLast W.cfg (.fresh o thr) ps p).2.2).1 = .ok v ∧
      (∃ a s', attachRef r (runLast W.cfg (.fresh o thr) ps p).2.2 = (.ok a, s') ∧ a.held = some v ∧ a.atomIds = r.atomIds ∧
        OnlyRead (runLast W.cfg (.fresh o thr) ps p).2.2 s') ∧
      ∃ r' s', attachIn r (runLast W.cfg (.fresh o thr) ps p).2.2 = (.ok r', s') ∧ r.SameIds r' ∧ OnlyRead (runLast W.cfg (.fresh o thr) ps p).2.2 s' ∧
        ∀ s2, unwrapRef W.cfg r' s2 = (.ok v, s2) := by
  obtain ⟨⟨orig, h1, h2⟩, _, penv, he⟩ := fsess_kept_run hW (sess_fresh W o thr ho) ⟨rfl, rfl⟩ h
  obtain ⟨i, hi⟩ := List.mem_iff_getElem?.1 hr
  have hfl := h1.flat.flat hi (fun d hd => by
    obtain ⟨args, ha⟩ := h2 d (List.mem_of_getElem? hd)
    exact hflat d args ha)
  obtain ⟨v, t, _, h3, h4⟩ : ∃ v t, penv[i]? = some v ∧ RefOK W r t ∧ t.erase = v := by
    rcases he.get? i with ⟨g1, _⟩ | ⟨r', v, t, g1, g2, g3, g4⟩
    · rw [g1] at hi; cases hi
    · rw [g1] at hi; cases hi; exact ⟨v, t, g2, g3, g4⟩
  have hfi := (h1.firm r hr).1 t h3 (hfl t h3)
  have hca : CanAttach (Has (runLast W.cfg (.fresh o thr) ps p).2.2.atoms) r := canAttach_of r (h1.sess.env r hr).1 hfi
  have hu := firm_unwrapRef hW h1.base r t h3 _ h1.base.refl
  refine ⟨t.erase, ?_, ?_, ?_⟩
  · cases hc : unwrapRef W.cfg r (runLast W.cfg (.fresh o thr) ps p).2.2 with
    | mk y s1 =>
      rw [hc] at hu
      cases y with
      | ok w => rw [hu.2]
      | error e => exact absurd ⟨hfu, hfi⟩ hu.2
  · obtain ⟨a, s', g1, g2, g3, g4⟩ := attachRef_ok hW r t h3 h1.sess.inv hca
    exact ⟨a, s', g1, g2, g3, g4.only⟩
  · obtain ⟨r', s', g1, g2, g3, g4⟩ := attachIn_ok hW r t h3 h1.sess.inv hca
    exact ⟨r', s', g1, g3, g4.only, fun s2 => unwrap_held r' _ g2 s2⟩

/-- `xs = upto(2); a = inc(5)`, both found in the database -/
def again : List Cmd := [.call Ex.upto (Ex.arg1 (.raw (.int 2))), .call Ex.inc (Ex.arg1 (.raw (.int 5)))]

set_option maxRecDepth 20000 in
theorem again_orderly : orderly Ex.W.cfg [] (runSessions Ex.W.cfg (.fresh (some []) 100) firstDay) again = true := by decide +kernel

theorem again_ok : KeptOK Ex.W (.fresh (some []) 100) firstDay again := by
  refine ⟨nextDay_ok.before, orderly_sound _ ?_ again_orderly⟩
  have c1 := Ex.call1_ok Ex.upto_ok (Ex.wf_raw_int 2)
  have c2 := Ex.call1_ok Ex.inc_ok (Ex.wf_raw_int 5)
  intro c hc
  simp only [again, List.mem_cons, List.not_mem_nil, or_false] at hc
  rcases hc with rfl | rfl
  · exact c1
  · exact c2

theorem again_flat (d : OpDef) (args : List PArg) (h : Cmd.call d args ∈ again) : OutsFlat d := by
  simp only [again, List.mem_cons, List.not_mem_nil, or_false, Cmd.call.injEq] at h
  rcases h with ⟨rfl, _⟩ | ⟨rfl, _⟩
  · exact upto_flat
  · exact intOp_flat rfl rfl rfl inc_int

/-- The second process has two refs whose values are not in memory, to which the theorem applies. -/
example (r : Ref) (hr : r ∈ (runLast Ex.W.cfg (.fresh (some []) 100) firstDay again).2.1) :=
  C76_attach_partial Ex.W Ex.good (some []) 100 (fun j h => by cases h; rfl) _ _ again_ok again_flat (by decide) r hr

set_option maxRecDepth 20000 in
example : (runLast Ex.W.cfg (.fresh (some []) 100) firstDay again).2.1.map Ref.held = [none, none] := by decide +kernel

/-- What `attach` returns for the refs, as refs. -/
def Att.asRef : Att → Option Ref
  | .ref r => some r
  | _ => none

/-- `xs = upto(2)` and `a = inc(5)`, attached -/
def attachAgain : List (Option (Option Val) × Option Val) :=
  (runLast Ex.W.cfg (.fresh (some []) 100) firstDay again).2.1.map fun r =>
    match (attachRef r (runLast Ex.W.cfg (.fresh (some []) 100) firstDay again).2.2).1 with
    | .ok a => ((Att.asRef a).map Ref.held, a.held)
    | .error _ => (none, none)

set_option maxRecDepth 20000 in
/-- C76 is false for lists, in that `attach` does not give a ref: for `xs` it returns a list of refs, without the ids of `xs` (model.py:391-405). -/
theorem C76_refuted_list : attachAgain = [(none, some (.list [.int 0, .int 1])), (some (some (.int 6)), some (.int 6))] := by decide +kernel

set_option maxRecDepth 20000 in
/-- C76 is false for frames: after `cf.attach()`, no ref of the frame is in memory that was not so before (cf.py:1377-1378). -/
theorem C76_refuted_frame : (match (frameAttach (runLast Ex.W.cfg (.fresh (some []) 100) firstDay again).2.1
    (runLast Ex.W.cfg (.fresh (some []) 100) firstDay again).2.2).1 with
    | .ok rs => rs.map Ref.held
    | .error _ => []) = [none, none] := by decide +kernel

end Verif.Props
