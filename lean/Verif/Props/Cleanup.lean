import Verif.Proofs.Cleanup
import Verif.Props.History
import Verif.Props.Elements
/-!
C16: `cleanup_refs` deletes garbage only.
-/
namespace Verif.Props

open Verif

/-- C16: after any program (calls, commits, drops, reopening, ...), `cleanup_refs` succeeds and deletes from the database precisely the refs and values
that are not inputs or outputs of calls in the database. Partial: calls that are not committed yet do not count; their inputs can be deleted
(`C08_refuted_cleanup`). -/
theorem C16_deletes_garbage_partial (W : World) (hW : W.Good) (o : Option (Joblib Val)) (ho : ∀ j, o = some j → j = []) (thr : Nat) (prog : List Cmd)
    (hok : ∀ c ∈ prog, CmdOK W c) :
    ∃ s', cleanupRefs (runProg W.cfg [] (.fresh o thr) prog).2.2 = (.ok (), s') ∧ GarbageGone (runProg W.cfg [] (.fresh o thr) prog).2.2 s' := by
  obtain ⟨s', h1, h2, _⟩ := cleanup_exact hW (rows_ok W hW o ho thr prog hok)
  exact ⟨s', h1, h2⟩

/-- C16: after any program, every input and output of every call in the database loads (and unwraps) to the same value, or fails in the same way, before
and after `cleanup_refs`. Partial: if the elements of the collections used by calls are used by calls; otherwise it is false (`C16_refuted`). -/
theorem C16_used_refs_load_partial (W : World) (hW : W.Good) (o : Option (Joblib Val)) (ho : ∀ j, o = some j → j = []) (thr : Nat) (prog : List Cmd)
    (hok : ∀ c ∈ prog, CmdOK W c) (he : EltsUsed (runProg W.cfg [] (.fresh o thr) prog).2.2) (s' : St)
    (hc : cleanupRefs (runProg W.cfg [] (.fresh o thr) prog).2.2 = (.ok (), s')) (r : Row)
    (hr : r ∈ (runProg W.cfg [] (.fresh o thr) prog).2.2.calls.pers) (b : Bool) :
    (loadValue W.cfg r.refHid b s').1 = (loadValue W.cfg r.refHid b (runProg W.cfg [] (.fresh o thr) prog).2.2).1 :=
  cleanup_loads hW (rows_ok W hW o ho thr prog hok) he hc ⟨r, hr, rfl⟩ b

mutual
/-- The history ids inside a ref. -/
def nestedHids : Ref → List String
  | .atom .. => []
  | .coll _ _ _ _ _ es => nestedHidss es
/-- pointwise -/
def nestedHidss : List Ref → List String
  | [] => []
  | r :: rs => r.hid :: nestedHids r ++ nestedHidss rs
end

mutual
theorem nested_of {P : String → Prop} : ∀ (r : Ref), (∀ h ∈ nestedHids r, P h) → Nested P r
  | .atom .., _ => by simp [Nested]
  | .coll _ _ _ _ _ es, h => by simp only [Nested]; simp only [nestedHids] at h; exact nesteds_of es h
theorem nesteds_of {P : String → Prop} : ∀ (rs : List Ref), (∀ h ∈ nestedHidss rs, P h) → Nesteds P rs
  | [], _ => by simp [Nesteds]
  | r :: rs, h => by
    simp only [nestedHidss] at h
    simp only [Nesteds]
    exact ⟨⟨h _ (by simp), nested_of r fun x hx => h x (by simp [hx])⟩, nesteds_of rs fun x hx => h x (by simp [hx])⟩
end

/-- A check of `EltsUsed`. -/
def eltsUsed (s : St) : Bool := s.calls.pers.all fun row => match (s.shapes.get row.refHid).1 with
  | .ok r => (nestedHids r).all fun h => s.calls.pers.any fun row' => row'.refHid = h
  | .error _ => true

theorem eltsUsed_sound {s : St} (h : eltsUsed s = true) : EltsUsed s := by
  rintro _ ⟨row, hrow, rfl⟩ r hr
  have := List.all_eq_true.1 h row hrow
  rw [hr] at this
  refine nested_of r fun x hx => ?_
  have := List.all_eq_true.1 this x hx
  obtain ⟨row', h1, h2⟩ := List.any_eq_true.1 this
  exact ⟨row', h1, by simpa using h2⟩

/-- `x = upto(2); y = inc(5); storage.commit(); storage.drop_calls(inc(5))`: the argument and the result of `inc` are garbage. -/
def withGarbage : List Cmd := [.call Ex.upto (Ex.arg1 (.raw (.int 2))), .call Ex.inc (Ex.arg1 (.raw (.int 5))), .commit, .dropCalls [incHid 5] false]

theorem withGarbage_ok : ∀ c ∈ withGarbage, CmdOK Ex.W c := by
  intro c hc
  simp only [withGarbage, List.mem_cons, List.not_mem_nil, or_false] at hc
  rcases hc with rfl | rfl | rfl | rfl
  · exact Ex.call1_ok Ex.upto_ok (Ex.wf_raw_int 2)
  · exact Ex.call1_ok Ex.inc_ok (Ex.wf_raw_int 5)
  · trivial
  · trivial

set_option maxRecDepth 20000 in
theorem withGarbage_used : eltsUsed (runProg Ex.W.cfg [] (.fresh none 100) withGarbage).2.2 = true := by decide +kernel

/-- The theorems apply to this program. -/
example (s' : St) (hc : cleanupRefs (runProg Ex.W.cfg [] (.fresh none 100) withGarbage).2.2 = (.ok (), s')) (r : Row)
    (hr : r ∈ (runProg Ex.W.cfg [] (.fresh none 100) withGarbage).2.2.calls.pers) (b : Bool) :
    (loadValue Ex.W.cfg r.refHid b s').1 = (loadValue Ex.W.cfg r.refHid b (runProg Ex.W.cfg [] (.fresh none 100) withGarbage).2.2).1 :=
  C16_used_refs_load_partial Ex.W Ex.good none nofun 100 withGarbage withGarbage_ok (eltsUsed_sound withGarbage_used) s' hc r hr b

set_option maxRecDepth 20000 in
example : orphans (runProg Ex.W.cfg [] (.fresh none 100) withGarbage).2.2 = [rawHid encH (.int 5), outHid encH (incHid 5) "output_0"] := by decide +kernel

/-- `x = upto(1); y = inc(0); z = upto(y); storage.commit(); storage.drop_calls(upto(1), delete_dependents=True)` -/
def sharedElts : List Cmd := sameContent ++ [.commit, .dropCalls [callId encH "upto" 0 [("x", rawHid encH (.int 1))]] true]

set_option maxRecDepth 20000 in
theorem sharedElts_before :
    (loadValue Ex.W.cfg (uptoHid (outHid encH (incHid 0) "output_0")) false (runProg Ex.W.cfg [] (.fresh none 100) sharedElts).2.2).1 =
      .ok (.list [.int 0]) := by decide +kernel

set_option maxRecDepth 20000 in
theorem sharedElts_after :
    (loadValue Ex.W.cfg (uptoHid (outHid encH (incHid 0) "output_0")) false (cleanupRefs (runProg Ex.W.cfg [] (.fresh none 100) sharedElts).2.2).2).1 =
      .error .keyError := by decide +kernel

set_option maxRecDepth 20000 in
theorem sharedElts_recorded : ((runProg Ex.W.cfg [] (.fresh none 100) sharedElts).2.2.calls.pers.any
    fun r => r.refHid = uptoHid (outHid encH (incHid 0) "output_0")) = true := by decide +kernel

/-- C16 is false if elements are not used by calls: `z` was answered with the elements of `x`, which `cleanup_refs` deletes when the
call of `x` was dropped. `z` is the output of a recorded call, which could be loaded before and can not be loaded any more
(storage.py:313-326, 462-483, 639-695). -/
theorem C16_refuted : ∃ r ∈ (runProg Ex.W.cfg [] (.fresh none 100) sharedElts).2.2.calls.pers,
    (loadValue Ex.W.cfg r.refHid false (runProg Ex.W.cfg [] (.fresh none 100) sharedElts).2.2).1 = .ok (.list [.int 0]) ∧
    (loadValue Ex.W.cfg r.refHid false (cleanupRefs (runProg Ex.W.cfg [] (.fresh none 100) sharedElts).2.2).2).1 = .error .keyError := by
  obtain ⟨r, hr, h⟩ := List.any_eq_true.1 sharedElts_recorded
  have h : r.refHid = uptoHid (outHid encH (incHid 0) "output_0") := by simpa using h
  exact ⟨r, hr, by rw [h]; exact sharedElts_before, by rw [h]; exact sharedElts_after⟩

end Verif.Props
