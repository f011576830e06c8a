import Verif.Model.Provenance
import Verif.Props.Memo
/-!
C05: every ref has at most one creator.
-/
namespace Verif.Props

open Verif

/-- The storage after a program. -/
def stateAfter (W : World) (thr : Nat) (prog : List Cmd) : St := (runProg W.cfg [] (.fresh none thr) prog).2.2

theorem distinct_mem {xs : List String} {x : String} : x ∈ distinct xs ↔ x ∈ xs := by
  induction xs with
  | nil => simp [distinct]
  | cons y ys ih =>
    unfold distinct
    split
    · rw [ih]
      constructor
      · exact List.mem_cons_of_mem _
      · intro h
        rcases List.mem_cons.1 h with rfl | h
        · assumption
        · exact h
    · simp [ih]

theorem distinct_nodup (xs : List String) : (distinct xs).Nodup := by
  induction xs with
  | nil => simp [distinct]
  | cons y ys ih =>
    unfold distinct
    split
    · exact ih
    · rename_i h
      exact List.nodup_cons.2 ⟨fun hm => h (distinct_mem.1 hm), ih⟩

/-- The database and what is cached on top of it: an output ref determines the call and the output name it came
from. -/
theorem tables_creator {W : World} (hW : W.Good) {rows rows' : List Row} (h : TableOK W rows) (h' : TableOK W rows')
    {r r' : Row} (hr : r ∈ rows) (hr' : r' ∈ rows') (hd : r.dir = .out) (hd' : r'.dir = .out) (he : r.refHid = r'.refHid) :
    r.callHid = r'.callHid ∧ r.name = r'.name := by
  obtain ⟨_, _, _, _, ho, _⟩ := h r hr
  obtain ⟨_, _, _, _, ho', _⟩ := h' r' hr'
  obtain ⟨_, _, h1⟩ := ho hd
  obtain ⟨_, _, h2⟩ := ho' hd'
  rw [h1, h2] at he
  exact outHid_inj hW he

/-- C05, for ops that do not return value pointers (`OpOK` excludes them): after any program, two rows of the call
tables (in the database or in the cache) with the same output history id belong to the same call and the same output;
hence `get_ref_creator` does not raise and returns a call exactly if the ref is recorded as an output.
Missing: ops returning value pointers, for which the claim is false (`C05_refuted`). -/
theorem C05_one_creator_partial (W : World) (hW : W.Good) (thr : Nat) (prog : List Cmd) (hok : ∀ c ∈ prog, CmdOK W c) :
    (∀ r ∈ (stateAfter W thr prog).calls.cache.df ++ (stateAfter W thr prog).calls.pers,
      ∀ r' ∈ (stateAfter W thr prog).calls.cache.df ++ (stateAfter W thr prog).calls.pers,
      r.dir = .out → r'.dir = .out → r.refHid = r'.refHid → r.callHid = r'.callHid ∧ r.name = r'.name) ∧
    ∀ h, ∃ c, getRefCreator (stateAfter W thr prog) h = .ok c ∧
      ∀ x, c = some x ↔ ∃ r ∈ (stateAfter W thr prog).calls.pers, r.dir = .out ∧ r.refHid = h ∧ r.callHid = x := by
  have hinv := (prog_state W hW (thr := thr) hok).1
  have hfun : ∀ r ∈ (stateAfter W thr prog).calls.cache.df ++ (stateAfter W thr prog).calls.pers,
      ∀ r' ∈ (stateAfter W thr prog).calls.cache.df ++ (stateAfter W thr prog).calls.pers,
      r.dir = .out → r'.dir = .out → r.refHid = r'.refHid → r.callHid = r'.callHid ∧ r.name = r'.name := by
    intro r hr r' hr' hd hd' he
    rcases List.mem_append.1 hr with h1 | h1 <;> rcases List.mem_append.1 hr' with h2 | h2
    · exact tables_creator hW hinv.cache.1 hinv.cache.1 h1 h2 hd hd' he
    · exact tables_creator hW hinv.cache.1 hinv.pers h1 h2 hd hd' he
    · exact tables_creator hW hinv.pers hinv.cache.1 h1 h2 hd hd' he
    · exact tables_creator hW hinv.pers hinv.pers h1 h2 hd hd' he
  refine ⟨hfun, fun h => ?_⟩
  have hmem : ∀ x, x ∈ getCreators (stateAfter W thr prog) [h] ↔
      ∃ r ∈ (stateAfter W thr prog).calls.pers, r.dir = .out ∧ r.refHid = h ∧ r.callHid = x := by
    intro x
    unfold getCreators
    rw [distinct_mem]
    simp only [creatorHids, List.mem_map, List.mem_filter, List.mem_singleton, decide_eq_true_eq]
    constructor
    · rintro ⟨r, ⟨h1, h2, h3⟩, h4⟩; exact ⟨r, h1, h3, h2, h4⟩
    · rintro ⟨r, h1, h3, h2, h4⟩; exact ⟨r, ⟨h1, h2, h3⟩, h4⟩
  have hnd : (getCreators (stateAfter W thr prog) [h]).Nodup := distinct_nodup _
  unfold getRefCreator
  match hl : getCreators (stateAfter W thr prog) [h] with
  | [] =>
    refine ⟨none, rfl, fun x => ⟨nofun, fun hx => ?_⟩⟩
    rw [← hmem, hl] at hx
    cases hx
  | [c] =>
    refine ⟨some c, rfl, fun x => ?_⟩
    rw [← hmem, hl]
    simp [eq_comm]
  | c :: c' :: cs =>
    exfalso
    rw [hl] at hmem hnd
    obtain ⟨r, h1, h2, h3, h4⟩ := (hmem c).1 (by simp)
    obtain ⟨r', h1', h2', h3', h4'⟩ := (hmem c').1 (by simp)
    have := (hfun r (by simp [h1]) r' (by simp [h1']) h2 h2' (by rw [h3, h3'])).1
    rw [h4, h4'] at this
    subst this
    simp at hnd

/-- A program with two outputs, a shared input and a commit; the creator of the first output of `both` is found. -/
example : ∃ x, getRefCreator (stateAfter Ex.W 100 [.call Ex.both (Ex.bothArgs (.raw (.int 4)) 0), .call Ex.inc (Ex.arg1 (.var 0)),
    .commit]) (outHid encH (callHidOf Ex.W Ex.both [⟨"x", .atom, false, .val (.int 4)⟩]) "down") = .ok (some x) :=
  ⟨callHidOf Ex.W Ex.both [⟨"x", .atom, false, .val (.int 4)⟩], by decide +kernel⟩

/-- `def f(x): return ValuePointer("model", ...)` -/
def ptrOp (name : String) : OpDef where
  name := name
  version := 0
  nout := .auto
  outNames := none
  ann := .none
  body := fun _ => .ok (.ptr "model")

/-- Two ops returning a pointer with the same id: both are recorded as its creator. -/
def ptrProg : List Cmd :=
  [.call (ptrOp "train") (Ex.arg1 (.raw (.int 1))), .call (ptrOp "load") (Ex.arg1 (.raw (.int 1))), .commit]

/-- C05 is false if ops return value pointers: `get_ref_creator` raises "multiple creators". -/
theorem C05_refuted : getRefCreator (stateAfter Ex.W 100 ptrProg) (encH (.str "model")) = .error .runtimeError ∧
    (runProg Ex.W.cfg [] (.fresh none 100) ptrProg).1 = [.returned 1, .returned 1, .done] := by
  decide +kernel

end Verif.Props
