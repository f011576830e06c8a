import Verif.Proofs.History
import Verif.Props.Drop
/-!
C63: calls are recorded as they were made. C64: the recorded history has no cycles.
-/
namespace Verif.Props

open Verif

theorem rows_ok (W : World) (hW : W.Good) (o : Option (Joblib Val)) (ho : ∀ j, o = some j → j = []) (thr : Nat) (prog : List Cmd) (hok : ∀ c ∈ prog, CmdOK W c) :
    Inv W (runProg W.cfg [] (.fresh o thr) prog).2.2 :=
  (prog_ok hW prog hok (env := []) (penv := []) .nil (s := .fresh o thr) (inv_fresh _ _ fun j hj => by rw [ho j hj]; exact DictAll.nil) rfl).1

/-- C63: after any program (calls, commits, drops, cleanups, reopening, ...), every row of the call tables, in the cache or in the
database, is part of the record of a call as it was made: the history id of the call was computed from the op and from the history ids
of named inputs; these are the inputs on record; and the outputs on record have the history ids computed from that of the call. Partial: an input
with the name of an output has no record (`C63_refuted`), and value pointers are excluded (by `CmdOK`). -/
theorem C63_records_true_partial (W : World) (hW : W.Good) (o : Option (Joblib Val)) (ho : ∀ j, o = some j → j = []) (thr : Nat) (prog : List Cmd) (hok : ∀ c ∈ prog, CmdOK W c) :
    ∀ r ∈ (runProg W.cfg [] (.fresh o thr) prog).2.2.rows,
      RecordTrue W.H (runProg W.cfg [] (.fresh o thr) prog).2.2.rows r :=
  ((rows_ok W hW o ho thr prog hok).rows hW).1

/-- C63: what is on record under a call's history id is the same, whichever program recorded it: two rows of the same
call about the inputs (outputs) of the same name have the same op and refer to the same ref and the same content. -/
theorem C63_records_agree_partial (W : World) (hW : W.Good) (o o' : Option (Joblib Val)) (ho : ∀ j, o = some j → j = []) (ho' : ∀ j, o' = some j → j = []) (thr thr' : Nat) (p p' : List Cmd) (hp : ∀ c ∈ p, CmdOK W c)
    (hp' : ∀ c ∈ p', CmdOK W c) (r r' : Row) (hr : r ∈ (runProg W.cfg [] (.fresh o thr) p).2.2.rows)
    (hr' : r' ∈ (runProg W.cfg [] (.fresh o' thr') p').2.2.rows) (hh : r.callHid = r'.callHid) :
    r.op = r'.op ∧ (r.name = r'.name → r.dir = r'.dir → r.refHid = r'.refHid ∧ r.refCid = r'.refCid) := by
  have h1 := rows_ok W hW o ho thr p hp
  have h2 := rows_ok W hW o' ho' thr' p' hp'
  have hcid : ∀ {s : St}, Inv W s → ∀ r ∈ s.rows, ∃ t, Prov W r.refHid t ∧ r.refCid = t.cid W.H := by
    intro s hs r hr
    rcases List.mem_append.1 hr with h | h
    · obtain ⟨_, _, _, ⟨t, g1, g2, _⟩, _⟩ := hs.cache.1 r h; exact ⟨t, g1, g2⟩
    · obtain ⟨_, _, _, ⟨t, g1, g2, _⟩, _⟩ := hs.pers r h; exact ⟨t, g1, g2⟩
  obtain ⟨ver, ids, a1, a2, a3, a4, _⟩ := (h1.rows hW).1 r hr
  obtain ⟨ver', ids', b1, b2, b3, b4, _⟩ := (h2.rows hW).1 r' hr'
  have he := hh
  rw [a1, b1] at he
  obtain ⟨e1, _, e3⟩ := callId_inj hW he
  refine ⟨e1, fun hn hd => ?_⟩
  have href : r.refHid = r'.refHid := by
    cases hdir : r.dir with
    | out => rw [a4 hdir, b4 (hd ▸ hdir), hh, hn]
    | in_ =>
      have m1 := a3 hdir
      have m2 := b3 (hd ▸ hdir)
      rw [← mem_canon, ← e3, mem_canon, ← hn] at m2
      have g1 := (Dict.get?_eq_some_iff a2).2 m1
      rw [(Dict.get?_eq_some_iff a2).2 m2] at g1
      exact (Option.some.inj g1).symm
  refine ⟨href, ?_⟩
  obtain ⟨t, c1, c2⟩ := hcid h1 r hr
  obtain ⟨t', d1, d2⟩ := hcid h2 r' hr'
  rw [← href] at d1
  rw [c2, d2, c1.det hW d1]

/-- C64: after any program, no ref is among its own recorded ancestors, and no call is computed (however indirectly) from its own
outputs; there is not even an infinite chain of ancestors. Partial: value pointers are excluded (by `CmdOK`); with them it is
false (`C64_refuted`). -/
theorem C64_no_cycles_partial (W : World) (hW : W.Good) (o : Option (Joblib Val)) (ho : ∀ j, o = some j → j = []) (thr : Nat) (prog : List Cmd) (hok : ∀ c ∈ prog, CmdOK W c) :
    WellFounded (Parent (runProg W.cfg [] (.fresh o thr) prog).2.2.rows) ∧
    WellFounded (Feeds (runProg W.cfg [] (.fresh o thr) prog).2.2.rows) ∧
    (∀ h, ¬ Relation.TransGen (Parent (runProg W.cfg [] (.fresh o thr) prog).2.2.rows) h h) ∧
    ∀ c, ¬ Relation.TransGen (Feeds (runProg W.cfg [] (.fresh o thr) prog).2.2.rows) c c := by
  obtain ⟨h1, h2⟩ := (rows_ok W hW o ho thr prog hok).rows hW
  have hw := wf_parent hW h1 h2
  exact ⟨hw, wf_feeds hw, not_transGen_self hw, not_transGen_self (wf_feeds hw)⟩

/-- `y = inc(1); z = inc(y); storage.commit(); total([y, z]); drop inc(1)` -/
def longProg : List Cmd := [.call Ex.inc (Ex.arg1 (.raw (.int 1))), .call Ex.inc (Ex.arg1 (.var 0)), .commit,
  .call Ex.total (Ex.totalArgs [.var 0, .var 1]), .dropCalls [incHid 1] false]

theorem longProg_ok : ∀ c ∈ longProg, CmdOK Ex.W c := by
  have hv : ∀ i, PExprOK Ex.W .atom (.var i) := fun i => by simp only [PExprOK]
  intro c hc
  simp only [longProg, List.mem_cons, List.not_mem_nil, or_false] at hc
  rcases hc with rfl | rfl | rfl | rfl | rfl
  · exact Ex.call1_ok Ex.inc_ok (Ex.wf_raw_int 1)
  · exact Ex.call1_ok Ex.inc_ok (hv 0)
  · trivial
  · refine Ex.total_call_ok (fun e he => ?_)
    simp only [List.mem_cons, List.not_mem_nil, or_false] at he
    rcases he with rfl | rfl <;> exact hv _
  · trivial

/-- The theorems apply to this program; the second call is on record with its input, whose creator was dropped. -/
example : (∀ r ∈ (runProg Ex.W.cfg [] (.fresh none 100) longProg).2.2.rows, RecordTrue encH (runProg Ex.W.cfg [] (.fresh none 100) longProg).2.2.rows r) ∧
    ∀ c, ¬ Relation.TransGen (Feeds (runProg Ex.W.cfg [] (.fresh none 100) longProg).2.2.rows) c c :=
  ⟨C63_records_true_partial Ex.W Ex.good none nofun 100 longProg longProg_ok, (C64_no_cycles_partial Ex.W Ex.good none nofun 100 longProg longProg_ok).2.2.2⟩

set_option maxRecDepth 20000 in
example : (rowsOf (runProg Ex.W.cfg [] (.fresh none 100) longProg).2.2.calls.pers (callId encH "inc" 0 [("x", outHid encH (incHid 1) "output_0")])).map
    (fun r => (r.name, r.dir, r.refHid)) =
      [("x", .in_, outHid encH (incHid 1) "output_0"),
       ("output_0", .out, outHid encH (callId encH "inc" 0 [("x", outHid encH (incHid 1) "output_0")]) "output_0")] := by decide +kernel

/-- `@op(output_names=["x"]) def norm(x): return 0` -/
def norm : OpDef where
  name := "norm"
  version := 0
  nout := .auto
  outNames := some ["x"]
  ann := .none
  body := fun _ => .ok (.int 0)

/-- Without the exception in `RecordTrue`, C63 is false: of the input that has the name of an output there is no record
(storage_utils.py:352-373). -/
theorem C63_refuted : (runProg Ex.W.cfg [] (.fresh none 100) [.call norm (Ex.arg1 (.raw (.int 3))), .commit]).1 = [.returned 1, .done] ∧
    ((runProg Ex.W.cfg [] (.fresh none 100) [.call norm (Ex.arg1 (.raw (.int 3))), .commit]).2.2.rows.all fun r => r.dir = .out) = true ∧
    (runProg Ex.W.cfg [] (.fresh none 100) [.call norm (Ex.arg1 (.raw (.int 3))), .commit]).2.2.calls.pers.map (·.callHid) =
      [callId encH "norm" 0 [("x", rawHid encH (.int 3))]] := by decide +kernel

/-- `def touch(x): ...; return x` for a value pointer `x` -/
def touch : OpDef where
  name := "touch"
  version := 0
  nout := .auto
  outNames := none
  ann := .none
  body := fun _ => .ok (.ptr "model")

/-- C64 is false with value pointers: the output of `touch(model)` is its input. -/
theorem C64_refuted : Parent (runProg Ex.W.cfg [] (.fresh none 100) [.call touch (Ex.arg1 (.raw (.ptr "model"))), .commit]).2.2.rows
      (encH (.str "model")) (encH (.str "model")) ∧
    Feeds (runProg Ex.W.cfg [] (.fresh none 100) [.call touch (Ex.arg1 (.raw (.ptr "model"))), .commit]).2.2.rows
      (callId encH "touch" 0 [("x", encH (.str "model"))]) (callId encH "touch" 0 [("x", encH (.str "model"))]) := by
  unfold Parent Feeds
  decide +kernel

end Verif.Props
