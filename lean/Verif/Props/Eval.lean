import Verif.Proofs.Eval
import Verif.Props.Delete
import Verif.Props.FrameDf
/-!
C79: the values shown in the tables of a frame are the recorded values.
-/
namespace Verif.Props

open Verif CFrame

/-- C79: in any process, after any orderly use of the storage, evaluating any table of the refs and calls of a frame whose refs are inputs and outputs of calls in the storage
succeeds; it keeps the rows and the columns, in their order; in place of a ref it shows the value that loading the ref gives, in place of several refs the values of all of
them in order; calls, nulls and the columns to skip stay as they are. Whether the values were loaded before makes no difference.
Partial: not for lists of collections, which cannot be loaded (`C07_refuted`); with `skip_calls` the first row decides which columns hold calls (`C79_refuted_skip_calls`);
not for tables with sets (`C79_refuted_sets`); not if the columns to skip are given by a generator (`C79_refuted_generator`). -/
theorem C79_values_shown_partial (W : World) (hW : W.Good) (o : Option (Joblib Val)) (thr : Nat) (ho : ∀ j, o = some j → j = [])
    (ps : List (List Cmd × End)) (p : List Cmd) (h : KeptOK W (.fresh o thr) ps p) (f : CFrame)
    (hc : ∀ k ∈ f.refs.keys, InCalls (runLast W.cfg (.fresh o thr) ps p).2.2 k)
    (hf : ∀ k ∈ f.refs.keys, ∀ t, Prov W k t → t.Flat ∧ t.Fits W.cfg.fuel)
    (t : Table) (hu : t.Uniform f.refs.keys) (inMem : Bool) (skip : Option (List String)) (skipCalls : Bool) :
    ∃ a s', evalFrame W.cfg f inMem skip skipCalls t (runLast W.cfg (.fresh o thr) ps p).2.2 = (.ok a, s') ∧ KeptCols f.refs.keys skipCalls t a.1 ∧
      TableEval (fun k v => ∀ b, (loadValue W.cfg k b (runLast W.cfg (.fresh o thr) ps p).2.2).1 = .ok v) f.refs.keys (skip.getD []) a.1 t a.2 := by
  obtain ⟨⟨orig, h1, _⟩, _⟩ := fsess_kept_run hW (sess_fresh W o thr ho) ⟨rfl, rfl⟩ h
  exact evalFrame_ok hW h1.base f hc hf hu inMem skip skipCalls

/-- In the tables `df` makes, a cell holds refs only or calls only. -/
theorem uniform_of_rows {R : FCall → Prop} {f : CFrame} (H : Wf R f) (hdis : ∀ x ∈ f.calls.keys, x ∉ f.refs.keys) {t : Table}
    (hr : ∀ row ∈ t.rows, ∃ chosen : List (String × String), chosen ≠ [] ∧
      (∀ p ∈ chosen, f.HasRef p.1 p.2 ∧ ∀ k ∈ t.cols, f.PastNode true p.1 k → IsCell (f.Past true p.1 p.2 k) (row.get? k)) ∧
      ∀ k, row.get? k ≠ none → k ∈ t.cols ∧ ∃ p ∈ chosen, f.PastNode true p.1 k) : t.Uniform f.refs.keys := by
  intro row hrow c hc hs hg
  obtain ⟨chosen, _, h1, h2⟩ := hr row hrow
  obtain ⟨_, q, hq, hpn⟩ := h2 c (by rw [hg]; simp)
  obtain ⟨hv, hcell⟩ := h1 q hq
  have h3 := hcell c hc hpn
  rw [hg] at h3
  obtain ⟨⟨x, hx⟩, _, _, hmem⟩ := h3
  have hin : ∀ y ∈ hs, f.HasRef c y ∨ f.HasCall c y := fun y hy => (past_inside H hv ((hmem y).1 hy)).imp id And.right
  have key : ∀ {d : SetDict} {y : String}, InSet d c y → c ∈ d.keys := by
    rintro d y ⟨l, hl, _⟩
    exact Dict.mem_keys.2 ⟨_, hl⟩
  by_cases hvar : f.IsVar c
  · refine .inl ⟨fun e => ?_, fun y hy => ?_⟩
    · have := (hmem x).2 hx
      rw [e] at this; cases this
    · rcases hin y hy with h4 | h4
      · exact (H.ref.refs y).2 ⟨c, h4⟩
      · exact absurd (key h4) (H.graph.disj c hvar)
  · refine .inr fun y hy => ?_
    rcases hin y hy with h4 | h4
    · exact absurd (key h4) hvar
    · exact hdis y ((H.call.calls y).2 ⟨c, h4⟩)

/-- C79, for `df` of the whole frame (C69): the table shows the recorded values of all refs and all calls of the frame.
Partial: as in `C69_df_partial` and `C79_values_shown_partial`. -/
theorem C79_df_partial (W : World) (hW : W.Good) (o : Option (Joblib Val)) (thr : Nat) (ho : ∀ j, o = some j → j = [])
    (ps : List (List Cmd × End)) (p : List Cmd) (h : KeptOK W (.fresh o thr) ps p) (f : CFrame)
    (hc : ∀ k ∈ f.refs.keys, InCalls (runLast W.cfg (.fresh o thr) ps p).2.2 k)
    (hf : ∀ k ∈ f.refs.keys, ∀ t, Prov W k t → t.Flat ∧ t.Fits W.cfg.fuel)
    {R : FCall → Prop} (hR : RecOk R) (ha : Acyclic R) (H : Wf R f) (L : LabelsOk f) (hdis : ∀ x ∈ f.calls.keys, x ∉ f.refs.keys)
    {po : PyOrd} (hpo : po.Ok) (hcy : f.NoCycle) (hi : f.NoIsolated) (hout : f.OutputsShown) (hne : ∃ v x, f.HasRef v x) :
    ∃ K, ∀ fuel, K ≤ fuel → ∀ lazyVars inc a, f.df po fuel true lazyVars inc .outer [] = .ok a → ∀ inMem,
      ∃ rows s', evalFrame W.cfg f inMem (some lazyVars) false a.table (runLast W.cfg (.fresh o thr) ps p).2.2 = (.ok (a.table.cols, rows), s') ∧
        (∀ v x, f.HasRef v x → ∃ row ∈ a.table.rows, ∃ s, row.get? v = some s ∧ x ∈ s) ∧
        TableEval (fun k v => ∀ b, (loadValue W.cfg k b (runLast W.cfg (.fresh o thr) ps p).2.2).1 = .ok v) f.refs.keys lazyVars a.table.cols a.table rows := by
  obtain ⟨K, hK⟩ := C69_df_partial hR ha H L hpo hcy hi hout hne
  refine ⟨K, fun fuel hfu lazyVars inc a hdf inMem => ?_⟩
  obtain ⟨⟨_, hcols⟩, hall, _, hrows, _⟩ := (hK fuel hfu true lazyVars inc).1 a hdf
  obtain ⟨r, s', h1, h2, h3⟩ := C79_values_shown_partial W hW o thr ho ps p h f hc hf a.table (uniform_of_rows H hdis hrows) inMem (some lazyVars) false
  have h4 : r.1 = a.table.cols := by
    unfold KeptCols at h2
    rw [h2]
    exact List.filter_eq_self.2 fun _ _ => rfl
  refine ⟨r.2, s', ?_, fun v x hx => hall v ((hcols v).2 (.inl ⟨x, hx⟩)) x (.inl hx), ?_⟩
  · rw [h1]; exact congrArg (fun z => (Except.ok (z, r.2), s')) h4
  · rw [h4] at h3; exact h3

/-! ### a concrete case -/

/-- An id that a result of the process has, which is an atom, stands for an atom. -/
theorem atoms_flat {W : World} (hW : W.Good) (hfu : 0 < W.cfg.fuel) {env : List Ref} {penv : List Val} (he : EnvOK W env penv) {c k : String} {o : Option Val}
    (hm : Ref.atom c k o ∈ env) : ∀ t, Prov W k t → t.Flat ∧ t.Fits W.cfg.fuel := by
  intro t ht
  have : ∃ v, Prov W k (.atom v) := by
    unfold EnvOK at he
    induction he with
    | nil => cases hm
    | cons h _ ih =>
      rcases List.mem_cons.1 hm with rfl | hm
      · obtain ⟨t, hr, _⟩ := h
        obtain ⟨h1, v, rfl, _⟩ := hr
        exact ⟨v, h1⟩
      · exact ih hm
  obtain ⟨v, hv⟩ := this
  rw [ht.det hW hv]
  refine ⟨by simp [TVal.Flat], ?_⟩
  cases hn : W.cfg.fuel with
  | zero => omega
  | succ n => simp [TVal.Fits]

def isAtomRef : Ref → Bool
  | .atom .. => true
  | _ => false

theorem atomIds_flat {W : World} (hW : W.Good) (hfu : 0 < W.cfg.fuel) {env : List Ref} {penv : List Val} (he : EnvOK W env penv) (ha : env.all isAtomRef = true) :
    ∀ k ∈ env.map Ref.hid, ∀ t, Prov W k t → t.Flat ∧ t.Fits W.cfg.fuel := by
  intro k hk
  obtain ⟨r, hr, rfl⟩ := List.mem_map.1 hk
  have ha := List.all_eq_true.1 ha r hr
  match r, hr, ha with
  | .atom c k o, hr, _ => exact atoms_flat hW hfu he hr

/-- the calls `inc(5)` and `inc(7)` -/
def callsInc : List FCall := [⟨incHid 5, "inc", [("x", ⟨rawHid encH (.int 5), "5"⟩)], [("output_0", ⟨outHid encH (incHid 5) "output_0", "6"⟩)]⟩,
  ⟨incHid 7, "inc", [("x", ⟨rawHid encH (.int 7), "7"⟩)], [("output_0", ⟨outHid encH (incHid 7) "output_0", "8"⟩)]⟩]
def buildInc : List FOp := [.addFunc "inc", .addVar "x", .addVar "y", .addEdge "x" "inc" "x", .addEdge "inc" "y" "output_0"] ++ callsInc.map (.addCall "inc")
/-- the frame of them -/
def incFrame : CFrame := ((runOps {} buildInc).toOption).getD {}

set_option maxRecDepth 20000 in
theorem recOkInc : RecOk (· ∈ callsInc) := recOk_of (by decide +kernel)
set_option maxRecDepth 20000 in
theorem wf_incFrame : Wf (· ∈ callsInc) incFrame :=
  wf_builds recOkInc wf_empty (builds_of (by decide +kernel : buildB callsInc {} buildInc = some incFrame))

/-- its table -/
def incTable : Table := ⟨["x", "inc", "y"], [[("y", [outHid encH (incHid 5) "output_0"]), ("x", [rawHid encH (.int 5)]), ("inc", [incHid 5])],
  [("y", [outHid encH (incHid 7) "output_0"]), ("x", [rawHid encH (.int 7)]), ("inc", [incHid 7])]]⟩

set_option maxRecDepth 20000 in
example : incFrame.df Ex.po1 10 true [] true .outer [] = .ok ⟨incTable, ["x", "y"]⟩ := by decide +kernel

theorem incHid_flat : ∀ k ∈ incFrame.refs.keys, ∀ t, Prov Ex.W k t → t.Flat ∧ t.Fits Ex.W.cfg.fuel := by
  obtain ⟨_, _, penv, he⟩ := fsess_kept_run Ex.good (sess_fresh Ex.W none 100 nofun) ⟨rfl, rfl⟩ chainDay_ok
  have hraw : ∀ n : Int, ∀ t, Prov Ex.W (rawHid encH (.int n)) t → t.Flat ∧ t.Fits Ex.W.cfg.fuel := by
    intro n t ht
    rw [ht.det Ex.good (Prov.raw (Ex.wf_int n))]
    exact ⟨by simp [TVal.Flat], by simp [Ex.W, TVal.Fits]⟩
  have hkeys : incFrame.refs.keys = [rawHid encH (.int 5), outHid encH (incHid 5) "output_0", rawHid encH (.int 7), outHid encH (incHid 7) "output_0"] := by
    set_option maxRecDepth 20000 in decide +kernel
  have hm : ((runLast Ex.W.cfg (.fresh none 100) incDay chainDay).2.1.map Ref.hid =
      [outHid encH (incHid 5) "output_0", outHid encH incTwice "output_0", outHid encH (incHid 7) "output_0"]) ∧
      (runLast Ex.W.cfg (.fresh none 100) incDay chainDay).2.1.all isAtomRef = true := by
    set_option maxRecDepth 20000 in decide +kernel
  have hmem := atomIds_flat Ex.good (by decide) he hm.2
  rw [hm.1] at hmem
  intro k hk
  rw [hkeys] at hk
  simp only [List.mem_cons, List.not_mem_nil, or_false] at hk
  rcases hk with rfl | rfl | rfl | rfl
  · exact hraw 5
  · exact hmem _ (by simp)
  · exact hraw 7
  · exact hmem _ (by simp)

set_option maxRecDepth 20000 in
theorem incFrame_recorded : ∀ k ∈ incFrame.refs.keys, InCalls (runLast Ex.W.cfg (.fresh none 100) incDay chainDay).2.2 k := by
  have h : ∀ k ∈ incFrame.refs.keys, ∃ r ∈ (runLast Ex.W.cfg (.fresh none 100) incDay chainDay).2.2.calls.pers, r.refHid = k := by decide +kernel
  exact fun k hk => let ⟨r, h1, h2⟩ := h k hk; ⟨r, .inr h1, h2⟩

set_option maxRecDepth 20000 in
theorem incTable_uniform : incTable.Uniform incFrame.refs.keys := by
  have h1 : ∀ row ∈ incTable.rows, ∀ c ∈ incTable.cols, (match row.get? c with
      | some hs => (hs != [] && hs.all (· ∈ incFrame.refs.keys)) || hs.all (· ∉ incFrame.refs.keys)
      | none => true) = true := by decide +kernel
  intro row hrow c hc hs hg
  have := h1 row hrow c hc
  rw [hg] at this
  simpa using this

/-- The hypotheses hold. -/
example : ∃ a s', evalFrame Ex.W.cfg incFrame false (some ["x"]) false incTable chained = (.ok a, s') ∧ KeptCols incFrame.refs.keys false incTable a.1 ∧
    TableEval (fun k v => ∀ b, (loadValue Ex.W.cfg k b chained).1 = .ok v) incFrame.refs.keys ["x"] a.1 incTable a.2 := by
  unfold chained
  exact C79_values_shown_partial Ex.W Ex.good none 100 nofun _ _ chainDay_ok incFrame incFrame_recorded incHid_flat incTable incTable_uniform false (some ["x"]) false

/-- the rows of the evaluated table, with the results -/
def shown (x : Except Err (List String × List ERow) × St) : List (List (String × Option ECell)) :=
  match x.1 with
  | .ok a => a.2
  | .error _ => []

set_option maxRecDepth 20000 in
example : (shown (evalFrame Ex.W.cfg incFrame false none false incTable chained) ==
    [[("x", some (.val (.int 5))), ("inc", some (.ids [incHid 5])), ("y", some (.val (.int 6)))],
     [("x", some (.val (.int 7))), ("inc", some (.ids [incHid 7])), ("y", some (.val (.int 8)))]]) = true := by decide +kernel

set_option maxRecDepth 20000 in
/-- the hypotheses of `C79_df_partial` about the frame -/
example : Acyclic (· ∈ callsInc) ∧ LabelsOk incFrame ∧ (∀ x ∈ incFrame.calls.keys, x ∉ incFrame.refs.keys) ∧ incFrame.NoCycle ∧ incFrame.NoIsolated ∧ incFrame.OutputsShown ∧
    incFrame.HasRef "x" (rawHid encH (.int 5)) :=
  ⟨⟨fun h => if h = rawHid encH (.int 5) ∨ h = rawHid encH (.int 7) then 0 else 1, by decide +kernel⟩, labelsOk_of (by decide +kernel), by decide +kernel,
    noCycle_of (fun n => if n = "x" then 0 else if n = "inc" then 1 else 2) (by decide +kernel), noIsolated_of (by decide +kernel), outputsShown_of (by decide +kernel),
    [rawHid encH (.int 5), rawHid encH (.int 7)], by decide +kernel, by decide +kernel⟩

end Verif.Props
