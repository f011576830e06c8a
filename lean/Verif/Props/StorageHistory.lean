import Verif.Proofs.StorageHistory
/-!
C86: from the storage to the table of histories.
-/
namespace Verif.Props

open Verif CFrame

/-- The table of the histories of the variable `v`: one row for each of its values, which shows how it came about. -/
def TableHistory (rows : List Row) (g : CFrame) (inc : Bool) (v : String) (t : Table) : Prop :=
  t.cols.Nodup ∧ (∀ r ∈ t.rows, ∀ k, r.get? k ≠ none → k ∈ t.cols) ∧
    ∃ hs : List String, hs.Nodup ∧ (∀ x, x ∈ hs ↔ g.HasRef v x) ∧ All2 (RowHistory rows g inc) hs t.rows

theorem table_history {W : World} (hW : W.Good) {F V : String → Prop} {s : St} (hq : Quer W s) {f g : CFrame} (H : Sound (Answered W.cfg s) F V g)
    (hS : ShowsHistory s.calls.pers f g) {po : PyOrd} (hpo : po.Ok) (inc : Bool) {v : String} (hv : g.IsVar v) :
    ∃ K, ∀ fuel, K ≤ fuel → ∃ t, g.historyTable po inc fuel v = .ok t ∧ TableHistory s.calls.pers g inc v t := by
  obtain ⟨K, hK⟩ := C65_history_table (answered_recOk hW hq) (answered_acyclic hW hq) H.wf H.labels hpo inc hv
  refine ⟨K, fun fuel hf => ?_⟩
  obtain ⟨t, hs, h1, h2, h3, h4, h5, h6⟩ := hK fuel hf
  refine ⟨t, h1, h2, fun r hr k hk => ?_, hs, h4, h5, h6.imp_mem fun x hx r _ hxr => row_history hW hq H.wf hS ((h5 x).1 hx) hxr⟩
  obtain ⟨x, hx, hxr⟩ := h6.mem_right hr
  have := hxr k
  cases hk' : r.get? k with
  | none => exact absurd hk' hk
  | some s =>
    rw [hk'] at this
    obtain ⟨y, hy⟩ := this.1
    exact (h3 k).2 ⟨x, y, (h5 x).1 hx, hy⟩

/-- C86, for values. After any orderly processes, `storage.cf(refs).expand_back(recursive=True, reuse_existing=False)` followed by `get_history_df(v)` for any of its
variables returns a table with one row per value of `v`; the row of `x` shows exactly the values from which `x` was computed according to the table of calls, and exactly the
calls that took part (`TableHistory`). For the variable `v` of the frame at the start, these are the given refs.
Partial: under the conditions of C83. -/
theorem C86_history_table_partial (W : World) (hW : W.Good) (o : Option (Joblib Val)) (thr : Nat) (ho : ∀ j, o = some j → j = [])
    (ps : List (List Cmd × End)) (p : List Cmd) (h : KeptOK W (.fresh o thr) ps p) (hp : ∀ c ∈ p, c.NoClear)
    (s : St) (hs : s = (runLast W.cfg (.fresh o thr) ps p).2.2) (hf : Shallow W.cfg s) (F V : String → Prop) (hn : TableNames s.calls.pers F V) (hv : V "v")
    (ord : Nat → List String → List String) (hord : ∀ i l, (ord i l).Perm l) (refs : List FRef) (hd : (refs.map (·.hid)).Nodup) :
    ∃ f s1 g s' K, cf W.cfg (.coll (refs.map .ref)) s = (.ok f, s1) ∧ (∀ k, K ≤ k → f.expandAt W.cfg ord false .back false false true 0 k s1 = (.ok g, s')) ∧
      g.IsVar "v" ∧ (∀ x, g.HasRef "v" x ↔ ∃ r ∈ refs, r.hid = x) ∧
      ∀ (po : PyOrd), po.Ok → ∀ inc v, g.IsVar v → ∃ K', ∀ fuel, K' ≤ fuel → ∃ t, g.historyTable po inc fuel v = .ok t ∧ TableHistory s.calls.pers g inc v t := by
  obtain ⟨f, s1, g, s', K, a1, a3, a2, a4, a5, a6, a7, a8⟩ := history_refs W hW o thr ho ps p h hp s hs hf F V hn hv ord hord refs hd
  subst hs
  have hq := quer_last hW ho h hp hf
  refine ⟨f, s1, g, s', K, a1, a5, (a8.kept "v" ((a3 _).2 rfl)).1, fun x => ?_, fun po hpo inc v hv => table_history hW hq a7 a8 hpo inc hv⟩
  rw [(a8.kept "v" ((a3 _).2 rfl)).2 x, a2]
  simp

/-- C86, for an op: the same for `storage.cf(op).expand_back(recursive=True, reuse_existing=False)`; the values in the variables of `storage.cf(op)` stay as they were. -/
theorem C86_op_history_table_partial (W : World) (hW : W.Good) (o : Option (Joblib Val)) (thr : Nat) (ho : ∀ j, o = some j → j = [])
    (ps : List (List Cmd × End)) (p : List Cmd) (h : KeptOK W (.fresh o thr) ps p) (hp : ∀ c ∈ p, c.NoClear)
    (s : St) (hs : s = (runLast W.cfg (.fresh o thr) ps p).2.2) (hf : Shallow W.cfg s) (F V : String → Prop) (hn : TableNames s.calls.pers F V)
    (ord : Nat → List String → List String) (hord : ∀ i l, (ord i l).Perm l) (op : String) (hop : op.toLower ∉ sqlNames) (hused : ∃ r ∈ s.calls.pers, r.op = op) :
    ∃ f s1 g s' K, cf W.cfg (.op op) s = (.ok f, s1) ∧ (∀ k, K ≤ k → f.expandAt W.cfg ord false .back false false true 0 k s1 = (.ok g, s')) ∧
      (∀ v, f.IsVar v → g.IsVar v ∧ ∀ x, g.HasRef v x ↔ f.HasRef v x) ∧
      ∀ (po : PyOrd), po.Ok → ∀ inc v, g.IsVar v → ∃ K', ∀ fuel, K' ≤ fuel → ∃ t, g.historyTable po inc fuel v = .ok t ∧ TableHistory s.calls.pers g inc v t := by
  obtain ⟨f, s1, g, s', K, a1, a2, a3, a4, a5⟩ := history_op W hW o thr ho ps p h hp s hs hf F V hn ord hord op hop hused
  subst hs
  have hq := quer_last hW ho h hp hf
  exact ⟨f, s1, g, s', K, a1, a2, a5.kept, fun po hpo inc v hv => table_history hW hq a4 a5 hpo inc hv⟩

/-! ### a concrete case -/

set_option Elab.async false

/-- The hypotheses hold. -/
example (refs : List FRef) (hd : (refs.map (·.hid)).Nodup) : ∃ f s1 g s' K, cf Ex.W.cfg (.coll (refs.map .ref)) asked = (.ok f, s1) ∧
    (∀ k, K ≤ k → f.expandAt Ex.W.cfg (fun _ => List.reverse) false .back false false true 0 k s1 = (.ok g, s')) ∧ g.IsVar "v" ∧ (∀ x, g.HasRef "v" x ↔ ∃ r ∈ refs, r.hid = x) ∧
    ∀ (po : PyOrd), po.Ok → ∀ inc v, g.IsVar v → ∃ K', ∀ fuel, K' ≤ fuel → ∃ t, g.historyTable po inc fuel v = .ok t ∧ TableHistory asked.calls.pers g inc v t :=
  C86_history_table_partial Ex.W Ex.good none 100 nofun _ _ askDay_ok askDay_keeps asked rfl (shallow_sound asked_shallow) _ _ asked_names asked_v (fun _ => List.reverse)
    (fun _ _ => List.reverse_perm _) refs hd

example : ∃ f s1 g s' K, cf Ex.W.cfg (.op "inc") asked = (.ok f, s1) ∧
    (∀ k, K ≤ k → f.expandAt Ex.W.cfg (fun _ => List.reverse) false .back false false true 0 k s1 = (.ok g, s')) ∧ (∀ v, f.IsVar v → g.IsVar v ∧ ∀ x, g.HasRef v x ↔ f.HasRef v x) ∧
    ∀ (po : PyOrd), po.Ok → ∀ inc v, g.IsVar v → ∃ K', ∀ fuel, K' ≤ fuel → ∃ t, g.historyTable po inc fuel v = .ok t ∧ TableHistory asked.calls.pers g inc v t :=
  C86_op_history_table_partial Ex.W Ex.good none 100 nofun _ _ askDay_ok askDay_keeps asked rfl (shallow_sound asked_shallow) _ _ asked_names (fun _ => List.reverse)
    (fun _ _ => List.reverse_perm _) "inc" (by decide +kernel) (by obtain ⟨r, hr, e⟩ := List.any_eq_true.1 asked_uses; exact ⟨r, hr, of_decide_eq_true e⟩)

/-- the columns, and how many entries there are in the cells of each row -/
def cellCounts (r : Except Err CFrame) (v : String) : Option (List String × List (List (String × Nat))) :=
  match r with
  | .ok g => ((g.historyTable Ex.po1 true 20 v).map fun t => (t.cols, t.rows.map fun r => r.map fun c => (c.1, c.2.length))).toOption
  | .error _ => none

set_option maxRecDepth 20000 in
/-- `storage.cf([inc(5), inc(total([1, 2]))]).expand_back(recursive=True, reuse_existing=False).get_history_df("v")`: for `inc(5)` there is the argument and the call, for
the other value also the list, its elements and the calls of `total` and `__make_list__` -/
example : cellCounts ((do let f ← cf Ex.W.cfg (.coll (incOuts.map .ref)); f.expandAt Ex.W.cfg (fun _ => id) false .back false false true 0 10) asked).1 "v" =
    some (["elts", "__make_list__", "xs", "total", "x", "inc", "v"], [[("v", 1), ("x", 1), ("inc", 1)],
      [("v", 1), ("x", 1), ("xs", 1), ("elts", 2), ("inc", 1), ("total", 1), ("__make_list__", 1)]]) := by decide +kernel

end Verif.Props
