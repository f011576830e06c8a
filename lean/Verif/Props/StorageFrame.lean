import Verif.Proofs.StorageFrame
import Verif.Props.Queries
/-!
C83: frames made from a storage, and expanded back with what it has recorded.
-/
namespace Verif.Props

open Verif CFrame

/-- C83, `storage.cf(op)`. After any orderly processes (calls, commits, dropped calls, cleaned-up refs, preloading; the last one has not cleared its cache)
the frame has one function, with exactly the recorded calls of the op; its values are exactly the inputs and outputs of these calls, each in a variable that
is joined with the function under the name of the input (output). The frame passes `_check`, and the table of calls is left as it was.
Partial: not for an op whose name is that of a column (`C83_refuted_column`), or one of those made up for variables. -/
theorem C83_cf_op_partial (W : World) (hW : W.Good) (o : Option (Joblib Val)) (thr : Nat) (ho : ∀ j, o = some j → j = [])
    (ps : List (List Cmd × End)) (p : List Cmd) (h : KeptOK W (.fresh o thr) ps p) (hp : ∀ c ∈ p, c.NoClear)
    (s : St) (hs : s = (runLast W.cfg (.fresh o thr) ps p).2.2) (hf : Shallow W.cfg s)
    (op : String) (hop : op.toLower ∉ sqlNames) (hcl : ∀ r ∈ s.calls.pers, r.op = op → CFrame.NoClash op r.name) :
    ∃ g s', cf W.cfg (.op op) s = (.ok g, s') ∧ s'.calls = s.calls ∧ Wf (Answered W.cfg s) g ∧ g.check = true ∧ (∀ n, g.IsFunc n ↔ n = op) ∧
      (∀ k, g.HasCall op k ↔ ∃ r ∈ s.calls.pers, r.op = op ∧ r.callHid = k) ∧ (∀ x, (∃ v, g.HasRef v x) ↔ ∃ r ∈ s.calls.pers, r.op = op ∧ r.refHid = x) ∧
      ∀ r ∈ s.calls.pers, r.op = op → ∃ v, g.HasRef v r.refHid ∧
        match r.dir with
        | .in_ => g.HasEdge v op (nameProj op r.name)
        | .out => g.HasEdge op v (nameProj op r.name) := by
  subst hs
  have hq := quer_last hW ho h hp hf
  obtain ⟨cs, s', h1, h2, h3, h4, h5⟩ := opCalls_run hW hq hop
  have hR := answered_recOk hW hq
  obtain ⟨g, iv, ov, g1, g2, g3, g4, g5, _, g7, _, _, _, g11, g12, g13⟩ := C60_from_op_partial hR (op := op) (calls := cs.map CallObj.toF) (fun c hc => (h5 c).1 hc) h4 (by
    intro x hx
    have : ∃ c ∈ cs.map CallObj.toF, ∃ p, (p ∈ c.inputs ∨ p ∈ c.outputs) ∧ p.1 = x := by
      rcases hx with ⟨c, hc, hx⟩ | ⟨c, hc, hx⟩ <;> obtain ⟨p, hp, rfl⟩ := List.mem_map.1 hx
      · exact ⟨c, hc, p, .inl hp, rfl⟩
      · exact ⟨c, hc, p, .inr hp, rfl⟩
    obtain ⟨c, hc, p, hp, rfl⟩ := this
    obtain ⟨r, hr, _, e2, e3, _⟩ := (row_answered hW hq ((h5 c).1 hc).1).2 p hp
    exact e3 ▸ hcl r hr (e2.trans ((h5 c).1 hc).2))
  have hrow : ∀ r ∈ (runLast W.cfg (.fresh o thr) ps p).2.2.calls.pers, r.op = op → ∃ v, g.HasRef v r.refHid ∧
      match r.dir with
      | .in_ => g.HasEdge v op (nameProj op r.name)
      | .out => g.HasEdge op v (nameProj op r.name) := by
    intro r hr hro
    obtain ⟨c, hc, e1, e2, he⟩ := answered_row hW hq hr
    have hcm := (h5 c).2 ⟨hc, e2.trans hro⟩
    rcases he with ⟨hd, hm⟩ | ⟨hd, hm⟩
    · have hn : InputName (cs.map CallObj.toF) r.name := ⟨c, hcm, List.mem_map.2 ⟨_, hm, rfl⟩⟩
      refine ⟨iv r.name, (g12 r.name _ hn).2 ⟨c, hcm, _, hm, rfl, rfl⟩, ?_⟩
      rw [hd]
      exact (g11 _ _ _).2 (.inl ⟨r.name, hn, rfl, rfl, rfl⟩)
    · have hn : OutputName (cs.map CallObj.toF) r.name := ⟨c, hcm, List.mem_map.2 ⟨_, hm, rfl⟩⟩
      refine ⟨ov r.name, (g13 r.name _ hn).2 ⟨c, hcm, _, hm, rfl, rfl⟩, ?_⟩
      rw [hd]
      exact (g11 _ _ _).2 (.inr ⟨r.name, hn, rfl, rfl, rfl⟩)
  refine ⟨g, s', ?_, h3, g2, g3, g4, fun k => (g5 k).trans ⟨?_, ?_⟩, fun x => ⟨?_, ?_⟩, hrow⟩
  · show cfFromOp W.cfg op _ = _
    unfold cfFromOp
    rw [bind_eq (show M.read _ _ = (.ok _, _) from rfl), bind_eq h1]
    unfold M.lift
    rw [g1]
  · rintro ⟨c, hc, rfl⟩
    obtain ⟨⟨r, hr, e1, e2⟩, _⟩ := row_answered hW hq ((h5 c).1 hc).1
    exact ⟨r, hr, e2.trans ((h5 c).1 hc).2, e1⟩
  · rintro ⟨r, hr, e1, e2⟩
    obtain ⟨c, hc, e3, e4, _⟩ := answered_row hW hq hr
    exact ⟨c, (h5 c).2 ⟨hc, e4.trans e1⟩, e3.trans e2⟩
  · rintro ⟨v, hv⟩
    have : ∃ c ∈ cs.map CallObj.toF, ∃ p, (p ∈ c.inputs ∨ p ∈ c.outputs) ∧ p.2.hid = x := by
      rcases (g7 v).1 hv.key with ⟨y, hy, rfl⟩ | ⟨y, hy, rfl⟩
      · obtain ⟨c, hc, p, hp, _, e⟩ := (g12 y x hy).1 hv
        exact ⟨c, hc, p, .inl hp, e⟩
      · obtain ⟨c, hc, p, hp, _, e⟩ := (g13 y x hy).1 hv
        exact ⟨c, hc, p, .inr hp, e⟩
    obtain ⟨c, hc, p, hp, rfl⟩ := this
    obtain ⟨r, hr, _, e2, _, e4⟩ := (row_answered hW hq ((h5 c).1 hc).1).2 p hp
    exact ⟨r, hr, e2.trans ((h5 c).1 hc).2, e4⟩
  · rintro ⟨r, hr, e1, rfl⟩
    obtain ⟨v, hv, _⟩ := hrow r hr e1
    exact ⟨v, hv⟩

/-- The frame `g` shows exactly how the values of `f` came about: the values from which they were computed, directly or not, the calls that took part (besides
those in `f`), the variables of `f` as they were, every value joined with the call that created it and every call with its inputs. -/
structure ShowsHistory (rows : List Row) (f g : CFrame) : Prop where
  check : g.check = true
  values : ∀ y, (∃ v, g.HasRef v y) ↔ ∃ v x, f.HasRef v x ∧ From rows x y
  calls : ∀ k, (∃ n, g.HasCall n k) ↔ (∃ n, f.HasCall n k) ∨ ∃ v x, f.HasRef v x ∧ History rows x k
  kept : ∀ v, f.IsVar v → g.IsVar v ∧ ∀ x, g.HasRef v x ↔ f.HasRef v x
  joined : ∀ v y k, g.HasRef v y → HasIO rows .out k y →
    ∃ n, g.HasCall n k ∧ ∃ r ∈ rows, r.callHid = k ∧ r.dir = .out ∧ r.refHid = y ∧ g.HasEdge n v (nameProj r.op r.name)
  inputs : ∀ n, ∀ r ∈ rows, g.HasCall n r.callHid → r.dir = .in_ → ∃ w, g.HasRef w r.refHid ∧ g.HasEdge w n (nameProj r.op r.name)

theorem shows_of {W : World} (hW : W.Good) {F V : String → Prop} {s0 : St} (hq : Quer W s0) {f g : CFrame} (h1 : Sound (Answered W.cfg s0) F V g)
    (h2 : CFrame.Grows (Answered W.cfg s0) f g) (h3 : ∀ y, (∃ v, g.HasRef v y) ↔ ∃ w x, f.HasRef w x ∧ From s0.calls.pers x y)
    (h4 : ∀ h, (∃ n, g.HasCall n h) ↔ (∃ n, f.HasCall n h) ∨ ∃ w x, f.HasRef w x ∧ History s0.calls.pers x h)
    (h5 : ∀ v y, g.HasRef v y → ∀ c, Answered W.cfg s0 c → Touches .back c y → ∃ n, Attached g .back v y n c) (h6 : Shut g)
    (h7 : ∀ v, f.IsVar v → ∀ x, g.HasRef v x → f.HasRef v x) : ShowsHistory s0.calls.pers f g := by
  refine ⟨check_iff.2 h1.wf.consistent, h3, h4, fun v hv => ⟨h2.var v hv, fun x => ⟨h7 v hv x, h2.ref v x⟩⟩, fun v y k hv hio => ?_, fun n r hr hn hd => ?_⟩
  · obtain ⟨c, hc, rfl, ht⟩ := (hasIO_out hW hq).1 hio
    obtain ⟨n, a1, _, p, hp, rfl, a2⟩ := h5 v y hv c hc ht
    obtain ⟨obj, rfl, g1, _⟩ := answered_of hW hq hc
    obtain ⟨r, hr, e1, e2, e3, e4, _⟩ := (g1.outputs _ _ _).1 (mem_toF_outputs.1 hp)
    exact ⟨n, a1, r, hr, e1, e2, e4, by rw [(g1.header r hr e1).1, e3]; exact a2⟩
  · obtain ⟨c, hc, e1, e2, ⟨_, hm⟩ | ⟨hd', _⟩⟩ := answered_row hW hq hr
    · rw [← e1] at hn
      obtain ⟨c2, b1, b2, b3⟩ := h1.wf.get_call hn
      rw [(answered_recOk hW hq).hid c2 c b3 hc b2] at b1
      obtain ⟨w, w1, w2⟩ := h6.ref h1.wf hn b1 hm
      exact ⟨w, w2, e2 ▸ w1⟩
    · rw [hd] at hd'; cases hd'

theorem history_refs (W : World) (hW : W.Good) (o : Option (Joblib Val)) (thr : Nat) (ho : ∀ j, o = some j → j = [])
    (ps : List (List Cmd × End)) (p : List Cmd) (h : KeptOK W (.fresh o thr) ps p) (hp : ∀ c ∈ p, c.NoClear)
    (s : St) (hs : s = (runLast W.cfg (.fresh o thr) ps p).2.2) (hf : Shallow W.cfg s) (F V : String → Prop) (hn : TableNames s.calls.pers F V) (hv : V "v")
    (ord : Nat → List String → List String) (hord : ∀ i l, (ord i l).Perm l) (refs : List FRef) (hd : (refs.map (·.hid)).Nodup) :
    ∃ f s1 g s' K, cf W.cfg (.coll (refs.map .ref)) s = (.ok f, s1) ∧ (∀ v, f.IsVar v ↔ v = "v") ∧ (∀ v x, f.HasRef v x ↔ v = "v" ∧ ∃ r ∈ refs, r.hid = x) ∧ (∀ n, ¬ f.IsFunc n) ∧
      (∀ k, K ≤ k → f.expandAt W.cfg ord false .back false false true 0 k s1 = (.ok g, s')) ∧ s'.calls = s.calls ∧ Sound (Answered W.cfg s) F V g ∧
      ShowsHistory s.calls.pers f g := by
  subst hs
  have hq := quer_last hW ho h hp hf
  obtain ⟨f, f1, f2, _, f4, f5, f6, f7⟩ := C60_from_refs_partial (Answered W.cfg (runLast W.cfg (.fresh o thr) ps p).2.2) hd
  have hfs : ∀ n h, ¬ f.HasCall n h := fun n h hc => f4 n hc.key
  have hS : Sound (Answered W.cfg (runLast W.cfg (.fresh o thr) ps p).2.2) F V f :=
    ⟨f2, hn.names hW hq (fun n hn => absurd hn (f4 n)) (fun w hw => (f6 w).1 hw ▸ hv), fun s n l h c he => absurd he (f5 s n l)⟩
  have hne : f.vs.keys ≠ [] := List.ne_nil_of_mem ((f6 "v").2 rfl)
  obtain ⟨g, s', K, g1, g2, g3, g4, g5, g6, g7, g8, g9⟩ := expandAt_history hW hq hord hq rfl hS hne (fun n c hc => absurd hc (hfs n c.hid))
  refine ⟨f, (runLast W.cfg (.fresh o thr) ps p).2.2, g, s', K, ?_, f6, f7, f4, g1, g2, g3, shows_of hW hq g3 g4 g5 g6 g7 g8 g9⟩
  have e1 : ((refs.map CfElt.ref).all fun e => e.ref?.isSome) = true := by simp [CfElt.ref?]
  have e2 : (refs.map CfElt.ref).filterMap CfElt.ref? = refs := by
    rw [List.filterMap_map, show CfElt.ref? ∘ CfElt.ref = some from rfl, List.filterMap_some]
  show cfFromElts W.cfg _ _ _ _ = _
  unfold cfFromElts
  rw [if_pos e1, e2]
  unfold M.lift
  rw [f1]

/-- C83, the history of values. For the same storages, `storage.cf(refs).expand_back(recursive=True, reuse_existing=False)` returns, in whatever order python
iterates its sets, a frame that contains exactly the values from which the given ones were computed and exactly the calls that took part in it, every value joined with
its creator and every call with its inputs. Values without creator stay as they are. The table of calls is left as it was.
Partial: with `reuse_existing=True`, the default, it stops early (`C48_refuted_reuse_stops`); where names of ops and arguments get mixed up it is false (`C51_refuted`);
in a context it raises. -/
theorem C83_history_partial (W : World) (hW : W.Good) (o : Option (Joblib Val)) (thr : Nat) (ho : ∀ j, o = some j → j = [])
    (ps : List (List Cmd × End)) (p : List Cmd) (h : KeptOK W (.fresh o thr) ps p) (hp : ∀ c ∈ p, c.NoClear)
    (s : St) (hs : s = (runLast W.cfg (.fresh o thr) ps p).2.2) (hf : Shallow W.cfg s) (F V : String → Prop) (hn : TableNames s.calls.pers F V) (hv : V "v")
    (ord : Nat → List String → List String) (hord : ∀ i l, (ord i l).Perm l) (refs : List FRef) (hd : (refs.map (·.hid)).Nodup) :
    ∃ f s1 g s' K, cf W.cfg (.coll (refs.map .ref)) s = (.ok f, s1) ∧ (∀ v, f.IsVar v ↔ v = "v") ∧ (∀ v x, f.HasRef v x ↔ v = "v" ∧ ∃ r ∈ refs, r.hid = x) ∧ (∀ n, ¬ f.IsFunc n) ∧
      (∀ k, K ≤ k → f.expandAt W.cfg ord false .back false false true 0 k s1 = (.ok g, s')) ∧ s'.calls = s.calls ∧ Wf (Answered W.cfg s) g ∧
      ShowsHistory s.calls.pers f g := by
  obtain ⟨f, s1, g, s', K, a1, a2, a3, a4, a5, a6, a7, a8⟩ := history_refs W hW o thr ho ps p h hp s hs hf F V hn hv ord hord refs hd
  exact ⟨f, s1, g, s', K, a1, a2, a3, a4, a5, a6, a7.wf, a8⟩

theorem history_op (W : World) (hW : W.Good) (o : Option (Joblib Val)) (thr : Nat) (ho : ∀ j, o = some j → j = [])
    (ps : List (List Cmd × End)) (p : List Cmd) (h : KeptOK W (.fresh o thr) ps p) (hp : ∀ c ∈ p, c.NoClear)
    (s : St) (hs : s = (runLast W.cfg (.fresh o thr) ps p).2.2) (hf : Shallow W.cfg s) (F V : String → Prop) (hn : TableNames s.calls.pers F V)
    (ord : Nat → List String → List String) (hord : ∀ i l, (ord i l).Perm l) (op : String) (hop : op.toLower ∉ sqlNames) (hused : ∃ r ∈ s.calls.pers, r.op = op) :
    ∃ f s1 g s' K, cf W.cfg (.op op) s = (.ok f, s1) ∧ (∀ k, K ≤ k → f.expandAt W.cfg ord false .back false false true 0 k s1 = (.ok g, s')) ∧ s'.calls = s.calls ∧
      Sound (Answered W.cfg s) F V g ∧ ShowsHistory s.calls.pers f g := by
  subst hs
  have hq := quer_last hW ho h hp hf
  obtain ⟨cs, s1, h1, h2, h3, h4, h5⟩ := opCalls_run hW hq hop
  have hR := answered_recOk hW hq
  have hx : ∀ x, InputName (cs.map CallObj.toF) x ∨ OutputName (cs.map CallObj.toF) x → ∃ r ∈ (runLast W.cfg (.fresh o thr) ps p).2.2.calls.pers, r.op = op ∧ r.name = x := by
    intro x hx
    have : ∃ c ∈ cs.map CallObj.toF, ∃ p, (p ∈ c.inputs ∨ p ∈ c.outputs) ∧ p.1 = x := by
      rcases hx with ⟨c, hc, hx⟩ | ⟨c, hc, hx⟩ <;> obtain ⟨p, hp, rfl⟩ := List.mem_map.1 hx
      · exact ⟨c, hc, p, .inl hp, rfl⟩
      · exact ⟨c, hc, p, .inr hp, rfl⟩
    obtain ⟨c, hc, p, hp, rfl⟩ := this
    obtain ⟨r, hr, _, e2, e3, _⟩ := (row_answered hW hq ((h5 c).1 hc).1).2 p hp
    exact ⟨r, hr, e2.trans ((h5 c).1 hc).2, e3⟩
  obtain ⟨f, iv, ov, g1, g2, g3, g4, g5, g6, g7, _, _, _, g11, g12, g13⟩ := C60_from_op_partial hR (op := op) (calls := cs.map CallObj.toF) (fun c hc => (h5 c).1 hc) h4 (by
    intro x h
    obtain ⟨r, hr, rfl, rfl⟩ := hx x h
    exact hn.noClash hr)
  obtain ⟨r0, hr0, e0⟩ := hused
  have hv : ∀ v, f.IsVar v → V v := vars_fromOp (fun x h => by
    obtain ⟨r, hr, rfl, rfl⟩ := hx x h
    exact hn.arg r hr) g1
  have hfn : ∀ n, f.IsFunc n → F n := fun n h => (g4 n).1 h ▸ e0 ▸ (hn.op r0 hr0).1
  have hL : LabelsOk f := by
    intro s n l h c he hc hg hm
    have hcm := ((g6 h c).1 hg).1
    obtain ⟨hcR, hco⟩ := (h5 c).1 hcm
    rcases (g11 s n l).1 he with ⟨x, ⟨c', hc', hx'⟩, _, _, rfl⟩ | ⟨x, hx', rfl, rfl, _⟩
    · obtain ⟨p, hp, rfl⟩ := List.mem_map.1 hx'
      obtain ⟨hcR', hco'⟩ := (h5 c').1 hc'
      have := hR.elts c' hcR' (hco'.trans (hco.symm.trans hm)) p hp
      unfold nameProj
      rw [if_pos ⟨hco.symm.trans hm, this⟩]
      decide +kernel
    · exact absurd hc.key (g2.graph.disj _ ((g7 _).2 (.inr ⟨x, hx', rfl⟩)))
  have hshut : Shut f := by
    intro n c hn' hc q hq'
    have hcm := ((g6 _ c).1 hc).1
    have hin : InputName (cs.map CallObj.toF) q.1 := ⟨c, hcm, List.mem_map.2 ⟨q, hq', rfl⟩⟩
    refine ⟨iv q.1, (g11 _ _ _).2 (.inl ⟨q.1, hin, rfl, (g4 n).1 hn'.key, ?_⟩)⟩
    rw [((h5 c).1 hcm).2]
  have hne : f.vs.keys ≠ [] := by
    obtain ⟨c, hc, e1, e2, he⟩ := answered_row hW hq hr0
    have hcm := (h5 c).2 ⟨hc, e2.trans e0⟩
    rcases he with ⟨_, hm⟩ | ⟨_, hm⟩
    · exact List.ne_nil_of_mem ((g7 _).2 (.inl ⟨r0.name, ⟨c, hcm, List.mem_map.2 ⟨_, hm, rfl⟩⟩, rfl⟩))
    · exact List.ne_nil_of_mem ((g7 _).2 (.inr ⟨r0.name, ⟨c, hcm, List.mem_map.2 ⟨_, hm, rfl⟩⟩, rfl⟩))
  obtain ⟨g, s', K, a1, a2, a3, a4, a5, a6, a7, a8, a9⟩ := expandAt_history hW hq hord h2 h3 ⟨g2, hn.names hW hq hfn hv, hL⟩ hne hshut
  refine ⟨f, s1, g, s', K, ?_, a1, a2, a3, shows_of hW hq a3 a4 a5 a6 a7 a8 a9⟩
  show cfFromOp W.cfg op _ = _
  unfold cfFromOp
  rw [bind_eq (show M.read _ _ = (.ok _, _) from rfl), bind_eq h1]
  unfold M.lift
  rw [g1]

/-- C83, the history of an op: the same for `storage.cf(op).expand_back(recursive=True, reuse_existing=False)`, if the op has been called. -/
theorem C83_op_history_partial (W : World) (hW : W.Good) (o : Option (Joblib Val)) (thr : Nat) (ho : ∀ j, o = some j → j = [])
    (ps : List (List Cmd × End)) (p : List Cmd) (h : KeptOK W (.fresh o thr) ps p) (hp : ∀ c ∈ p, c.NoClear)
    (s : St) (hs : s = (runLast W.cfg (.fresh o thr) ps p).2.2) (hf : Shallow W.cfg s) (F V : String → Prop) (hn : TableNames s.calls.pers F V)
    (ord : Nat → List String → List String) (hord : ∀ i l, (ord i l).Perm l) (op : String) (hop : op.toLower ∉ sqlNames) (hused : ∃ r ∈ s.calls.pers, r.op = op) :
    ∃ f s1 g s' K, cf W.cfg (.op op) s = (.ok f, s1) ∧ (∀ k, K ≤ k → f.expandAt W.cfg ord false .back false false true 0 k s1 = (.ok g, s')) ∧ s'.calls = s.calls ∧
      Wf (Answered W.cfg s) g ∧ ShowsHistory s.calls.pers f g := by
  obtain ⟨f, s1, g, s', K, a1, a2, a3, a4, a5⟩ := history_op W hW o thr ho ps p h hp s hs hf F V hn ord hord op hop hused
  exact ⟨f, s1, g, s', K, a1, a2, a3, a4.wf, a5⟩

/-! ### a concrete case (one check at a time, to save memory) -/

set_option Elab.async false

/-- A check of `TableNames` by the first letters. -/
def tableLetters (rows : List Row) (cs : List Char) : Bool :=
  rows.all fun r => beginsB cs r.op && (!beginsB cs (nameProj r.op r.name) && !beginsB cs (stem (nameProj r.op r.name)) && !(stem (nameProj r.op r.name)).toList.isEmpty)

theorem tableNames_of {rows : List Row} {cs : List Char} (h : tableLetters rows cs = true) : TableNames rows (Begins cs) (fun v => ¬ Begins cs v) := by
  simp only [tableLetters, Bool.and_eq_true, List.all_eq_true, Bool.not_eq_true', List.isEmpty_eq_false_iff] at h
  have nb : ∀ {n}, beginsB cs n = false → ¬ Begins cs n := fun e h => by rw [begins_of.1 h] at e; cases e
  refine ⟨fun n h h' => h' h, fun r hr => ?_, fun r hr => ?_⟩
  · have hb := begins_of.2 (h r hr).1
    have hne : r.op.toList ≠ [] := by
      obtain ⟨x, _, e⟩ := hb
      rintro e'
      rw [e'] at e
      cases e
    exact ⟨hb, fun i => (begins_idxName hne i).2 hb⟩
  · obtain ⟨⟨a1, a2⟩, a3⟩ := (h r hr).2
    exact ⟨fun _ => nb a1, fun i hb => nb a2 ((begins_idxName a3 i).1 hb)⟩

/-- ops: `inc`, `total`, `__make_list__`; arguments and outputs: `x`, `xs`, `elts`, `list`, `var` -/
theorem asked_names : TableNames asked.calls.pers (Begins ['i', 't', '_']) (fun v => ¬ Begins ['i', 't', '_'] v) :=
  tableNames_of (by set_option maxRecDepth 20000 in decide +kernel)

theorem asked_v : ¬ Begins ['i', 't', '_'] "v" := fun h => absurd (begins_of.1 h) (by decide +kernel)

/-- The hypotheses hold. -/
example (refs : List FRef) (hd : (refs.map (·.hid)).Nodup) : ∃ f s1 g s' K, cf Ex.W.cfg (.coll (refs.map .ref)) asked = (.ok f, s1) ∧
    (∀ k, K ≤ k → f.expandAt Ex.W.cfg (fun _ => List.reverse) false .back false false true 0 k s1 = (.ok g, s')) ∧ ShowsHistory asked.calls.pers f g :=
  let ⟨f, s1, g, s', K, h1, _, _, _, h4, _, _, h7⟩ := C83_history_partial Ex.W Ex.good none 100 nofun _ _ askDay_ok askDay_keeps asked rfl (shallow_sound asked_shallow)
    _ _ asked_names asked_v (fun _ => List.reverse) (fun _ _ => List.reverse_perm _) refs hd
  ⟨f, s1, g, s', K, h1, h4, h7⟩

theorem asked_uses : (asked.calls.pers.any fun r => r.op = "inc") = true := by
  set_option maxRecDepth 20000 in decide +kernel

example : ∃ f s1 g s' K, cf Ex.W.cfg (.op "inc") asked = (.ok f, s1) ∧
    (∀ k, K ≤ k → f.expandAt Ex.W.cfg (fun _ => List.reverse) false .back false false true 0 k s1 = (.ok g, s')) ∧ ShowsHistory asked.calls.pers f g :=
  let ⟨f, s1, g, s', K, h1, h4, _, _, h7⟩ := C83_op_history_partial Ex.W Ex.good none 100 nofun _ _ askDay_ok askDay_keeps asked rfl (shallow_sound asked_shallow)
    _ _ asked_names (fun _ => List.reverse) (fun _ _ => List.reverse_perm _) "inc" (by decide +kernel)
    (by obtain ⟨r, hr, e⟩ := List.any_eq_true.1 asked_uses; exact ⟨r, hr, of_decide_eq_true e⟩)
  ⟨f, s1, g, s', K, h1, h4, h7⟩

/-- how many values and calls there are in each variable and function, and whether the frame passes `_check` -/
def counts (r : Except Err CFrame) : Except Err (List (String × Nat) × List (String × Nat) × Bool) :=
  match r with
  | .ok g => .ok (g.vs.map fun p => (p.1, p.2.length), g.fs.map fun p => (p.1, p.2.length), g.check)
  | .error e => .error e

/-- the outputs of the calls of `inc` that are recorded -/
def incOuts : List FRef := (asked.calls.pers.filter fun r => r.op = "inc" ∧ r.dir = .out).map fun r => ⟨r.refHid, r.refCid⟩

set_option maxRecDepth 20000 in
/-- `storage.cf([inc(5), inc(total([1, 2]))]).expand_back(recursive=True, reuse_existing=False)` -/
example : counts ((do let f ← cf Ex.W.cfg (.coll (incOuts.map .ref)); f.expandAt Ex.W.cfg (fun _ => id) false .back false false true 0 10) asked).1 =
    .ok ([("v", 2), ("x", 2), ("xs", 1), ("elts", 2)], [("inc", 2), ("total", 1), ("__make_list__", 1)], true) := by decide +kernel

set_option maxRecDepth 20000 in
/-- `storage.cf(inc)` -/
example : counts (cf Ex.W.cfg (.op "inc") asked).1 = .ok ([("x", 2), ("var_0", 2)], [("inc", 2)], true) := by decide +kernel

/-! ### refutations -/

/-- C83 is false for an op whose name is that of a column of the table of calls, because the query quotes the name of the op like a column: for an op `direction` nothing is
found, whatever has been recorded. -/
theorem C83_refuted_column (rows : List Row) (h : ∀ r ∈ rows, r.op = "direction") : opCallHids rows "direction" = [] := by
  have : rows.filter (fun r => sqlQuoted "direction" r = some r.op) = [] := by
    rw [List.filter_eq_nil_iff]
    intro r hr
    have hl : "direction".toLower = "direction" := by decide +kernel
    have hm : "direction".toLower ∈ sqlNames := by decide +kernel
    unfold sqlQuoted
    rw [if_pos hm, hl, h r hr]
    cases r.dir <;> simp
  unfold opCallHids
  rw [this]
  rfl

set_option maxRecDepth 20000 in
/-- The other way round, for an op `op` that has never been called, the frame has all calls of all ops. -/
theorem C83_refuted_op_op : (asked.calls.pers.all fun r => r.op ≠ "op") = true ∧
    (match (cf Ex.W.cfg (.op "op") asked).1 with | .ok g => some (g.fs.map fun p => (p.1, p.2.length)) | .error _ => none) = some [("op", 4)] := by decide +kernel

set_option maxRecDepth 20000 in
/-- A generator of refs, or of history ids, is accepted, and all its elements are lost: the frame is empty. -/
theorem C83_refuted_generator : counts (cf Ex.W.cfg (.iter (incOuts.map .ref)) asked).1 = .ok ([("v", 0)], [], true) ∧
    counts (cf Ex.W.cfg (.iter (incOuts.map fun r => .str r.hid)) asked).1 = .ok ([("v", 0)], [], true) ∧
    counts (cf Ex.W.cfg (.coll (incOuts.map fun r => .str r.hid)) asked).1 = .ok ([("v", 2)], [], true) := by
  refine ⟨?_, ?_, ?_⟩ <;> decide +kernel

/-- `cf({"a": ref})` changes the dictionary it is given; `cf({})` has a variable `v`. -/
theorem C83_refuted_dict (cfg : Cfg) (s : St) (r : FRef) : cfArgAfter (.dict [("a", .inl r)]) = .dict [("a", .inr [r])] ∧
    counts (cf cfg (.dict []) s).1 = .ok ([("v", 0)], [], true) := ⟨rfl, by
  show counts (CFrame.fromRefs []) = _
  decide +kernel⟩

set_option maxRecDepth 20000 in
/-- In a context, a frame with something to expand raises. -/
theorem C83_refuted_context :
    counts ((do let f ← cf Ex.W.cfg (.coll (incOuts.map .ref)); f.expandAt Ex.W.cfg (fun _ => id) true .back false false true 0 10) asked).1 = .error .notImplemented := by decide +kernel

end Verif.Props
