import Verif.Proofs.Queries
import Verif.Props.Delete
import Verif.Props.Rerun
/-!
C82: provenance queries return exactly the calls in the database, and these are what a frame takes them to be.
-/
namespace Verif.Props

open Verif

theorem quer_last {W : World} (hW : W.Good) {o : Option (Joblib Val)} {thr : Nat} (ho : ∀ j, o = some j → j = [])
    {ps : List (List Cmd × End)} {p : List Cmd} (h : KeptOK W (.fresh o thr) ps p) (hp : ∀ c ∈ p, c.NoClear)
    (hf : Shallow W.cfg (runLast W.cfg (.fresh o thr) ps p).2.2) : Quer W (runLast W.cfg (.fresh o thr) ps p).2.2 := by
  obtain ⟨⟨orig, h1, _⟩, _⟩ := fsess_kept_run hW (sess_fresh W o thr ho) ⟨rfl, rfl⟩ h
  exact .of_shallow hW h1.base (keyed_last _ _ _ _ _) (linked_last ps hp).1 hf

/-- C82, the queries. After any orderly processes (calls, commits, dropped calls, cleaned-up refs, preloading; the last one has not cleared its cache), and
outside of a context, `get_creators(refs)` and `get_consumers(refs)` do not raise, return one call object for each call in the database that has one of
the refs as an output (an input), whether it is cached or not and in whatever order python iterates a set, and each object says of inputs and outputs
what the database says. `get_ref_creator` returns the only creator. The table of calls is left as it was.
Partial: not for calls that are not committed (`C82_refuted_uncommitted`), and not inside of a context, where the queries raise. -/
theorem C82_queries_exact_partial (W : World) (hW : W.Good) (o : Option (Joblib Val)) (thr : Nat) (ho : ∀ j, o = some j → j = [])
    (ps : List (List Cmd × End)) (p : List Cmd) (h : KeptOK W (.fresh o thr) ps p) (hp : ∀ c ∈ p, c.NoClear)
    (s : St) (hs : s = (runLast W.cfg (.fresh o thr) ps p).2.2) (hf : Shallow W.cfg s) (ord : List String → List String) (hord : ∀ l, (ord l).Perm l) :
    (∀ refs, ∃ cs s', getCreatorCalls W.cfg ord false refs s = (.ok cs, s') ∧ s'.calls = s.calls ∧ Found s .out refs cs) ∧
    (∀ refs, ∃ cs s', getConsumerCalls W.cfg ord false refs s = (.ok cs, s') ∧ s'.calls = s.calls ∧ Found s .in_ refs cs) ∧
    ∀ x, (∃ c s', getRefCreatorCall W.cfg ord false x s = (.ok (some c), s') ∧ s'.calls = s.calls ∧ Found s .out [x] [c]) ∨
      (∃ s', getRefCreatorCall W.cfg ord false x s = (.ok none, s') ∧ s'.calls = s.calls ∧ Found s .out [x] []) := by
  subst hs
  have hq := quer_last hW ho h hp hf
  refine ⟨fun refs => ?_, fun refs => ?_, fun x => ?_⟩
  · obtain ⟨cs, s', h1, h2, h3, _⟩ := creators_run hW hq hord refs
    exact ⟨cs, s', h1, h2.ext.calls, h3⟩
  · obtain ⟨cs, s', h1, h2, h3, _⟩ := consumers_run hW hq hord refs
    exact ⟨cs, s', h1, h2.ext.calls, h3⟩
  · obtain ⟨cs, s', h1, h2, h3, _⟩ := creators_run hW hq hord [x]
    have heq : getRefCreatorCall W.cfg ord false x (runLast W.cfg (.fresh o thr) ps p).2.2 =
        (match cs with | [] => (.ok none, s') | [c] => (.ok (some c), s') | _ => (.error .runtimeError, s')) := by
      unfold getRefCreatorCall
      rw [bind_eq h1]
      cases cs with
      | nil => rfl
      | cons c cs => cases cs <;> rfl
    rw [heq]
    match cs, h3 with
    | [], h3 => exact .inr ⟨s', rfl, h2.ext.calls, h3⟩
    | [c], h3 => exact .inl ⟨c, s', rfl, h2.ext.calls, h3⟩
    | c :: c' :: cs, h3 =>
      exfalso
      obtain ⟨r, hr, d1, e1, f1⟩ := (h3.exactly c.hid).1 (by simp)
      obtain ⟨r', hr', d2, e2, f2⟩ := (h3.exactly c'.hid).1 (by simp)
      have := (tables_creator hW hq.base.inv.pers hq.base.inv.pers hr hr' d1 d2 (by simp only [List.mem_singleton] at e1 e2; rw [e1, e2])).1
      have hn := h3.nodup
      rw [List.map_cons, List.map_cons, List.nodup_cons] at hn
      exact hn.1 (by rw [← f1, this, f2]; simp)

/-- C82, the link to frames. For the same storages: what the storage answers about its calls is what all theorems about computation frames assume (`RecOk`,
`Acyclic`): a call is determined by its history id, names are distinct, no value has two creators, lists are built from elements, and no value comes from itself.
And the queries that a frame uses to grow return exactly those of these calls that have one of the values as an output (an input). -/
theorem C82_frames_see_partial (W : World) (hW : W.Good) (o : Option (Joblib Val)) (thr : Nat) (ho : ∀ j, o = some j → j = [])
    (ps : List (List Cmd × End)) (p : List Cmd) (h : KeptOK W (.fresh o thr) ps p) (hp : ∀ c ∈ p, c.NoClear)
    (s : St) (hs : s = (runLast W.cfg (.fresh o thr) ps p).2.2) (hf : Shallow W.cfg s) (ord : List String → List String) (hord : ∀ l, (ord l).Perm l) :
    RecOk (Answered W.cfg s) ∧ Acyclic (Answered W.cfg s) ∧
    (∀ k, (∃ r ∈ s.calls.pers, r.callHid = k) ↔ ∃ c, Answered W.cfg s c ∧ c.hid = k) ∧
    (∀ refs, ∃ cs s', getCreatorCalls W.cfg ord false refs s = (.ok cs, s') ∧
      ∀ c, c ∈ cs.map CallObj.toF ↔ Answered W.cfg s c ∧ ∃ q ∈ c.outputs, q.2.hid ∈ refs) ∧
    ∀ refs, ∃ cs s', getConsumerCalls W.cfg ord false refs s = (.ok cs, s') ∧
      ∀ c, c ∈ cs.map CallObj.toF ↔ Answered W.cfg s c ∧ ∃ q ∈ c.inputs, q.2.hid ∈ refs := by
  subst hs
  have hq := quer_last hW ho h hp hf
  have hrec := answered_recOk hW hq
  have hkey : ∀ k, (∃ r ∈ (runLast W.cfg (.fresh o thr) ps p).2.2.calls.pers, r.callHid = k) → ∃ c, Answered W.cfg (runLast W.cfg (.fresh o thr) ps p).2.2 c ∧ c.hid = k := by
    intro k hr
    obtain ⟨cs, s', g1, _, g2⟩ := mgetCall_of hW hq (hids := [k]) (by simpa using hr)
    cases g2 with
    | @cons _ c _ _ f1 f2 =>
      obtain ⟨d, e1, e2, e3, e4⟩ := f1
      exact ⟨c.toF, batch_answered hW hq hr ⟨d, e1, e2, e3, e4⟩, e4.hid.trans e2.hid⟩
  refine ⟨hrec, answered_acyclic hW hq, fun k => ⟨hkey k, ?_⟩, fun refs => ?_, fun refs => ?_⟩
  · rintro ⟨c, hc, rfl⟩
    obtain ⟨obj, rfl, h1, _⟩ := answered_of hW hq hc
    exact h1.recorded
  · obtain ⟨cs, s', h1, _, h3, h4⟩ := creators_run hW hq hord refs
    refine ⟨cs, s', h1, fun c => ⟨fun hc => ?_, fun ⟨hc, q, hqm, hqr⟩ => ?_⟩⟩
    · obtain ⟨obj, ho, rfl⟩ := List.mem_map.1 hc
      refine ⟨h4 obj ho, ?_⟩
      obtain ⟨r, hr, g1, g2, g3⟩ := (h3.exactly obj.hid).1 (List.mem_map_of_mem ho)
      exact ⟨(r.name, ⟨r.refHid, r.refCid⟩), mem_toF_outputs.2 (((h3.calls obj ho).outputs _ _ _).2 ⟨r, hr, g3, g1, rfl, rfl, rfl⟩), g2⟩
    · obtain ⟨obj, rfl, g1, _⟩ := answered_of hW hq hc
      obtain ⟨r, hr, e1, e2, _, e4, _⟩ := (g1.outputs _ _ _).1 (mem_toF_outputs.1 hqm)
      obtain ⟨obj', ho', he⟩ := List.mem_map.1 ((h3.exactly obj.hid).2 ⟨r, hr, e2, e4 ▸ hqr, e1⟩)
      rw [hrec.hid _ _ hc (h4 obj' ho') he.symm]
      exact List.mem_map_of_mem ho'
  · obtain ⟨cs, s', h1, _, h3, h4⟩ := consumers_run hW hq hord refs
    refine ⟨cs, s', h1, fun c => ⟨fun hc => ?_, fun ⟨hc, q, hqm, hqr⟩ => ?_⟩⟩
    · obtain ⟨obj, ho, rfl⟩ := List.mem_map.1 hc
      refine ⟨h4 obj ho, ?_⟩
      obtain ⟨r, hr, g1, g2, g3⟩ := (h3.exactly obj.hid).1 (List.mem_map_of_mem ho)
      exact ⟨(r.name, ⟨r.refHid, r.refCid⟩), mem_toF_inputs.2 (((h3.calls obj ho).inputs _ _ _).2 ⟨r, hr, g3, g1, rfl, rfl, rfl⟩), g2⟩
    · obtain ⟨obj, rfl, g1, _⟩ := answered_of hW hq hc
      obtain ⟨r, hr, e1, e2, _, e4, _⟩ := (g1.inputs _ _ _).1 (mem_toF_inputs.1 hqm)
      obtain ⟨obj', ho', he⟩ := List.mem_map.1 ((h3.exactly obj.hid).2 ⟨r, hr, e2, e4 ▸ hqr, e1⟩)
      rw [hrec.hid _ _ hc (h4 obj' ho') he.symm]
      exact List.mem_map_of_mem ho'

/-! ### a concrete case (one check at a time, to save memory) -/

set_option Elab.async false

/-- `a = inc(5); b = total([1, 2]); c = inc(b); storage.commit(); inc(9)`, where the first call is found in the database -/
def askDay : List Cmd := [.call Ex.inc (Ex.arg1 (.raw (.int 5))), totalCmd, .call Ex.inc (Ex.arg1 (.var 1)), .commit, .call Ex.inc (Ex.arg1 (.raw (.int 9)))]

set_option maxRecDepth 20000 in
theorem askDay_orderly : orderly Ex.W.cfg [] (runSessions Ex.W.cfg (.fresh none 100) incDay) askDay = true := by decide +kernel

theorem askDay_ok : KeptOK Ex.W (.fresh none 100) incDay askDay := by
  refine ⟨chainDay_ok.before, orderly_sound _ ?_ askDay_orderly⟩
  have c1 := Ex.call1_ok Ex.inc_ok (Ex.wf_raw_int 5)
  have c2 := Ex.call1_ok Ex.inc_ok (Ex.wf_raw_int 9)
  have c3 := Ex.call1_ok Ex.inc_ok (e := .var 1) trivial
  intro c hc
  simp only [askDay, List.mem_cons, List.not_mem_nil, or_false] at hc
  rcases hc with rfl | rfl | rfl | rfl | rfl
  · exact c1
  · exact totalCmd_ok
  · exact c3
  · trivial
  · exact c2

theorem askDay_keeps : ∀ c ∈ askDay, c.NoClear := by
  intro c hc
  simp only [askDay, List.mem_cons, List.not_mem_nil, or_false] at hc
  rcases hc with rfl | rfl | rfl | rfl | rfl <;> trivial

/-- the storage then -/
def asked : St := (runLast Ex.W.cfg (.fresh none 100) incDay askDay).2.2

/-- A check of `Shallow`. -/
def shallow (cfg : Cfg) (s : St) : Bool := s.calls.pers.all fun r => match (s.shapes.get r.refHid).1 with
  | .ok x => x.fits cfg.fuel
  | .error _ => true

theorem shallow_sound {cfg : Cfg} {s : St} (h : shallow cfg s = true) : Shallow cfg s := by
  intro r hr x hx
  have := List.all_eq_true.1 h r hr
  rw [hx] at this
  exact this

set_option maxRecDepth 20000 in
theorem asked_shallow : shallow Ex.W.cfg asked = true := by decide +kernel

/-- The hypotheses hold. -/
example (refs : List String) : ∃ cs s', getCreatorCalls Ex.W.cfg List.reverse false refs asked = (.ok cs, s') ∧ s'.calls = asked.calls ∧ Found asked .out refs cs :=
  (C82_queries_exact_partial Ex.W Ex.good none 100 nofun _ _ askDay_ok askDay_keeps asked rfl (shallow_sound asked_shallow) List.reverse (fun _ => List.reverse_perm _)).1 refs

example : RecOk (Answered Ex.W.cfg asked) ∧ Acyclic (Answered Ex.W.cfg asked) :=
  have h := C82_frames_see_partial Ex.W Ex.good none 100 nofun _ _ askDay_ok askDay_keeps asked rfl (shallow_sound asked_shallow) id (fun _ => .refl _)
  ⟨h.1, h.2.1⟩

/-- the ops of the calls returned -/
def opsOf (r : Except Err (List CallObj)) : List (String × List String × List String) :=
  match r with
  | .ok cs => cs.map fun c => (c.op, c.inputs.keys, c.outputs.keys)
  | .error _ => []

/-- all values that are an output or input of a call in the database -/
def refsOf (s : St) : List String := s.calls.pers.map (·.refHid)

set_option maxRecDepth 20000 in
/-- The creators of all values, among them the call that built the list, in the cache and not in the cache. -/
example : opsOf (getCreatorCalls Ex.W.cfg id false (refsOf asked) asked).1 =
    [("inc", ["x"], ["output_0"]), ("total", ["xs"], ["output_0"]), ("__make_list__", ["elts_0", "elts_1"], ["list"]), ("inc", ["x"], ["output_0"])] ∧
    asked.calls.cache.callHids.length = 4 := by decide +kernel

set_option maxRecDepth 20000 in
/-- C82 is false for calls that are not committed: the result of `inc(9)` was computed, but the storage knows no creator of it; inside of a context (where
this would matter most) the query raises. -/
theorem C82_refuted_uncommitted : asked.calls.exists_ (incHid 9) = true ∧
    opsOf (getCreatorCalls Ex.W.cfg id false [outHid encH (incHid 9) "output_0"] asked).1 = [] ∧
    (match (getCreatorCalls Ex.W.cfg id false [outHid encH (incHid 9) "output_0"] asked).1 with | .ok cs => cs.isEmpty | .error _ => false) = true ∧
    (match (getCreatorCalls Ex.W.cfg id true [outHid encH (incHid 9) "output_0"] asked).1 with | .ok _ => none | .error e => some e) = some .notImplemented := by
  decide +kernel

end Verif.Props
