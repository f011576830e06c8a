import Verif.Proofs.StorageForward
import Verif.Props.StorageFrame
/-!
C85: frames made from a storage, and expanded forward with what it has recorded.
-/
namespace Verif.Props

open Verif CFrame

/-- The frame `g` shows exactly what became of the values of `f`: the values that were computed from them, directly or not, the calls that used any of
these, and every value joined with every call that used it. -/
structure ShowsLater (rows : List Row) (f g : CFrame) : Prop where
  check : g.check = true
  values : ∀ y, (∃ v, g.HasRef v y) ↔ ∃ v x, f.HasRef v x ∧ Into rows x y
  calls : ∀ k, (∃ n, g.HasCall n k) ↔ ∃ v x, f.HasRef v x ∧ Later rows x k
  kept : ∀ v x, f.HasRef v x → g.HasRef v x
  joined : ∀ v y k, g.HasRef v y → HasIO rows .in_ k y → ∃ n l, g.HasCall n k ∧ g.HasEdge v n l

/-- C85. After any orderly processes (calls, commits, dropped calls, cleaned-up refs, preloading; the last one has not cleared its cache)
`storage.cf(refs).expand_forward(recursive=True, reuse_existing=False)` returns, in whatever order python iterates its sets, a frame that contains exactly the values
computed from the given ones and exactly the calls that used any of these, every value joined with every such call. The table of calls is left as it was.
Partial: not if something downstream is an element of a list with several (`C85_refuted_elements`), nor from a frame that has functions already (`C85_refuted_op`); with
`reuse_existing=True`, the default, it stops early (`C48_refuted_reuse_stops`); where names of ops and arguments get mixed up it is false (`C51_refuted`). -/
theorem C85_later_partial (W : World) (hW : W.Good) (o : Option (Joblib Val)) (thr : Nat) (ho : ∀ j, o = some j → j = [])
    (ps : List (List Cmd × End)) (p : List Cmd) (h : KeptOK W (.fresh o thr) ps p) (hp : ∀ c ∈ p, c.NoClear)
    (s : St) (hs : s = (runLast W.cfg (.fresh o thr) ps p).2.2) (hf : Shallow W.cfg s) (F V : String → Prop) (hn : TableNames s.calls.pers F V) (hv : V "v")
    (ord : Nat → List String → List String) (hord : ∀ i l, (ord i l).Perm l) (refs : List FRef) (hd : (refs.map (·.hid)).Nodup)
    (hone : ∀ r ∈ refs, ∀ c, Later s.calls.pers r.hid c → OneElement s.calls.pers c) :
    ∃ f s1 g s' K, cf W.cfg (.coll (refs.map .ref)) s = (.ok f, s1) ∧ (∀ v x, f.HasRef v x ↔ v = "v" ∧ ∃ r ∈ refs, r.hid = x) ∧
      (∀ k, K ≤ k → f.expandAt W.cfg ord false .forward false false true 0 k s1 = (.ok g, s')) ∧ s'.calls = s.calls ∧ Wf (Answered W.cfg s) g ∧
      ShowsLater s.calls.pers f g := by
  subst hs
  have hq := quer_last hW ho h hp hf
  obtain ⟨f, f1, f2, _, f4, f5, f6, f7⟩ := C60_from_refs_partial (Answered W.cfg (runLast W.cfg (.fresh o thr) ps p).2.2) hd
  have hfs : ∀ n h, ¬ f.HasCall n h := fun n h hc => f4 n hc.key
  have hS : Sound (Answered W.cfg (runLast W.cfg (.fresh o thr) ps p).2.2) F V f :=
    ⟨f2, hn.names hW hq (fun n hn => absurd hn (f4 n)) (fun w hw => (f6 w).1 hw ▸ hv), fun s n l h c he => absurd he (f5 s n l)⟩
  have hne : f.vs.keys ≠ [] := List.ne_nil_of_mem ((f6 "v").2 rfl)
  obtain ⟨g, s', K, g1, g2, g3, g4, g5, g6, g7⟩ := expandAt_later hW hq hord hq rfl hS hne hfs (fun v x c hx hl => by
    obtain ⟨_, r, hr, rfl⟩ := (f7 v x).1 hx
    exact hone r hr c hl)
  refine ⟨f, (runLast W.cfg (.fresh o thr) ps p).2.2, g, s', K, ?_, f7, g1, g2, g3.wf, check_iff.2 g3.wf.consistent, g5, g6, g4.ref, fun v y k hv hio => ?_⟩
  · have e1 : ((refs.map CfElt.ref).all fun e => e.ref?.isSome) = true := by simp [CfElt.ref?]
    have e2 : (refs.map CfElt.ref).filterMap CfElt.ref? = refs := by
      rw [List.filterMap_map, show CfElt.ref? ∘ CfElt.ref = some from rfl, List.filterMap_some]
    show cfFromElts W.cfg _ _ _ _ = _
    unfold cfFromElts
    rw [if_pos e1, e2]
    unfold M.lift
    rw [f1]
  · obtain ⟨c, hc, rfl, ht⟩ := (hasIO_in hW hq).1 hio
    obtain ⟨n, a1, _, p, _, _, a2⟩ := g7 v y hv c hc ht
    exact ⟨n, _, a1, a2⟩

/-! ### a concrete case (one check at a time, to save memory) -/

set_option Elab.async false

/-- the list that is recorded -/
def madeLists : List FRef := (asked.calls.pers.filter fun r => r.op = makeListName ∧ r.dir = .out).map fun r => ⟨r.refHid, r.refCid⟩

/-- its elements -/
def listElts : List FRef := (asked.calls.pers.filter fun r => r.op = makeListName ∧ r.dir = .in_).map fun r => ⟨r.refHid, r.refCid⟩

/-- the outputs of the calls that use one of the values -/
def madeFrom (rows : List Row) (xs : List String) : List String :=
  (rows.filter fun r => decide (r.dir = .out) && rows.any fun r' => decide (r'.callHid = r.callHid) && decide (r'.dir = .in_) && decide (r'.refHid ∈ xs)).map (·.refHid)

/-- The values include what was computed from them, and none of them was put into a list. -/
def noLists (rows : List Row) (xs : List String) : Bool :=
  (madeFrom rows xs).all (fun y => decide (y ∈ xs)) &&
    rows.all fun r => !(decide (r.dir = .in_) && decide (r.refHid ∈ xs)) || rows.all fun r' => decide (r'.callHid = r.callHid → r'.op ≠ makeListName)

theorem noLists_sound {rows : List Row} {xs : List String} (h : noLists rows xs = true) {x : String} (hx : x ∈ xs) {c : String} (hc : Later rows x c) : OneElement rows c := by
  simp only [noLists, Bool.and_eq_true, List.all_eq_true, decide_eq_true_eq, Bool.or_eq_true, Bool.not_eq_true', Bool.and_eq_false_iff, decide_eq_false_iff_not] at h
  obtain ⟨y, hy, r, hr, rfl, hd, rfl⟩ := hc
  have hin : ∀ y, Into rows x y → y ∈ xs := by
    intro y hy
    induction hy with
    | here => exact hx
    | step _ h1 h2 ih =>
      obtain ⟨r, hr, e1, e2, e3⟩ := h1
      obtain ⟨r', hr', f1, f2, f3⟩ := h2
      refine h.1 _ (List.mem_map.2 ⟨r', List.mem_filter.2 ⟨hr', ?_⟩, f3⟩)
      simp only [Bool.and_eq_true, decide_eq_true_eq, List.any_eq_true]
      exact ⟨f2, r, hr, ⟨e1.trans f1.symm, e2⟩, e3 ▸ ih⟩
  intro a ha b _ hac _ _ _ hop
  rcases h.2 r hr with (h' | h') | h'
  · exact absurd hd h'
  · exact absurd (hin _ hy) h'
  · exact absurd hop (h' a ha hac)

/-- the list, what was computed from it, and so on -/
def listLater : List String :=
  let xs := madeLists.map (·.hid)
  let ys := xs ++ madeFrom asked.calls.pers xs
  ys ++ madeFrom asked.calls.pers ys

set_option maxRecDepth 20000 in
theorem listLater_ok : (noLists asked.calls.pers listLater && (madeLists.map (·.hid)).all fun x => decide (x ∈ listLater)) = true := by decide +kernel

set_option maxRecDepth 20000 in
theorem madeLists_nodup : (madeLists.map (·.hid)).Nodup := by decide +kernel

/-- The hypotheses hold. -/
example : ∃ f s1 g s' K, cf Ex.W.cfg (.coll (madeLists.map .ref)) asked = (.ok f, s1) ∧
    (∀ k, K ≤ k → f.expandAt Ex.W.cfg (fun _ => List.reverse) false .forward false false true 0 k s1 = (.ok g, s')) ∧ ShowsLater asked.calls.pers f g :=
  let ⟨f, s1, g, s', K, h1, _, h4, _, _, h7⟩ := C85_later_partial Ex.W Ex.good none 100 nofun _ _ askDay_ok askDay_keeps asked rfl (shallow_sound asked_shallow)
    _ _ asked_names asked_v (fun _ => List.reverse) (fun _ _ => List.reverse_perm _) madeLists madeLists_nodup (fun r hr c hc => by
      have := listLater_ok
      rw [Bool.and_eq_true] at this
      exact noLists_sound this.1 (of_decide_eq_true (List.all_eq_true.1 this.2 _ (List.mem_map_of_mem hr))) hc)
  ⟨f, s1, g, s', K, h1, h4, h7⟩

set_option maxRecDepth 20000 in
/-- `storage.cf([xs]).expand_forward(recursive=True, reuse_existing=False)` for the list `xs = [1, 2]`, of which `inc(total(xs))` was computed -/
example : counts ((do let f ← cf Ex.W.cfg (.coll (madeLists.map .ref)); f.expandAt Ex.W.cfg (fun _ => id) false .forward false false true 0 10) asked).1 =
    .ok ([("v", 1), ("var_0", 1), ("var_1", 1)], [("total", 1), ("inc", 1)], true) := by decide +kernel

/-! ### refutations -/

set_option maxRecDepth 20000 in
/-- C85 is false for an element of a list with several elements: the others join it in its variable, although they were not computed from it. -/
theorem C85_refuted_elements : counts ((do let f ← cf Ex.W.cfg (.coll ((listElts.take 1).map .ref)); f.expandAt Ex.W.cfg (fun _ => id) false .forward false false true 0 10) asked).1 =
    .ok ([("v", 2), ("list", 1), ("var_0", 1), ("var_1", 1)], [("__make_list__", 1), ("total", 1), ("inc", 1)], true) := by decide +kernel

/-- a storage in which `inc(1)` and `total([1, 2])` were computed -/
def usedTwice : St := (runLast Ex.W.cfg (.fresh none 100) [] [.call Ex.inc (Ex.arg1 (.raw (.int 1))), totalCmd, .commit]).2.2

/-- the input of `inc` there -/
def usedInput : List FRef := (usedTwice.calls.pers.filter fun r => r.op = "inc" ∧ r.dir = .in_).map fun r => ⟨r.refHid, r.refCid⟩

set_option maxRecDepth 20000 in
/-- C85 is false for `storage.cf(op).expand_forward(recursive=True, reuse_existing=False)`: other calls that use the inputs of the op are not found, although they are if one starts
from these inputs. -/
theorem C85_refuted_op :
    counts ((do let f ← cf Ex.W.cfg (.op "inc"); f.expandAt Ex.W.cfg (fun _ => id) false .forward false false true 0 10) usedTwice).1 =
      .ok ([("x", 1), ("var_0", 1)], [("inc", 1)], true) ∧
    counts ((do let f ← cf Ex.W.cfg (.coll (usedInput.map .ref)); f.expandAt Ex.W.cfg (fun _ => id) false .forward false false true 0 10) usedTwice).1 =
      .ok ([("v", 2), ("list", 1), ("var_0", 1), ("var_1", 1)], [("__make_list__", 1), ("inc", 1), ("total", 1)], true) := by
  refine ⟨?_, ?_⟩ <;> decide +kernel

end Verif.Props
