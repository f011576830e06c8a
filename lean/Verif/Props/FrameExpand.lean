import Verif.Proofs.CFrameExpandFresh
import Verif.Props.FrameHistory
/-!
C48: expanding a frame back and forward with recorded calls.
-/
namespace Verif.Props

open Verif CFrame Ex

/-- C48, first part, in all modes: whenever `expand_back`/`expand_forward` on given variables, on all variables (once or
recursively), or `expand_all` return, nothing has been removed, and whatever has been added are recorded calls and their inputs
and outputs, in variables that are joined with the function of the call. -/
theorem C48_only_adds_partial {R : FCall → Prop} {F V : String → Prop} {f : CFrame} (H : Base R f) (N : NamesApart R F V f) {rec : List FCall} (hrec : ∀ c ∈ rec, R c) :
    (∀ dir reuse skip varnames g, (∀ v ∈ varnames, f.IsVar v) → f.expandOnce rec dir reuse skip varnames = .ok g → Base R g ∧ Grows (· ∈ rec) f g) ∧
    (∀ dir reuse skip recursive k g, f.expandAllVars rec dir reuse skip recursive k = .ok g → Base R g ∧ Grows (· ∈ rec) f g) ∧
    (∀ reuse skip rounds k size g, f.expandAll rec reuse skip rounds k size = .ok g → Base R g ∧ Grows (· ∈ rec) f g) := by
  refine ⟨fun dir reuse skip varnames g hv h => ?_, fun dir reuse skip recursive k g h => ?_, fun reuse skip rounds k size g h => ?_⟩
  · obtain ⟨a, b, _⟩ := expandOnce_ok ⟨H, N⟩ hrec hv h
    exact ⟨a.base, b⟩
  · obtain ⟨a, b⟩ := expandAllVars_ok hrec ⟨H, N⟩ h
    exact ⟨a.base, b⟩
  · obtain ⟨a, b⟩ := expandAll_ok hrec ⟨H, N⟩ h
    exact ⟨a.base, b⟩

/-- Going back, two outputs of a call never share a label. -/
theorem apart_back {R : FCall → Prop} (hR : RecOk R) {c : FCall} (hc : R c) : Apart .back c := by
  have e : (ioRefs .back c).map (fun p => nameProj c.op p.1) = Dict.keys c.outputs := by
    unfold ioRefs Dict.keys
    refine List.map_congr_left fun p hp => ?_
    unfold nameProj
    rw [if_neg]
    rintro ⟨h1, h2⟩
    rw [(hR.list c hc h1 p hp).1] at h2
    cases h2
  unfold Apart
  rw [e]
  exact hR.outputs c hc

/-- Going forward, two inputs share a label only in the construction of a list with several elements. -/
theorem apart_forward {R : FCall → Prop} (hR : RecOk R) {c : FCall} (hc : R c) (h : c.op = makeListName → c.inputs.length ≤ 1) : Apart .forward c := by
  unfold Apart ioRefs
  by_cases ho : c.op = makeListName
  · match hi : c.inputs, h ho with
    | [], _ => simp
    | [p], _ => simp
  · have e : c.inputs.map (fun p => nameProj c.op p.1) = Dict.keys c.inputs := by
      unfold Dict.keys
      refine List.map_congr_left fun p hp => ?_
      unfold nameProj
      rw [if_neg fun h => ho h.1]
    exact e ▸ hR.inputs c hc

/-- C48, second part, in all modes: one expansion of the given variables attaches to each value that had no creator (consumer)
in the frame all the recorded ones. -/
theorem C48_reaches_partial {R : FCall → Prop} (hR : RecOk R) {F V : String → Prop} {f g : CFrame} (H : Wf R f) (L : LabelsOk f) (N : NamesApart R F V f)
    {rec : List FCall} (hrec : ∀ c ∈ rec, R c) {dir : Side} {reuse skip : Bool} {varnames : List String} (hv : ∀ v ∈ varnames, f.IsVar v)
    (h : f.expandOnce rec dir reuse skip varnames = .ok g) :
    ∀ v ∈ varnames, ∀ x, Unattached f dir v x → ∀ c ∈ rec, Touches dir c x → (skip = true → c.hid ∉ f.calls.keys) →
      ∃ n, g.HasCall n c.hid ∧ (Apart dir c → Attached g dir v x n c) := by
  obtain ⟨a, b, ends, h1, h2⟩ := expandOnce_ok ⟨H.base, N⟩ hrec hv h
  obtain ⟨ends', h1', _, h3⟩ := endElts_unattached hR H L dir
  rw [h1] at h1'
  cases h1'
  intro v hv' x hu c hc ⟨p, hp, e⟩ hs
  subst e
  obtain ⟨n, n1, _, n3⟩ := h2 v hv' c hc hs p hp ((h3 v _ (hv v hv')).2 hu)
  refine ⟨n, n1, fun hap => ⟨n1, ?_, p, hp, rfl, n3 hap hu.1⟩⟩
  obtain ⟨c2, k1⟩ := Dict.mem_keys.1 ((a.base.call.calls _).2 ⟨n, n1⟩)
  obtain ⟨k2, k3⟩ := a.base.call.callOk _ _ k1
  rw [hR.hid c2 c k3 (hrec c hc) k2] at k1
  exact k1

theorem bounded (ht : String → Nat) (l : List String) : ∃ m, ∀ x ∈ l, ht x < m := by
  induction l with
  | nil => exact ⟨0, by simp⟩
  | cons a l ih =>
    obtain ⟨m, hm⟩ := ih
    refine ⟨max m (ht a + 1), ?_⟩
    intro x hx
    rcases List.mem_cons.1 hx with rfl | hx
    · omega
    · have := hm x hx; omega

theorem bounded_touches (ht : String → Nat) (rec : List FCall) (dir : Side) : ∃ m, ∀ c ∈ rec, ∀ x, Touches dir c x → ht x < m := by
  obtain ⟨m, hm⟩ := bounded ht (rec.flatMap fun c => (ioRefs dir c).map (·.2.hid))
  refine ⟨m, fun c hc x ⟨p, hp, e⟩ => hm x (List.mem_flatMap.2 ⟨c, hc, List.mem_map.2 ⟨p, hp, e⟩⟩)⟩

/-- The recorded values can be numbered so that each call has inputs with smaller numbers than its outputs: the history ids of
the outputs are computed from those of the inputs, so no value depends on itself. -/
def Ranked (rec : List FCall) (rank : String → Nat) : Prop := ∀ c ∈ rec, ∀ p ∈ c.inputs, ∀ q ∈ c.outputs, rank p.2.hid < rank q.2.hid

theorem ranked_forward {rec : List FCall} {rank : String → Nat} (h : Ranked rec rank) :
    ∃ ht : String → Nat, ∀ c ∈ rec, ∀ x y, Touches .forward c x → Touches .back c y → ht y < ht x := by
  obtain ⟨m, hm⟩ := bounded_touches rank rec .back
  refine ⟨fun x => m - rank x, fun c hc x y ⟨p, hp, e⟩ ⟨q, hq, e'⟩ => ?_⟩
  have h1 := h c hc p hp q hq
  have h2 := hm c hc y ⟨q, hq, e'⟩
  rw [e, e'] at h1
  show m - rank y < m - rank x
  omega

theorem complete_attached {R : FCall → Prop} (hR : RecOk R) {g : CFrame} (W : Wf R g) {rec : List FCall} (hrec : ∀ c ∈ rec, R c) {dir : Side} (h : Complete rec dir g)
    {v x : String} (hx : g.HasRef v x) {c : FCall} (hc : c ∈ rec) (ht : Touches dir c x) : ∃ n c', Attached g dir v x n c' ∧ (dir = .back → c' = c) := by
  by_cases hu : ∃ n c', Attached g dir v x n c'
  · obtain ⟨n, c', ha⟩ := hu
    refine ⟨n, c', ha, ?_⟩
    rintro rfl
    obtain ⟨p, hp, e⟩ := ht
    obtain ⟨_, h1, q, hq, e', _⟩ := ha
    exact hR.creator c' c q p (W.call.callOk _ _ h1).2 (hrec c hc) hq hp (e'.trans e.symm)
  · exact absurd ht (h v x ⟨hx, fun n c' ha => hu ⟨n, c', ha⟩⟩ c hc)

/-- C48, third part: `expand_back(recursive=True, reuse_existing=False)` (and `expand_forward`, if no list with several elements
was recorded) terminates; the result is consistent, and every value in it is attached to the recorded call that created it (to
one that uses it, and to all of them where the given frame had none). -/
theorem C48_recursive_partial {R : FCall → Prop} (hR : RecOk R) {F V : String → Prop} {f : CFrame} (H : Wf R f) (L : LabelsOk f) (N : NamesApart R F V f)
    (hne : f.vs.keys ≠ []) {rec : List FCall} (hrec : ∀ c ∈ rec, R c) (hd : rec.Nodup) {rank : String → Nat} (hr : Ranked rec rank) (dir : Side)
    (hl : dir = .forward → ∀ c ∈ rec, c.op = makeListName → c.inputs.length ≤ 1) :
    ∃ g K, (∀ k, K ≤ k → f.expandAllVars rec dir false false true k = .ok g) ∧ Grows (· ∈ rec) f g ∧ Wf R g ∧ g.check = true ∧
      (∀ v x, g.HasRef v x → ∀ c ∈ rec, Touches dir c x → ∃ n c', Attached g dir v x n c' ∧ (dir = .back → c' = c)) ∧
      ∀ v x, Unattached f dir v x → ∀ c ∈ rec, Touches dir c x → ∃ n, Attached g dir v x n c := by
  have hap : ∀ c ∈ rec, Apart dir c := by
    intro c hc
    cases dir with
    | back => exact apart_back hR (hrec c hc)
    | forward => exact apart_forward hR (hrec c hc) (hl rfl c hc)
  have hht : ∃ ht : String → Nat, ∀ c ∈ rec, ∀ x y, Touches dir c x → Touches dir.flip c y → ht y < ht x := by
    cases dir with
    | back => exact ⟨rank, fun c hc x y ⟨p, hp, e⟩ ⟨q, hq, e'⟩ => e ▸ e' ▸ hr c hc q hq p hp⟩
    | forward => exact ranked_forward hr
  obtain ⟨ht, hht⟩ := hht
  obtain ⟨m, hm⟩ := bounded_touches ht rec dir
  obtain ⟨g, a1, a2, a3, a4, _, a6⟩ := expandAllVars_fresh hR hrec hd hap hht (k := m) (⟨H, N, L⟩ : Sound R F V f) hne (fun v x _ c hc h => hm c hc x h)
  exact ⟨g, m + 1, a1, a3, a2.wf, check_iff.2 a2.wf.consistent, fun v x hx c hc ht => complete_attached hR a2.wf hrec a4 hx hc ht, a6⟩

/-- C48, the same for `expand_all(reuse_existing=False)`: it terminates, and nothing is missing in either direction. -/
theorem C48_expand_all_partial {R : FCall → Prop} (hR : RecOk R) {F V : String → Prop} {f : CFrame} (H : Wf R f) (L : LabelsOk f) (N : NamesApart R F V f)
    (hne : f.vs.keys ≠ []) {rec : List FCall} (hrec : ∀ c ∈ rec, R c) (hd : rec.Nodup) {rank : String → Nat} (hr : Ranked rec rank)
    (hl : ∀ c ∈ rec, c.op = makeListName → c.inputs.length ≤ 1) (size : Nat) :
    ∃ g K, (∀ rounds k, K ≤ rounds → K ≤ k → f.expandAll rec false false rounds k size = .ok g) ∧ Grows (· ∈ rec) f g ∧ Wf R g ∧ g.check = true ∧
      ∀ dir v x, g.HasRef v x → ∀ c ∈ rec, Touches dir c x → ∃ n c', Attached g dir v x n c' ∧ (dir = .back → c' = c) := by
  have hap : ∀ dir, ∀ c ∈ rec, Apart dir c := by
    intro dir c hc
    cases dir with
    | back => exact apart_back hR (hrec c hc)
    | forward => exact apart_forward hR (hrec c hc) (hl c hc)
  obtain ⟨hf, hhf⟩ := ranked_forward hr
  obtain ⟨m1, hm1⟩ := bounded_touches rank rec .back
  obtain ⟨m2, hm2⟩ := bounded_touches hf rec .forward
  obtain ⟨g, a1, a2, a3, a4, a5⟩ := expandAll_fresh hR hrec hd hap (hb := rank) (hf := hf) (K := max m1 m2)
    (fun c hc x y ⟨p, hp, e⟩ ⟨q, hq, e'⟩ => e ▸ e' ▸ hr c hc q hq p hp) hhf
    (fun c hc x h => Nat.lt_of_lt_of_le (hm1 c hc x h) (Nat.le_max_left _ _)) (fun c hc x h => Nat.lt_of_lt_of_le (hm2 c hc x h) (Nat.le_max_right _ _))
    (⟨H, N, L⟩ : Sound R F V f) hne
  refine ⟨g, max m1 m2 + 2, fun rounds k h1 h2 => a1 rounds k size (by omega) (by omega), a3, a2.wf, check_iff.2 a2.wf.consistent, ?_⟩
  intro dir v x hx c hc ht
  cases dir with
  | back => exact complete_attached hR a2.wf hrec a4 hx hc ht
  | forward => exact complete_attached hR a2.wf hrec a5 hx hc ht

/-! ### a case -/

/-- Names that begin with one of the given letters are names of functions, the others of variables. -/
def Begins (cs : List Char) (n : String) : Prop := ∃ c ∈ cs, n.toList.head? = some c

theorem begins_idxName {cs : List Char} {p : String} (hp : p.toList ≠ []) (i : Nat) : Begins cs (idxName p i) ↔ Begins cs p := by
  unfold Begins
  rw [idxName_toList, List.head?_append_of_ne_nil _ hp]

def beginsB (cs : List Char) (n : String) : Bool := n.toList.head?.any (· ∈ cs)

theorem begins_of {cs : List Char} {n : String} : Begins cs n ↔ beginsB cs n = true := by
  unfold Begins beginsB
  cases n.toList.head? <;> simp

/-- A check of `NamesApart` by the first letters. -/
def lettersB (L : List FCall) (cs : List Char) (f : CFrame) : Bool :=
  (L.all fun c => beginsB cs c.op && (c.inputs ++ c.outputs).all fun p =>
    !beginsB cs (nameProj c.op p.1) && !beginsB cs (stem (nameProj c.op p.1)) && !(stem (nameProj c.op p.1)).toList.isEmpty) &&
  f.fs.keys.all (beginsB cs) && f.vs.keys.all fun v => !beginsB cs v

theorem namesApart_of {L : List FCall} {cs : List Char} {f : CFrame} (h : lettersB L cs f = true) : NamesApart (· ∈ L) (Begins cs) (fun v => ¬ Begins cs v) f := by
  simp only [lettersB, Bool.and_eq_true, List.all_eq_true, Bool.not_eq_true', List.isEmpty_eq_false_iff] at h
  obtain ⟨⟨h1, h2⟩, h3⟩ := h
  have nb : ∀ {n}, beginsB cs n = false → ¬ Begins cs n := fun e h => by rw [begins_of.1 h] at e; cases e
  refine ⟨fun n h h' => h' h, fun c hc => ?_, fun c p hc hp => ?_, fun n hn => begins_of.2 (h2 n hn), fun v hv => nb (h3 v hv)⟩
  · have hb := begins_of.2 (h1 c hc).1
    have hne : c.op.toList ≠ [] := by
      obtain ⟨x, _, e⟩ := hb
      rintro e'
      rw [e'] at e
      cases e
    exact ⟨hb, fun i => (begins_idxName hne i).2 hb⟩
  · obtain ⟨⟨a1, a2⟩, a3⟩ := (h1 c hc).2 p (List.mem_append.2 hp)
    exact ⟨fun _ => nb a1, fun i hb => nb a2 ((begins_idxName a3 i).1 hb)⟩

namespace Ex
def s0 : FRef := ⟨"s0", "0"⟩
def s1 : FRef := ⟨"s1", "1"⟩
def s2 : FRef := ⟨"s2", "2"⟩
def s3 : FRef := ⟨"s3", "3"⟩
def s4 : FRef := ⟨"s4", "4"⟩
/-- `f` applied again and again to its result -/
def k0 : FCall := ⟨"k0", "f", [("a", s0)], [("output_0", s1)]⟩
def k1 : FCall := ⟨"k1", "f", [("a", s1)], [("output_0", s2)]⟩
def k2 : FCall := ⟨"k2", "f", [("a", s2)], [("output_0", s3)]⟩
def k3 : FCall := ⟨"k3", "f", [("a", s3)], [("output_0", s4)]⟩
def ks : List FCall := [k0, k1, k2, k3]
/-- a frame with one of the values -/
def frameOf (r : FRef) : CFrame := ((runOps {} [.addVar "v", .addRef "v" r]).toOption).getD {}
theorem fromRefs_s4 : fromRefs [s4] = .ok (frameOf s4) := by decide +kernel
theorem recOkS : RecOk (· ∈ ks) := recOk_of (by decide +kernel)
theorem wf_s2 : Wf (· ∈ ks) (frameOf s2) := wf_builds recOkS wf_empty (builds_of (by decide +kernel : buildB ks {} [.addVar "v", .addRef "v" s2] = some (frameOf s2)))
theorem wf_s4 : Wf (· ∈ ks) (frameOf s4) := wf_builds recOkS wf_empty (builds_of (by decide +kernel : buildB ks {} [.addVar "v", .addRef "v" s4] = some (frameOf s4)))
def rankS (h : String) : Nat := (["s0", "s1", "s2", "s3", "s4"].idxOf h)
end Ex

theorem ranked_ks : Ranked ks rankS := by unfold Ranked; decide +kernel

example : RecOk (· ∈ ks) ∧ Wf (· ∈ ks) (frameOf s4) ∧ LabelsOk (frameOf s4) ∧ NamesApart (· ∈ ks) (Begins ['f']) (fun v => ¬ Begins ['f'] v) (frameOf s4) ∧
    (frameOf s4).vs.keys ≠ [] ∧ ks.Nodup ∧ Ranked ks rankS ∧ (∀ c ∈ ks, c.op = makeListName → c.inputs.length ≤ 1) :=
  ⟨recOkS, wf_s4, labelsOk_of (by decide +kernel), namesApart_of (by decide +kernel), by decide +kernel, by decide +kernel, ranked_ks, by decide +kernel⟩
/-- The four calls appear, each in a function of its own. -/
example : ((frameOf s4).expandAllVars ks .back false false true 10).toOption.map (fun g => (g.vs, g.fs)) =
    some ([("v", ["s4"]), ("a", ["s3"]), ("a_0", ["s2"]), ("a_1", ["s1"]), ("a_2", ["s0"])], [("f", ["k3"]), ("f_0", ["k2"]), ("f_1", ["k1"]), ("f_2", ["k0"])]) := by
  set_option maxRecDepth 20000 in decide +kernel
example : ((frameOf s2).expandAll ks false false 10 10 0).toOption.map (fun g => (g.vs, g.fs)) =
    some ([("v", ["s2"]), ("a", ["s1"]), ("a_0", ["s0"]), ("var_0", ["s3"]), ("var_1", ["s4"])], [("f", ["k1"]), ("f_0", ["k0"]), ("f_1", ["k2"]), ("f_2", ["k3"])]) := by
  set_option maxRecDepth 20000 in decide +kernel

/-! ### refutations -/

/-- Refutation: with `reuse_existing=True`, which is the default, going back stops early. From a value made by four successive
calls of the same op it reaches two of them, and what results does not pass `_check`: the call `k2` is in the function, but its
input is not where the function has its inputs. -/
theorem C48_refuted_reuse_stops :
    ∃ g, fromRefs [s4] = .ok (frameOf s4) ∧ (frameOf s4).expandAllVars ks .back true false true 10 = .ok g ∧ g.check = false ∧ g.vs = [("v", ["s4", "s3"]), ("a", ["s3", "s2"])] ∧
      g.fs = [("f", ["k3", "k2"])] := by
  cases h : (frameOf s4).expandAllVars ks .back true false true 10 with
  | error e =>
    have : ((frameOf s4).expandAllVars ks .back true false true 10).toOption.isSome = true := by set_option maxRecDepth 20000 in decide +kernel
    rw [h] at this
    cases this
  | ok g =>
    have : ((frameOf s4).expandAllVars ks .back true false true 10).toOption.map (fun g => (g.check, g.vs, g.fs)) =
      some (false, [("v", ["s4", "s3"]), ("a", ["s3", "s2"])], [("f", ["k3", "k2"])]) := by set_option maxRecDepth 20000 in decide +kernel
    rw [h] at this
    simp only [Except.toOption, Option.map_some, Option.some.injEq, Prod.mk.injEq] at this
    exact ⟨g, fromRefs_s4, rfl, this.1, this.2.1, this.2.2⟩

namespace Ex
def m0 : FCall := ⟨"m0", "__make_list__", [("elts_0", x), ("elts_1", x2)], [("list", z)]⟩
def n0 : FCall := ⟨"n0", "g", [("a", s2)], [("output_0", y)]⟩
def frameXs : CFrame := ((runOps {} [.addVar "v", .addRef "v" x, .addVar "w", .addRef "w" x2]).toOption).getD {}
theorem wf_xs : Wf (· ∈ [m0]) frameXs :=
  wf_builds (recOk_of (by decide +kernel)) wf_empty (builds_of (by decide +kernel : buildB [m0] {} [.addVar "v", .addRef "v" x, .addVar "w", .addRef "w" x2] = some frameXs))
end Ex

/-- Refutation: going forward, only consumers of values without any in the frame are found: of the two calls with the input `s2`
the frame below keeps one. -/
theorem C48_refuted_other_consumers :
    ((frameOf s2).expandOnce ks .forward false false ["v"]).toOption.map (fun g => (g.expandAllVars (n0 :: ks) .forward false false true 10).toOption.map (·.fs)) =
      some (some [("f", ["k2"]), ("f_0", ["k3"])]) ∧
    ((frameOf s2).expandAllVars (n0 :: ks) .forward false false true 10).toOption.map (·.fs) = some [("f", ["k2"]), ("g", ["n0"]), ("f_0", ["k3"])] := by
  constructor <;> (set_option maxRecDepth 20000 in decide +kernel)

/-- Refutation: the elements of a list share one label, of which the grouping keeps the last: going forward from `v` and `w`, which
contain the two elements of a list, only `w` is joined with its construction; the recursive expansion without reuse then adds
the same call again and again (here it is stopped after ten rounds). -/
theorem C48_refuted_list_elements :
    (frameXs.expandOnce [m0] .forward false false ["v", "w"]).toOption.map (fun g => (g.vs, g.fs)) =
      some ([("v", ["x"]), ("w", ["x2", "x"]), ("list", ["z"])], [("__make_list__", ["m0"])]) ∧
    (frameXs.expandOnce [m0] .forward false false ["v", "w"]).toOption.map edges = some [("w", "__make_list__", "elts"), ("__make_list__", "list", "list")] ∧
    frameXs.expandAllVars [m0] .forward false false true 10 = .error .recursionError := by
  refine ⟨?_, ?_, ?_⟩ <;> (set_option maxRecDepth 20000 in decide +kernel)

/-- Refutation: a frame without variables cannot be expanded: `set.union(*[])` raises. -/
theorem C48_refuted_empty : CFrame.expandAllVars ks .back true false false 10 {} = .error .typeError := by decide +kernel

end Verif.Props
