import Verif.Model.Tracer
/-!
C38: the dependency trace of an op call.
-/
namespace Verif.Props

open Verif Tracer

/-! ### specification -/

/-- While `p` runs and does `acts`, the dependency `b` is used by `a`: `a` is the function that calls the tracked function `b`
or reads the global variable `b`. -/
inductive Uses : Fn → List Act → DKey → DKey → Prop
  | call {p acts g body exc} : Act.call g body exc ∈ acts → Uses p acts p.key g.key
  | glob {p acts name hash repr} : Act.glob name hash repr ∈ acts → Uses p acts p.key (p.modul, name)
  | inner {p acts g body exc a b} : Act.call g body exc ∈ acts → Uses g body a b → Uses p acts a b

/-- What is seen of the dependency `k`: the code of a function, the value of a global variable. -/
inductive Seen : Fn → List Act → DKey → TNode → Prop
  | call {p acts g body exc} : Act.call g body exc ∈ acts → Seen p acts g.key (.callable none g.runtime)
  | glob {p acts name hash repr} : Act.glob name hash repr ∈ acts → Seen p acts (p.modul, name) (.globalVar hash repr)
  | inner {p acts g body exc k n} : Act.call g body exc ∈ acts → Seen g body k n → Seen p acts k n

mutual
/-- no function is left with an exception -/
def calmAct : Act → Bool
  | .call _ body exc => !exc && calmAll body
  | .glob _ _ _ => true
  | .op _ _ body exc => !exc && calmAll body
def calmAll : List Act → Bool
  | [] => true
  | a :: as => calmAct a && calmAll as
end

mutual
/-- no other op is called -/
def plainAct : Act → Bool
  | .call _ body _ => plainAll body
  | .glob _ _ _ => true
  | .op _ _ _ _ => false
def plainAll : List Act → Bool
  | [] => true
  | a :: as => plainAct a && plainAll as
end

mutual
/-- What is done up to the first call of another op, and whether the end is reached without one. -/
def cutAct : Act → List Act × Bool
  | .call g body exc => ([.call g (cutAll body).1 exc], (cutAll body).2)
  | .glob n h r => ([.glob n h r], true)
  | .op _ _ _ _ => ([], false)
def cutAll : List Act → List Act × Bool
  | [] => ([], true)
  | a :: as => if (cutAct a).2 then ((cutAct a).1 ++ (cutAll as).1, (cutAll as).2) else cutAct a
end

/-! ### proofs -/

theorem uses_append {p : Fn} {as bs : List Act} {x y : DKey} : Uses p (as ++ bs) x y ↔ Uses p as x y ∨ Uses p bs x y := by
  constructor
  · intro h
    cases h with
    | call h => exact (List.mem_append.1 h).imp .call .call
    | glob h => exact (List.mem_append.1 h).imp .glob .glob
    | inner h h' => exact (List.mem_append.1 h).imp (.inner · h') (.inner · h')
  · rintro (h | h)
    · cases h with
      | call h => exact .call (List.mem_append_left _ h)
      | glob h => exact .glob (List.mem_append_left _ h)
      | inner h h' => exact .inner (List.mem_append_left _ h) h'
    · cases h with
      | call h => exact .call (List.mem_append_right _ h)
      | glob h => exact .glob (List.mem_append_right _ h)
      | inner h h' => exact .inner (List.mem_append_right _ h) h'

theorem seen_append {p : Fn} {as bs : List Act} {k : DKey} {n : TNode} : Seen p (as ++ bs) k n ↔ Seen p as k n ∨ Seen p bs k n := by
  constructor
  · intro h
    cases h with
    | call h => exact (List.mem_append.1 h).imp .call .call
    | glob h => exact (List.mem_append.1 h).imp .glob .glob
    | inner h h' => exact (List.mem_append.1 h).imp (.inner · h') (.inner · h')
  · rintro (h | h)
    · cases h with
      | call h => exact .call (List.mem_append_left _ h)
      | glob h => exact .glob (List.mem_append_left _ h)
      | inner h h' => exact .inner (List.mem_append_left _ h) h'
    · cases h with
      | call h => exact .call (List.mem_append_right _ h)
      | glob h => exact .glob (List.mem_append_right _ h)
      | inner h h' => exact .inner (List.mem_append_right _ h) h'

theorem uses_nil {p : Fn} {x y : DKey} : ¬ Uses p [] x y := by
  intro h
  cases h with
  | call h => exact absurd h List.not_mem_nil
  | glob h => exact absurd h List.not_mem_nil
  | inner h _ => exact absurd h List.not_mem_nil

theorem seen_nil {p : Fn} {k : DKey} {n : TNode} : ¬ Seen p [] k n := by
  intro h
  cases h with
  | call h => exact absurd h List.not_mem_nil
  | glob h => exact absurd h List.not_mem_nil
  | inner h _ => exact absurd h List.not_mem_nil

theorem uses_call {p g : Fn} {body : List Act} {exc : Bool} {x y : DKey} :
    Uses p [.call g body exc] x y ↔ (x = p.key ∧ y = g.key) ∨ Uses g body x y := by
  constructor
  · intro h
    cases h with
    | call h => cases List.mem_singleton.1 h; exact .inl ⟨rfl, rfl⟩
    | glob h => cases List.mem_singleton.1 h
    | inner h h' => cases List.mem_singleton.1 h; exact .inr h'
  · rintro (⟨rfl, rfl⟩ | h)
    · exact .call (List.mem_singleton.2 rfl)
    · exact .inner (List.mem_singleton.2 rfl) h

theorem seen_call {p g : Fn} {body : List Act} {exc : Bool} {k : DKey} {n : TNode} :
    Seen p [.call g body exc] k n ↔ (k = g.key ∧ n = .callable none g.runtime) ∨ Seen g body k n := by
  constructor
  · intro h
    cases h with
    | call h => cases List.mem_singleton.1 h; exact .inl ⟨rfl, rfl⟩
    | glob h => cases List.mem_singleton.1 h
    | inner h h' => cases List.mem_singleton.1 h; exact .inr h'
  · rintro (⟨rfl, rfl⟩ | h)
    · exact .call (List.mem_singleton.2 rfl)
    · exact .inner (List.mem_singleton.2 rfl) h

/-- What `acts`, done by `p`, adds to the graph of the tracer `t`. -/
structure Adds (p : Fn) (acts : List Act) (t t' : Tracer) : Prop where
  stack : t'.stack = t.stack
  roots : t'.roots = t.roots
  edges : ∀ x y, (x, y) ∈ t'.edges ↔ (x, y) ∈ t.edges ∨ Uses p acts x y
  keys : ∀ k, k ∈ t'.nodes.keys ↔ k ∈ t.nodes.keys ∨ ∃ x, Uses p acts x k
  vals : ∀ k n, t'.nodes.get? k = some n → t.nodes.get? k = some n ∨ Seen p acts k n

theorem Adds.refl (p : Fn) (t : Tracer) : Adds p [] t t :=
  ⟨rfl, rfl, fun _ _ => ⟨.inl, fun h => h.elim id fun h => (uses_nil h).elim⟩,
    fun _ => ⟨.inl, fun h => h.elim id fun ⟨_, h⟩ => (uses_nil h).elim⟩, fun _ _ => .inl⟩

theorem Adds.trans {p : Fn} {as bs : List Act} {t t' t'' : Tracer} (h : Adds p as t t') (h' : Adds p bs t' t'') : Adds p (as ++ bs) t t'' where
  stack := h'.stack.trans h.stack
  roots := h'.roots.trans h.roots
  edges x y := by rw [h'.edges, h.edges, uses_append, or_assoc]
  keys k := by simp only [h'.keys, h.keys, uses_append, exists_or, or_assoc]
  vals k n hk := by
    rw [seen_append]
    rcases h'.vals k n hk with h1 | h1
    · rcases h.vals k n h1 with h2 | h2
      · exact .inl h2
      · exact .inr (.inl h2)
    · exact .inr (.inr h1)

theorem addEdge_spec (t : Tracer) (k k' : DKey) (n n' : TNode) (hk : k ∈ t.nodes.keys) :
    (∀ x y, (x, y) ∈ (t.addEdge k n k' n').edges ↔ (x, y) ∈ t.edges ∨ (x = k ∧ y = k')) ∧
    (∀ j, j ∈ (t.addEdge k n k' n').nodes.keys ↔ j ∈ t.nodes.keys ∨ j = k') ∧
    (∀ j m, (t.addEdge k n k' n').nodes.get? j = some m → t.nodes.get? j = some m ∨ (j = k' ∧ m = n')) := by
  unfold addEdge
  dsimp only
  have h1 : t.nodes.has k = true := Dict.has_iff.2 hk
  rw [h1]
  rw [if_pos rfl]
  refine ⟨fun x y => by rw [PySet.mem_add, Prod.mk.injEq], ?_, ?_⟩
  · intro j
    split
    · rename_i h
      exact ⟨.inl, fun hj => hj.elim id (fun e => e ▸ Dict.has_iff.1 h)⟩
    · rw [Dict.mem_keys_set, or_comm]
  · intro j m hj
    split at hj
    · exact .inl hj
    · rw [Dict.get?_set] at hj
      split at hj
      · exact .inr ⟨Eq.symm (by assumption), by injection hj with h; exact h.symm⟩
      · exact .inl hj


theorem registerCall_spec (t : Tracer) (i : Nat) (p g : Fn) (st : List (Nat × Fn)) (hs : t.stack = (i, p) :: st) :
    (t.registerCall g).1.stack = (t.next, g) :: t.stack ∧ (t.registerCall g).1.roots = t.roots ∧
    (t.registerCall g).1.active = t.active ∧ (t.registerCall g).2 = t.next ∧
    (p.key ∈ t.nodes.keys →
    (∀ x y, (x, y) ∈ (t.registerCall g).1.edges ↔ (x, y) ∈ t.edges ∨ (x = p.key ∧ y = g.key)) ∧
    (∀ j, j ∈ (t.registerCall g).1.nodes.keys ↔ j ∈ t.nodes.keys ∨ j = g.key) ∧
    (∀ j m, (t.registerCall g).1.nodes.get? j = some m → t.nodes.get? j = some m ∨ (j = g.key ∧ m = .callable none g.runtime))) := by
  unfold registerCall
  rw [hs]
  refine ⟨rfl, rfl, rfl, rfl, fun hk => ?_⟩
  dsimp only
  obtain ⟨h1, h2, h3⟩ := addEdge_spec { t with stack := (t.next, g) :: (i, p) :: st, nodes := t.nodes.set g.key (node g), next := t.next + 1 }
    p.key g.key (node p) (node g) (Dict.mem_keys_set.2 (.inr hk))
  refine ⟨h1, fun j => ?_, fun j m hj => ?_⟩
  · rw [h2]
    dsimp only
    rw [Dict.mem_keys_set]
    constructor
    · rintro ((h | h) | h)
      · exact .inr h
      · exact .inl h
      · exact .inr h
    · rintro (h | h)
      · exact .inl (.inr h)
      · exact .inr h
  · rcases h3 j m hj with h | h
    · dsimp only at h
      rw [Dict.get?_set] at h
      split at h
      · exact .inr ⟨Eq.symm (by assumption), by injection h with h; exact h.symm⟩
      · exact .inl h
    · exact .inr h

theorem enterOp_spec (f : Fn) : (enterOp f).stack = [(1, f), (0, f)] ∧ (enterOp f).active = true ∧ (enterOp f).roots = [f.key] ∧
    (enterOp f).edges = [(f.key, f.key)] ∧ (enterOp f).nodes.keys = [f.key] ∧
    (∀ k n, (enterOp f).nodes.get? k = some n → k = f.key ∧ n = .callable none f.runtime) := by
  have h : enterOp f = ⟨[(1, f), (0, f)], [(f.key, node f)], [(f.key, f.key)], [f.key], true, 2⟩ := by
    simp [enterOp, registerCall, new, addEdge, Dict.set, Dict.has, Dict.get?, PySet.add]
  rw [h]
  refine ⟨rfl, rfl, rfl, rfl, rfl, ?_⟩
  intro k n hk
  rw [Dict.get?_cons] at hk
  split at hk
  · exact ⟨Eq.symm (by assumption), by injection hk with hk; exact hk.symm⟩
  · cases hk

theorem leaveOp_ok {t : Tracer} {f : Fn} (h : t.stack = [(1, f), (0, f)]) : leaveOp t = .ok { t with stack := [] } := by
  simp [leaveOp, registerReturn, h]

mutual
theorem act_spec : ∀ (a : Act), calmAct a = true →
    (∀ t : Tracer, t.active = false → runAct a t = .ok t) ∧
    (∀ (t : Tracer) (i : Nat) (p : Fn) (st : List (Nat × Fn)), t.active = true → t.stack = (i, p) :: st → p.key ∈ t.nodes.keys →
      ∃ t', runAct a t = .ok t' ∧ Adds p (cutAct a).1 t t' ∧ t'.active = (cutAct a).2)
  | .glob name hash repr, _ => by
    constructor
    · intro t ha
      unfold runAct
      rw [ha]
      rfl
    · intro t i p st ha hs hk
      unfold runAct registerGlobal
      rw [if_pos ha, hs]
      refine ⟨_, rfl, ?_, ha⟩
      obtain ⟨h1, h2, h3⟩ := addEdge_spec t p.key (p.modul, name) (node p) (.globalVar hash repr) hk
      have hu : ∀ x y, Uses p [.glob name hash repr] x y ↔ x = p.key ∧ y = (p.modul, name) := by
        intro x y
        constructor
        · intro h
          cases h with
          | call h => cases List.mem_singleton.1 h
          | glob h => cases List.mem_singleton.1 h; exact ⟨rfl, rfl⟩
          | inner h _ => cases List.mem_singleton.1 h
        · rintro ⟨rfl, rfl⟩
          exact .glob (List.mem_singleton.2 rfl)
      unfold cutAct
      refine ⟨rfl, rfl, fun x y => by rw [h1, hu], fun k => ?_, fun k n hkn => ?_⟩
      · rw [h2]
        simp only [hu, exists_and_right, exists_eq, true_and]
      · rcases h3 k n hkn with h | ⟨rfl, rfl⟩
        · exact .inl h
        · exact .inr (.glob (List.mem_singleton.2 rfl))
  | .call g body exc, hc => by
    unfold calmAct at hc
    rw [Bool.and_eq_true, Bool.not_eq_true'] at hc
    obtain ⟨rfl, hc⟩ := hc
    obtain ⟨ih1, ih2⟩ := acts_spec body hc
    constructor
    · intro t ha
      unfold runAct
      rw [ha]
      exact ih1 t ha
    · intro t i p st ha hs hk
      unfold runAct cutAct
      rw [if_pos ha]
      obtain ⟨c1, c2, c3, c4, c5⟩ := registerCall_spec t i p g st hs
      obtain ⟨c5, c6, c7⟩ := c5 hk
      obtain ⟨t', h1, h2, h3⟩ := ih2 (t.registerCall g).1 t.next g t.stack (c3.trans ha) c1 ((c6 g.key).2 (.inr rfl))
      rw [h1]
      dsimp only
      have hst := h2.stack.trans c1
      unfold registerReturn
      rw [hst, c4]
      dsimp only
      rw [if_pos rfl]
      refine ⟨_, rfl, ⟨rfl, h2.roots.trans c2, fun x y => ?_, fun k => ?_, fun k n hkn => ?_⟩, h3⟩
      · rw [h2.edges, c5, uses_call, or_assoc]
      · rw [h2.keys, c6]
        simp only [uses_call, exists_or, exists_and_right, exists_eq, true_and, or_assoc]
      · rcases h2.vals k n hkn with h | h
        · rcases c7 k n h with h | h
          · exact .inl h
          · exact .inr (seen_call.2 (.inl h))
        · exact .inr (seen_call.2 (.inr h))
  | .op g hit body exc, hc => by
    unfold calmAct at hc
    rw [Bool.and_eq_true, Bool.not_eq_true'] at hc
    obtain ⟨rfl, hc⟩ := hc
    obtain ⟨_, ih2⟩ := acts_spec body hc
    obtain ⟨e1, e2, _, _, e5, _⟩ := enterOp_spec g
    obtain ⟨t', h1, h2, _⟩ := ih2 (enterOp g) 1 g _ e2 e1 (by rw [e5]; exact List.mem_singleton.2 rfl)
    have hr : ∀ t : Tracer, runAct (.op g hit body false) t = .ok { t with active := false } := by
      intro t
      unfold runAct
      cases hit with
      | true => rfl
      | false =>
        rw [h1]
        dsimp only
        rw [leaveOp_ok (h2.stack.trans e1)]
        rfl
    constructor
    · intro t ha
      rw [hr]
      obtain ⟨_, _, _, _, _, _⟩ := t
      cases ha
      rfl
    · intro t i p st ha hs hk
      unfold cutAct
      exact ⟨_, hr t, Adds.refl p _ |> fun h => ⟨h.stack, h.roots, h.edges, h.keys, h.vals⟩, rfl⟩
theorem acts_spec : ∀ (acts : List Act), calmAll acts = true →
    (∀ t : Tracer, t.active = false → runActs acts t = .ok t) ∧
    (∀ (t : Tracer) (i : Nat) (p : Fn) (st : List (Nat × Fn)), t.active = true → t.stack = (i, p) :: st → p.key ∈ t.nodes.keys →
      ∃ t', runActs acts t = .ok t' ∧ Adds p (cutAll acts).1 t t' ∧ t'.active = (cutAll acts).2)
  | [], _ => ⟨fun t _ => by unfold runActs; rfl, fun t i p st ha _ _ => ⟨t, by unfold runActs; rfl, by unfold cutAll; exact Adds.refl p t, by unfold cutAll; exact ha⟩⟩
  | a :: as, hc => by
    unfold calmAll at hc
    rw [Bool.and_eq_true] at hc
    obtain ⟨i1, i2⟩ := act_spec a hc.1
    obtain ⟨j1, j2⟩ := acts_spec as hc.2
    constructor
    · intro t ha
      unfold runActs
      rw [i1 t ha]
      exact j1 t ha
    · intro t i p st ha hs hk
      obtain ⟨t1, h1, h2, h3⟩ := i2 t i p st ha hs hk
      unfold runActs cutAll
      rw [h1]
      dsimp only
      cases hg : (cutAct a).2 with
      | false =>
        rw [if_neg (by simp)]
        rw [hg] at h3
        exact ⟨t1, j1 t1 h3, h2, h3.trans hg.symm⟩
      | true =>
        rw [if_pos rfl]
        rw [hg] at h3
        obtain ⟨t2, g1, g2, g3⟩ := j2 t1 i p st h3 (h2.stack.trans hs) ((h2.keys p.key).2 (.inl hk))
        exact ⟨t2, g1, h2.trans g2, g3⟩
end

mutual
theorem cut_plain_act : ∀ a : Act, plainAct a = true → cutAct a = ([a], true)
  | .glob _ _ _, _ => by unfold cutAct; rfl
  | .call g body exc, h => by
    unfold plainAct at h
    unfold cutAct
    rw [cut_plain body h]
  | .op _ _ _ _, h => by unfold plainAct at h; cases h
theorem cut_plain : ∀ as : List Act, plainAll as = true → cutAll as = (as, true)
  | [], _ => by unfold cutAll; rfl
  | a :: as, h => by
    unfold plainAll at h
    rw [Bool.and_eq_true] at h
    unfold cutAll
    rw [cut_plain_act a h.1, cut_plain as h.2]
    rfl
end

/-! ### C38 -/

/-- What the trace of an op call holds, if no function called in it is left with an exception: exactly the dependencies used
before the first call of another op. (The self-loop of the op comes from registering it twice.) -/
theorem C38_traced_until_nested_op (f : Fn) (body : List Act) (hc : calmAll body = true) :
    ∃ t, traceOp f body = .ok t ∧ t.roots = [f.key] ∧
      (∀ x y, (x, y) ∈ t.edges ↔ (x = f.key ∧ y = f.key) ∨ Uses f (cutAll body).1 x y) ∧
      (∀ k, k ∈ t.nodes.keys ↔ k = f.key ∨ ∃ x, Uses f (cutAll body).1 x k) ∧
      (∀ k n, t.nodes.get? k = some n → (k = f.key ∧ n = .callable none f.runtime) ∨ Seen f (cutAll body).1 k n) := by
  obtain ⟨e1, e2, e3, e4, e5, e6⟩ := enterOp_spec f
  obtain ⟨t, h1, h2, _⟩ := (acts_spec body hc).2 (enterOp f) 1 f _ e2 e1 (by rw [e5]; exact List.mem_singleton.2 rfl)
  unfold traceOp
  rw [h1]
  dsimp only
  rw [leaveOp_ok (h2.stack.trans e1)]
  refine ⟨_, rfl, h2.roots.trans e3, fun x y => ?_, fun k => ?_, fun k n hk => ?_⟩
  · rw [h2.edges, e4, List.mem_singleton, Prod.mk.injEq]
  · rw [h2.keys, e5, List.mem_singleton]
  · exact (h2.vals k n hk).imp (e6 k n) id

/-- C38 (partial: for op calls in which no other op is called and no function is left with an exception): the trace contains
exactly the tracked functions that ran and the global variables that were read, with an edge from each user. Missing: nested
ops and exceptions, where it is false (`C38_refuted_nested`, `C38_refuted_exception`). -/
theorem C38_trace_exact_partial (f : Fn) (body : List Act) (hc : calmAll body = true) (hp : plainAll body = true) :
    ∃ t, traceOp f body = .ok t ∧ t.roots = [f.key] ∧
      (∀ x y, (x, y) ∈ t.edges ↔ (x = f.key ∧ y = f.key) ∨ Uses f body x y) ∧
      (∀ k, k ∈ t.nodes.keys ↔ k = f.key ∨ ∃ x, Uses f body x k) ∧
      (∀ k n, t.nodes.get? k = some n → (k = f.key ∧ n = .callable none f.runtime) ∨ Seen f body k n) := by
  have h := C38_traced_until_nested_op f body hc
  rw [cut_plain body hp] at h
  exact h

/-! ### concrete cases -/

def fnF : Fn := ⟨"m", "f", "bf"⟩
def fnG : Fn := ⟨"m", "g", "bg"⟩
def fnH : Fn := ⟨"n", "h", "bh"⟩

/-- `f` calls `g`, which reads `X` and calls `h`, which calls `g`; then `f` reads `Y`. -/
def bodyPlain : List Act := [.call fnG [.glob "X" "1" "1", .call fnH [.call fnG [] false] false] false, .glob "Y" "2" "2"]

example : calmAll bodyPlain = true ∧ plainAll bodyPlain = true := by decide

example : (traceOp fnF bodyPlain).map (fun t => (t.edges, t.nodes.keys)) =
    .ok ([(("m", "f"), ("m", "f")), (("m", "f"), ("m", "g")), (("m", "g"), ("m", "X")), (("m", "g"), ("n", "h")), (("n", "h"), ("m", "g")),
      (("m", "f"), ("m", "Y"))], [("m", "f"), ("m", "g"), ("m", "X"), ("n", "h"), ("m", "Y")]) := by decide

/-- `f` calls the op `h` (found in the storage or not), then the tracked function `g`. -/
def bodyNested (hit : Bool) : List Act := [.op fnH hit [] false, .call fnG [] false]

example : calmAll (bodyNested true) = true := by decide

/-- C38 is false: after a nested op call, the functions called by the outer op are missing in its trace, and so is the nested op. -/
theorem C38_refuted_nested (hit : Bool) : ∃ t, traceOp fnF (bodyNested hit) = .ok t ∧ Uses fnF (bodyNested hit) fnF.key fnG.key ∧
    t.nodes.keys = [fnF.key] := by
  refine ⟨⟨[], [(fnF.key, .callable none "bf")], [(fnF.key, fnF.key)], [fnF.key], false, 2⟩, ?_, ?_, rfl⟩
  · cases hit <;> decide
  · exact .call (body := []) (exc := false) (List.mem_cons_of_mem _ (List.mem_singleton.2 rfl))

/-- C38 is false: if `f` catches an exception of the tracked function `g`, tracing the op call fails with `AssertionError`. -/
theorem C38_refuted_exception : traceOp fnF [.call fnG [] true] = .error .assertionError := by decide

end Verif.Props
