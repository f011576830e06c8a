import Verif.Spec.SysTracer
import Verif.Props.Tracer
/-!
Proofs about the tracer based on `sys.settrace`: a run of supported frames grows the graph by exactly what the frames use, any other run switches tracing off.
-/
namespace Verif
namespace SysTracer

theorem addEdge_grows (t : SysTracer) (k k' : DKey) (n n' : TNode) (hk : k ∈ t.nodes.keys) :
    (∀ x y, (x, y) ∈ (t.addEdge k n k' n').edges ↔ (x, y) ∈ t.edges ∨ (x = k ∧ y = k')) ∧
    (∀ j, j ∈ (t.addEdge k n k' n').nodes.keys ↔ j ∈ t.nodes.keys ∨ j = k') ∧
    (∀ j m, (t.addEdge k n k' n').nodes.get? j = some m → t.nodes.get? j = some m ∨ (j = k' ∧ m = n')) := by
  unfold addEdge
  dsimp only
  have h1 : t.nodes.has k = true := Dict.has_iff.2 hk
  rw [h1]
  rw [if_pos rfl]
  refine ⟨fun x y => ?_, ?_, ?_⟩
  · rw [PySet.mem_add, Prod.mk.injEq]
    split <;> rfl
  · intro j
    split
    · rename_i h
      exact ⟨.inl, fun hj => hj.elim id (fun e => e ▸ Dict.has_iff.1 h)⟩
    · show j ∈ (t.nodes.set k' n').keys ↔ _
      rw [Dict.mem_keys_set, or_comm]
  · intro j m hj
    split at hj
    · exact .inl hj
    · change (t.nodes.set k' n').get? j = some m at hj
      rw [Dict.get?_set] at hj
      split at hj
      · exact .inr ⟨Eq.symm (by assumption), by injection hj with h; exact h.symm⟩
      · exact .inl hj

/-- the parts of the tracer that adding to the graph leaves alone -/
def Same (t t' : SysTracer) : Prop :=
  t'.strict = t.strict ∧ t'.allowMethods = t.allowMethods ∧ t'.stack = t.stack ∧ t'.roots = t.roots ∧ t'.active = t.active

theorem addEdge_same (t : SysTracer) (k k' : DKey) (n n' : TNode) : Same t (t.addEdge k n k' n') := by
  unfold addEdge addNode
  dsimp only
  split <;> split <;> exact ⟨rfl, rfl, rfl, rfl, rfl⟩

theorem addAll_same (c : SysFrame) (ns : List (DKey × TNode)) : ∀ t : SysTracer, Same t (t.addAll c ns) := by
  induction ns with
  | nil => exact fun t => ⟨rfl, rfl, rfl, rfl, rfl⟩
  | cons x ns ih =>
    intro t
    obtain ⟨a1, a2, a3, a4, a5⟩ := addEdge_same t c.key x.1 (node c) x.2
    obtain ⟨b1, b2, b3, b4, b5⟩ := ih (t.addEdge c.key (node c) x.1 x.2)
    exact ⟨b1.trans a1, b2.trans a2, b3.trans a3, b4.trans a4, b5.trans a5⟩

theorem addAll_grows (c : SysFrame) (ns : List (DKey × TNode)) : ∀ t : SysTracer, c.key ∈ t.nodes.keys →
    (∀ x y, (x, y) ∈ (t.addAll c ns).edges ↔ (x, y) ∈ t.edges ∨ (x = c.key ∧ ∃ n, (y, n) ∈ ns)) ∧
    (∀ j, j ∈ (t.addAll c ns).nodes.keys ↔ j ∈ t.nodes.keys ∨ ∃ n, (j, n) ∈ ns) ∧
    (∀ j m, (t.addAll c ns).nodes.get? j = some m → t.nodes.get? j = some m ∨ (j, m) ∈ ns) := by
  induction ns with
  | nil =>
    intro t _
    exact ⟨fun x y => by simp [addAll], fun j => by simp [addAll], fun j m h => .inl h⟩
  | cons a ns ih =>
    intro t hk
    obtain ⟨e1, e2, e3⟩ := addEdge_grows t c.key a.1 (node c) a.2 hk
    obtain ⟨f1, f2, f3⟩ := ih (t.addEdge c.key (node c) a.1 a.2) ((e2 _).2 (.inl hk))
    have hc : t.addAll c (a :: ns) = (t.addEdge c.key (node c) a.1 a.2).addAll c ns := rfl
    rw [hc]
    refine ⟨fun x y => ?_, fun j => ?_, fun j m h => ?_⟩
    · rw [f1, e1]
      constructor
      · rintro ((h | ⟨h, h'⟩) | ⟨h, n, h'⟩)
        · exact .inl h
        · exact .inr ⟨h, a.2, by rw [h']; exact List.mem_cons_self ..⟩
        · exact .inr ⟨h, n, List.mem_cons_of_mem _ h'⟩
      · rintro (h | ⟨h, n, h'⟩)
        · exact .inl (.inl h)
        · rcases List.mem_cons.1 h' with h' | h'
          · exact .inl (.inr ⟨h, by rw [← h']⟩)
          · exact .inr ⟨h, n, h'⟩
    · rw [f2, e2]
      constructor
      · rintro ((h | h) | ⟨n, h⟩)
        · exact .inl h
        · exact .inr ⟨a.2, by rw [h]; exact List.mem_cons_self ..⟩
        · exact .inr ⟨n, List.mem_cons_of_mem _ h⟩
      · rintro (h | ⟨n, h⟩)
        · exact .inl (.inl h)
        · rcases List.mem_cons.1 h with h | h
          · exact .inl (.inr (by rw [← h]))
          · exact .inr ⟨n, h⟩
    · rcases f3 j m h with h | h
      · rcases e3 j m h with h | ⟨h, h'⟩
        · exact .inl h
        · exact .inr (by rw [h, h']; exact List.mem_cons_self ..)
      · exact .inr (List.mem_cons_of_mem _ h)

/-- the nodes of the global variables -/
theorem globalNodes_ok (c : SysFrame) : ∀ gs : List SysGlobal, (∀ g ∈ gs, g.hash ≠ none) →
    ∃ ns, gs.mapM (globalNode c) = .ok ns ∧
      (∀ k n, (k, n) ∈ ns ↔ ∃ g ∈ gs, ∃ h, g.hash = some h ∧ k = (c.modul, g.name) ∧ n = .globalVar h g.repr) := by
  intro gs
  induction gs with
  | nil => intro _; exact ⟨[], rfl, fun k n => by simp⟩
  | cons g gs ih =>
    intro hg
    obtain ⟨ns, h1, h2⟩ := ih (fun g' h => hg g' (List.mem_cons_of_mem _ h))
    cases hh : g.hash with
    | none => exact absurd hh (hg g (List.mem_cons_self ..))
    | some h =>
      refine ⟨((c.modul, g.name), .globalVar h g.repr) :: ns, ?_, fun k n => ?_⟩
      · rw [List.mapM_cons, h1]
        unfold globalNode
        rw [hh]
        rfl
      · rw [List.mem_cons, h2, Prod.mk.injEq]
        constructor
        · rintro (⟨a, b⟩ | ⟨g', m, r⟩)
          · exact ⟨g, List.mem_cons_self .., h, hh, a, b⟩
          · exact ⟨g', List.mem_cons_of_mem _ m, r⟩
        · rintro ⟨g', m, h', r1, r2, r3⟩
          rcases List.mem_cons.1 m with m | m
          · subst m
            rw [hh] at r1
            injection r1 with r1
            subst r1
            exact .inl ⟨r2, r3⟩
          · exact .inr ⟨g', m, h', r1, r2, r3⟩

theorem globalNodes_error (c : SysFrame) : ∀ gs : List SysGlobal, (¬ ∀ g ∈ gs, g.hash ≠ none) → gs.mapM (globalNode c) = .error .runtimeError := by
  intro gs
  induction gs with
  | nil => intro h; exact absurd (fun g hg => absurd hg (List.not_mem_nil)) h
  | cons g gs ih =>
    intro hg
    rw [List.mapM_cons]
    cases hh : g.hash with
    | none =>
      unfold globalNode
      rw [hh]
      rfl
    | some h =>
      rw [ih (fun hall => hg (fun g' m => by
        rcases List.mem_cons.1 m with m | m
        · rw [m, hh]; exact fun h => nomatch h
        · exact hall g' m))]
      unfold globalNode
      rw [hh]
      rfl

/-- The tracer is in the function `p`. -/
structure In (strict allowMethods : Bool) (p : Option SysFrame) (t : SysTracer) : Prop where
  act : t.active = true
  str : t.strict = strict
  met : t.allowMethods = allowMethods
  top : mostRecent t.stack = p
  emp : t.stack = [] ↔ p = none
  key : ∀ c, p = some c → c.key ∈ t.nodes.keys

/-- The tracer has grown by what the frames use. -/
structure Grown (p : Option SysFrame) (rs : List SysRun) (t t' : SysTracer) : Prop where
  act : t'.active = true
  str : t'.strict = t.strict
  met : t'.allowMethods = t.allowMethods
  stk : t'.stack = t.stack
  edg : ∀ x y, (x, y) ∈ t'.edges ↔ (x, y) ∈ t.edges ∨ SysUses p rs x y
  nod : ∀ k, k ∈ t'.nodes.keys ↔ k ∈ t.nodes.keys ∨ ∃ n, SysSeen p rs k n
  val : ∀ k n, t'.nodes.get? k = some n → t.nodes.get? k = some n ∨ SysSeen p rs k n
  roo : ∀ k, k ∈ t'.roots ↔ k ∈ t.roots ∨ (p = none ∧ SysRoot rs k)

theorem sysUses_cons {p : Option SysFrame} {r : SysRun} {rs : List SysRun} {a b : DKey} :
    SysUses p (r :: rs) a b ↔ SysUses p [r] a b ∨ SysUses p rs a b := by
  constructor
  · intro h
    cases h with
    | call m h => rcases List.mem_cons.1 m with m | m
                  · exact .inl (.call (List.mem_singleton.2 m) h)
                  · exact .inr (.call m h)
    | glob m h g => rcases List.mem_cons.1 m with m | m
                    · exact .inl (.glob (List.mem_singleton.2 m) h g)
                    · exact .inr (.glob m h g)
    | anon m h g => rcases List.mem_cons.1 m with m | m
                    · exact .inl (.anon (List.mem_singleton.2 m) h g)
                    · exact .inr (.anon m h g)
    | signal m h => rcases List.mem_cons.1 m with m | m
                    · exact .inl (.signal (List.mem_singleton.2 m) h)
                    · exact .inr (.signal m h)
    | inner m h => rcases List.mem_cons.1 m with m | m
                   · exact .inl (.inner (List.mem_singleton.2 m) h)
                   · exact .inr (.inner m h)
  · have up : ∀ l : List SysRun, (∀ x ∈ l, x ∈ r :: rs) → SysUses p l a b → SysUses p (r :: rs) a b := by
      intro l hl h
      cases h with
      | call m h => exact .call (hl _ m) h
      | glob m h g => exact .glob (hl _ m) h g
      | anon m h g => exact .anon (hl _ m) h g
      | signal m h => exact .signal (hl _ m) h
      | inner m h => exact .inner (hl _ m) h
    rintro (h | h)
    · exact up _ (fun x hx => by rw [List.mem_singleton.1 hx]; exact List.mem_cons_self ..) h
    · exact up _ (fun x hx => List.mem_cons_of_mem _ hx) h

theorem sysSeen_cons {p : Option SysFrame} {r : SysRun} {rs : List SysRun} {a : DKey} {b : TNode} :
    SysSeen p (r :: rs) a b ↔ SysSeen p [r] a b ∨ SysSeen p rs a b := by
  constructor
  · intro h
    cases h with
    | call m h => rcases List.mem_cons.1 m with m | m
                  · exact .inl (.call (List.mem_singleton.2 m) h)
                  · exact .inr (.call m h)
    | glob m h g e => rcases List.mem_cons.1 m with m | m
                      · exact .inl (.glob (List.mem_singleton.2 m) h g e)
                      · exact .inr (.glob m h g e)
    | anon m h g e => rcases List.mem_cons.1 m with m | m
                      · exact .inl (.anon (List.mem_singleton.2 m) h g e)
                      · exact .inr (.anon m h g e)
    | signal m h => rcases List.mem_cons.1 m with m | m
                    · exact .inl (.signal (List.mem_singleton.2 m) h)
                    · exact .inr (.signal m h)
    | inner m h => rcases List.mem_cons.1 m with m | m
                   · exact .inl (.inner (List.mem_singleton.2 m) h)
                   · exact .inr (.inner m h)
  · have up : ∀ l : List SysRun, (∀ x ∈ l, x ∈ r :: rs) → SysSeen p l a b → SysSeen p (r :: rs) a b := by
      intro l hl h
      cases h with
      | call m h => exact .call (hl _ m) h
      | glob m h g e => exact .glob (hl _ m) h g e
      | anon m h g e => exact .anon (hl _ m) h g e
      | signal m h => exact .signal (hl _ m) h
      | inner m h => exact .inner (hl _ m) h
    rintro (h | h)
    · exact up _ (fun x hx => by rw [List.mem_singleton.1 hx]; exact List.mem_cons_self ..) h
    · exact up _ (fun x hx => List.mem_cons_of_mem _ hx) h

theorem sysRoot_cons {r : SysRun} {rs : List SysRun} {k : DKey} : SysRoot (r :: rs) k ↔ SysRoot [r] k ∨ SysRoot rs k := by
  constructor
  · intro h
    cases h with
    | call m h => rcases List.mem_cons.1 m with m | m
                  · exact .inl (.call (List.mem_singleton.2 m) h)
                  · exact .inr (.call m h)
    | inner m h h' => rcases List.mem_cons.1 m with m | m
                      · exact .inl (.inner (List.mem_singleton.2 m) h h')
                      · exact .inr (.inner m h h')
  · rintro (h | h)
    · cases h with
      | call m h => exact .call (by rw [List.mem_singleton.1 m]; exact List.mem_cons_self ..) h
      | inner m h h' => exact .inner (by rw [List.mem_singleton.1 m]; exact List.mem_cons_self ..) h h'
    · cases h with
      | call m h => exact .call (List.mem_cons_of_mem _ m) h
      | inner m h h' => exact .inner (List.mem_cons_of_mem _ m) h h'

theorem sysUses_nil {p : Option SysFrame} {a b : DKey} : ¬ SysUses p [] a b := by
  intro h
  cases h with
  | call m _ => exact nomatch m
  | glob m _ _ => exact nomatch m
  | anon m _ _ => exact nomatch m
  | signal m _ => exact nomatch m
  | inner m _ => exact nomatch m

theorem sysSeen_nil {p : Option SysFrame} {a : DKey} {n : TNode} : ¬ SysSeen p [] a n := by
  intro h
  cases h with
  | call m _ => exact nomatch m
  | glob m _ _ _ => exact nomatch m
  | anon m _ _ _ => exact nomatch m
  | signal m _ => exact nomatch m
  | inner m _ => exact nomatch m

theorem sysRoot_nil {k : DKey} : ¬ SysRoot [] k := by
  intro h
  cases h with
  | call m _ => exact nomatch m
  | inner m _ _ => exact nomatch m

theorem grown_nil (p : Option SysFrame) (t : SysTracer) (h : t.active = true) : Grown p [] t t where
  act := h
  str := rfl
  met := rfl
  stk := rfl
  edg _ _ := ⟨.inl, fun h => h.elim id (fun h => absurd h sysUses_nil)⟩
  nod _ := ⟨.inl, fun h => h.elim id (fun ⟨_, h⟩ => absurd h sysSeen_nil)⟩
  val _ _ h := .inl h
  roo _ := ⟨.inl, fun h => h.elim id (fun ⟨_, h⟩ => absurd h sysRoot_nil)⟩

theorem Grown.cons {p : Option SysFrame} {r : SysRun} {rs : List SysRun} {t t1 t2 : SysTracer} (h1 : Grown p [r] t t1) (h2 : Grown p rs t1 t2) :
    Grown p (r :: rs) t t2 where
  act := h2.act
  str := h2.str.trans h1.str
  met := h2.met.trans h1.met
  stk := h2.stk.trans h1.stk
  edg x y := by
    rw [h2.edg, h1.edg]
    exact or_assoc.trans (or_congr_right sysUses_cons.symm)
  nod k := by
    rw [h2.nod, h1.nod, or_assoc]
    constructor
    · rintro (h | ⟨n, h⟩ | ⟨n, h⟩)
      · exact .inl h
      · exact .inr ⟨n, sysSeen_cons.2 (.inl h)⟩
      · exact .inr ⟨n, sysSeen_cons.2 (.inr h)⟩
    · rintro (h | ⟨n, h⟩)
      · exact .inl h
      · rcases sysSeen_cons.1 h with h | h
        · exact .inr (.inl ⟨n, h⟩)
        · exact .inr (.inr ⟨n, h⟩)
  val k n h := by
    rcases h2.val k n h with h | h
    · rcases h1.val k n h with h | h
      · exact .inl h
      · exact .inr (sysSeen_cons.2 (.inl h))
    · exact .inr (sysSeen_cons.2 (.inr h))
  roo k := by
    rw [h2.roo, h1.roo, or_assoc, ← and_or_left]
    exact or_congr_right (and_congr_right fun _ => sysRoot_cons.symm)

theorem In.grown {strict allowMethods : Bool} {p : Option SysFrame} {rs : List SysRun} {t t' : SysTracer} (h : In strict allowMethods p t) (g : Grown p rs t t') :
    In strict allowMethods p t' where
  act := g.act
  str := g.str.trans h.str
  met := g.met.trans h.met
  top := by rw [g.stk]; exact h.top
  emp := by rw [g.stk]; exact h.emp
  key c hc := (g.nod _).2 (.inl (h.key c hc))

/-! ### one frame -/

theorem sysUses_frame {p : Option SysFrame} {c : SysFrame} {body : List SysRun} {a b : DKey} :
    SysUses p [.frame c body] a b ↔
      (c.Tracked ∧ ∃ q, p = some q ∧ a = q.key ∧ b = c.key) ∨ (c.Tracked ∧ ∃ g ∈ c.globals, a = c.key ∧ b = (c.modul, g.name)) ∨
      (c.Anonymous ∧ ∃ g ∈ c.globals, ∃ q, p = some q ∧ a = q.key ∧ b = (c.modul, g.name)) ∨
      (∃ d q, c.Signal d ∧ p = some q ∧ a = q.key ∧ b = (c.modul, d.1)) ∨ SysUses (c.under p) body a b := by
  have eqs : ∀ {c' body'}, SysRun.frame c' body' ∈ [SysRun.frame c body] → c' = c ∧ body' = body := by
    intro c' body' m
    have := List.mem_singleton.1 m
    injection this with h1 h2
    exact ⟨h1, h2⟩
  have mem : SysRun.frame c body ∈ [SysRun.frame c body] := List.mem_singleton.2 rfl
  constructor
  · intro h
    cases h with
    | call m h => obtain ⟨rfl, rfl⟩ := eqs m; exact .inl ⟨h, _, rfl, rfl, rfl⟩
    | glob m h g => obtain ⟨rfl, rfl⟩ := eqs m; exact .inr (.inl ⟨h, _, g, rfl, rfl⟩)
    | anon m h g => obtain ⟨rfl, rfl⟩ := eqs m; exact .inr (.inr (.inl ⟨h, _, g, _, rfl, rfl, rfl⟩))
    | signal m h => obtain ⟨rfl, rfl⟩ := eqs m; exact .inr (.inr (.inr (.inl ⟨_, _, h, rfl, rfl, rfl⟩)))
    | inner m h => obtain ⟨rfl, rfl⟩ := eqs m; exact .inr (.inr (.inr (.inr h)))
  · rintro (⟨h, q, rfl, rfl, rfl⟩ | ⟨h, g, m, rfl, rfl⟩ | ⟨h, g, m, q, rfl, rfl, rfl⟩ | ⟨d, q, h, rfl, rfl, rfl⟩ | h)
    · exact .call mem h
    · exact .glob mem h m
    · exact .anon mem h m
    · exact .signal mem h
    · exact .inner mem h

theorem sysSeen_frame {p : Option SysFrame} {c : SysFrame} {body : List SysRun} {k : DKey} {n : TNode} :
    SysSeen p [.frame c body] k n ↔
      (c.Tracked ∧ k = c.key ∧ n = .callable none c.runtime) ∨
      (c.Tracked ∧ ∃ g ∈ c.globals, ∃ h, g.hash = some h ∧ k = (c.modul, g.name) ∧ n = .globalVar h g.repr) ∨
      (c.Anonymous ∧ p ≠ none ∧ ∃ g ∈ c.globals, ∃ h, g.hash = some h ∧ k = (c.modul, g.name) ∧ n = .globalVar h g.repr) ∨
      (∃ d, c.Signal d ∧ p ≠ none ∧ k = (c.modul, d.1) ∧ n = d.2) ∨ SysSeen (c.under p) body k n := by
  have eqs : ∀ {c' body'}, SysRun.frame c' body' ∈ [SysRun.frame c body] → c' = c ∧ body' = body := by
    intro c' body' m
    have := List.mem_singleton.1 m
    injection this with h1 h2
    exact ⟨h1, h2⟩
  have mem : SysRun.frame c body ∈ [SysRun.frame c body] := List.mem_singleton.2 rfl
  constructor
  · intro h
    cases h with
    | call m h => obtain ⟨rfl, rfl⟩ := eqs m; exact .inl ⟨h, rfl, rfl⟩
    | glob m h g e => obtain ⟨rfl, rfl⟩ := eqs m; exact .inr (.inl ⟨h, _, g, _, e, rfl, rfl⟩)
    | anon m h g e => obtain ⟨rfl, rfl⟩ := eqs m; exact .inr (.inr (.inl ⟨h, (fun h => nomatch h), _, g, _, e, rfl, rfl⟩))
    | signal m h => obtain ⟨rfl, rfl⟩ := eqs m; exact .inr (.inr (.inr (.inl ⟨_, h, (fun h => nomatch h), rfl, rfl⟩)))
    | inner m h => obtain ⟨rfl, rfl⟩ := eqs m; exact .inr (.inr (.inr (.inr h)))
  · rintro (⟨h, rfl, rfl⟩ | ⟨h, g, m, v, e, rfl, rfl⟩ | ⟨h, hp, g, m, v, e, rfl, rfl⟩ | ⟨d, h, hp, rfl, rfl⟩ | h)
    · exact .call mem h
    · exact .glob mem h m e
    · obtain ⟨q, rfl⟩ := Option.ne_none_iff_exists'.1 hp
      exact .anon mem h m e
    · obtain ⟨q, rfl⟩ := Option.ne_none_iff_exists'.1 hp
      exact .signal mem h
    · exact .inner mem h

theorem sysRoot_frame {c : SysFrame} {body : List SysRun} {k : DKey} :
    SysRoot [.frame c body] k ↔ (c.Tracked ∧ k = c.key) ∨ (¬ c.Tracked ∧ SysRoot body k) := by
  have eqs : ∀ {c' body'}, SysRun.frame c' body' ∈ [SysRun.frame c body] → c' = c ∧ body' = body := by
    intro c' body' m
    have := List.mem_singleton.1 m
    injection this with h1 h2
    exact ⟨h1, h2⟩
  have mem : SysRun.frame c body ∈ [SysRun.frame c body] := List.mem_singleton.2 rfl
  constructor
  · intro h
    cases h with
    | call m h => obtain ⟨rfl, rfl⟩ := eqs m; exact .inl ⟨h, rfl⟩
    | inner m h h' => obtain ⟨rfl, rfl⟩ := eqs m; exact .inr ⟨h, h'⟩
  · rintro (⟨h, rfl⟩ | ⟨h, h'⟩)
    · exact .call mem h
    · exact .inner mem h h'

theorem under_none {c : SysFrame} {p : Option SysFrame} : c.under p = none ↔ p = none ∧ ¬ c.Tracked := by
  unfold SysFrame.under
  split <;> rename_i h
  · exact ⟨fun h => (nomatch h), fun ⟨_, h'⟩ => absurd h h'⟩
  · exact ⟨fun e => ⟨e, h⟩, fun e => e.1⟩

/-- a frame, then what it runs, then back -/
theorem Grown.frame {p : Option SysFrame} {c : SysFrame} {body : List SysRun} {t t1 t2 : SysTracer}
    (h1 : Grown p [.frame c []] t { t1 with stack := t.stack }) (h2 : Grown (c.under p) body t1 t2) :
    Grown p [.frame c body] t { t2 with stack := t.stack } where
  act := h2.act
  str := h2.str.trans h1.str
  met := h2.met.trans h1.met
  stk := rfl
  edg x y := by
    have e1 := h1.edg x y
    have e2 := h2.edg x y
    rw [sysUses_frame] at e1 ⊢
    have hn := sysUses_nil (p := c.under p) (a := x) (b := y)
    show (x, y) ∈ t2.edges ↔ _
    change (x, y) ∈ t1.edges ↔ _ at e1
    rw [e2, e1]
    simp only [hn, or_false, or_assoc]
  nod k := by
    have e1 := h1.nod k
    have e2 := h2.nod k
    show k ∈ t2.nodes.keys ↔ _
    change k ∈ t1.nodes.keys ↔ _ at e1
    rw [e2, e1, or_assoc, ← exists_or]
    refine or_congr_right (exists_congr fun n => ?_)
    have hn := sysSeen_nil (p := c.under p) (a := k) (n := n)
    rw [sysSeen_frame, sysSeen_frame]
    simp only [hn, or_false, or_assoc]
  val k n h := by
    rcases h2.val k n h with h | h
    · rcases h1.val k n h with h | h
      · exact .inl h
      · right
        rw [sysSeen_frame] at h ⊢
        have hn := sysSeen_nil (p := c.under p) (a := k) (n := n)
        simp only [hn, or_false] at h
        rcases h with h | h | h | h
        · exact .inl h
        · exact .inr (.inl h)
        · exact .inr (.inr (.inl h))
        · exact .inr (.inr (.inr (.inl h)))
    · exact .inr (sysSeen_frame.2 (.inr (.inr (.inr (.inr h)))))
  roo k := by
    have e1 := h1.roo k
    have e2 := h2.roo k
    show k ∈ t2.roots ↔ _
    change k ∈ t1.roots ↔ _ at e1
    rw [e2, e1, or_assoc, under_none, sysRoot_frame, sysRoot_frame]
    have hn := sysRoot_nil (k := k)
    simp only [hn, and_false, or_false]
    constructor
    · rintro (h | ⟨hp, h⟩ | ⟨⟨hp, h⟩, h'⟩)
      · exact .inl h
      · exact .inr ⟨hp, .inl h⟩
      · exact .inr ⟨hp, .inr ⟨h, h'⟩⟩
    · rintro (h | ⟨hp, h | ⟨h, h'⟩⟩)
      · exact .inl h
      · exact .inr (.inl ⟨hp, h⟩)
      · exact .inr (.inr ⟨⟨hp, h⟩, h'⟩)

/-- the frame adds nothing -/
theorem Grown.quiet {p : Option SysFrame} {c : SysFrame} {t : SysTracer} (ha : t.active = true) (h1 : ¬ c.Tracked) (h2 : ¬ c.Anonymous)
    (h3 : ∀ d, c.Signal d → p = none) : Grown p [.frame c []] t { t with stack := t.stack } where
  act := ha
  str := rfl
  met := rfl
  stk := rfl
  edg x y := by
    refine ⟨.inl, fun h => h.elim id fun h => ?_⟩
    rw [sysUses_frame] at h
    rcases h with h | h | h | ⟨d, q, h, h', _⟩ | h
    · exact absurd h.1 h1
    · exact absurd h.1 h1
    · exact absurd h.1 h2
    · rw [h3 d h] at h'; exact nomatch h'
    · exact absurd h sysUses_nil
  nod k := by
    refine ⟨.inl, fun h => h.elim id fun ⟨n, h⟩ => ?_⟩
    rw [sysSeen_frame] at h
    rcases h with h | h | h | ⟨d, h, h', _⟩ | h
    · exact absurd h.1 h1
    · exact absurd h.1 h1
    · exact absurd h.1 h2
    · exact absurd (h3 d h) h'
    · exact absurd h sysSeen_nil
  val k n h := .inl h
  roo k := by
    refine ⟨.inl, fun h => h.elim id fun ⟨_, h⟩ => ?_⟩
    rw [sysRoot_frame] at h
    rcases h with h | h
    · exact absurd h.1 h1
    · exact absurd h.2 sysRoot_nil

theorem under_not {c : SysFrame} {p : Option SysFrame} (h : ¬ c.Tracked) : c.under p = p := if_neg h

/-- what is on the stack while the frame runs -/
def Pushed (c : SysFrame) (x : SysFrame ⊕ String) : Prop := (c.Anonymous ∧ x = .inr c.name) ∨ (c.Tracked ∧ x = .inl c)

/-- A supported frame is entered. -/
theorem onCall_ok {strict allowMethods : Bool} {p : Option SysFrame} {t : SysTracer} (hin : In strict allowMethods p t) (c : SysFrame)
    (hs : c.Supported strict allowMethods p) :
    ∃ t1 on, t.onCall c = .ok (t1, on) ∧ Grown p [.frame c []] t { t1 with stack := t.stack } ∧ In strict allowMethods (c.under p) t1 ∧
      ((on = false ∧ t1.stack = t.stack) ∨ (on = true ∧ ∃ x, t1.stack = x :: t.stack ∧ Pushed c x)) := by
  unfold onCall
  by_cases hout : c.place = .outside
  · rw [if_pos hout]
    have h1 : ¬ c.Tracked := fun h => by rw [h.1] at hout; exact nomatch hout
    refine ⟨t, false, rfl, .quiet hin.act h1 (fun h => ?_) (fun d h => absurd hout h.1), ?_, .inl ⟨rfl, rfl⟩⟩
    · rw [h.1] at hout; exact nomatch hout
    · rw [under_not h1]; exact hin
  · rw [if_neg hout]
    by_cases hleaf : c.name = leafSignal
    · rw [if_pos hleaf]
      have h1 : ¬ c.Tracked := fun h => h.2.1 hleaf
      have h2 : ¬ c.Anonymous := fun h => by
        have := h.2; rw [hleaf] at this; exact absurd this (by decide)
      have hd : c.data ≠ none := by
        rcases hs with h | h | h | h
        · exact absurd h hout
        · exact h.2
        · exact absurd hleaf h.1
        · exact absurd hleaf h.1
      obtain ⟨d, hd⟩ := Option.ne_none_iff_exists'.1 hd
      rw [hd, hin.top]
      cases p with
      | none =>
        refine ⟨t, false, rfl, .quiet hin.act h1 h2 (fun _ _ => rfl), ?_, .inl ⟨rfl, rfl⟩⟩
        rw [under_not h1]; exact hin
      | some q =>
        have hk := hin.key q rfl
        obtain ⟨e1, e2, e3⟩ := addEdge_grows t q.key (c.modul, d.1) (node q) d.2 hk
        obtain ⟨s1, s2, s3, s4, s5⟩ := addEdge_same t q.key (c.modul, d.1) (node q) d.2
        have hsig : c.Signal d := ⟨hout, hleaf, hd⟩
        have hsig' : ∀ d', c.Signal d' → d' = d := fun d' h => by
          have := h.2.2; rw [hd] at this; injection this with this; exact this.symm
        refine ⟨_, false, rfl, ⟨s5.trans hin.act, s1, s2, rfl, fun x y => ?_, fun k => ?_, fun k n h => ?_, fun k => ?_⟩, ?_, .inl ⟨rfl, s3⟩⟩
        · show (x, y) ∈ (t.addEdge q.key (node q) (c.modul, d.1) d.2).edges ↔ _
          rw [e1, sysUses_frame]
          refine or_congr_right ⟨fun ⟨h, h'⟩ => .inr (.inr (.inr (.inl ⟨d, q, hsig, rfl, h, h'⟩))), ?_⟩
          rintro (h | h | h | ⟨d', q', h, hq, ha, hb⟩ | h)
          · exact absurd h.1 h1
          · exact absurd h.1 h1
          · exact absurd h.1 h2
          · injection hq with hq
            rw [hsig' d' h] at hb
            exact ⟨by rw [ha, hq], hb⟩
          · exact absurd h sysUses_nil
        · show k ∈ (t.addEdge q.key (node q) (c.modul, d.1) d.2).nodes.keys ↔ _
          rw [e2]
          refine or_congr_right ⟨fun h => ⟨d.2, sysSeen_frame.2 (.inr (.inr (.inr (.inl ⟨d, hsig, (fun h => nomatch h), h, rfl⟩))))⟩, fun ⟨n, h⟩ => ?_⟩
          rw [sysSeen_frame] at h
          rcases h with h | h | h | ⟨d', h, _, ha, _⟩ | h
          · exact absurd h.1 h1
          · exact absurd h.1 h1
          · exact absurd h.1 h2
          · rw [ha, hsig' d' h]
          · exact absurd h sysSeen_nil
        · rcases e3 k n h with h | ⟨h, h'⟩
          · exact .inl h
          · exact .inr (sysSeen_frame.2 (.inr (.inr (.inr (.inl ⟨d, hsig, (fun h => nomatch h), h, h'⟩)))))
        · show k ∈ (t.addEdge q.key (node q) (c.modul, d.1) d.2).roots ↔ _
          rw [s4]
          exact ⟨.inl, fun h => h.elim id (fun h => nomatch h.1)⟩
        · rw [under_not h1]
          exact ⟨s5.trans hin.act, s1.trans hin.str, s2.trans hin.met, by rw [s3]; exact hin.top, by rw [s3]; exact hin.emp, fun c' h => (e2 _).2 (.inl (hin.key c' h))⟩
    · rw [if_neg hleaf]
      have nosig : ∀ d, ¬ c.Signal d := fun d h => hleaf h.2.1
      by_cases hman : c.place = .mandala
      · rw [if_pos hman]
        have h1 : ¬ c.Tracked := fun h => by rw [h.1] at hman; exact nomatch hman
        refine ⟨t, false, rfl, .quiet hin.act h1 (fun h => ?_) (fun d h => absurd h (nosig d)), ?_, .inl ⟨rfl, rfl⟩⟩
        · rw [h.1] at hman; exact nomatch hman
        · rw [under_not h1]; exact hin
      · rw [if_neg hman]
        obtain ⟨hu, hmeth, hglob, hanon, hclo⟩ : c.place = .user ∧ ('.' ∈ c.qual.toList → allowMethods = true) ∧ (∀ g ∈ c.globals, g.hash ≠ none) ∧
            (c.name ∈ anonymous → p ≠ none) ∧ (c.name ∉ anonymous → strict = true → c.closure = false) := by
          rcases hs with h | h | h | h
          · exact absurd h hout
          · exact absurd h.1 hleaf
          · exact absurd h.2 hman
          · exact h.2
        rw [if_neg (fun h => by have := hmeth h.1; rw [← hin.met, h.2] at this; exact nomatch this)]
        rw [if_neg (fun h => by have := hclo h.2.1 (hin.str ▸ h.2.2); rw [this] at h; exact nomatch h.1)]
        obtain ⟨ns, hns, hmem⟩ := globalNodes_ok c c.globals hglob
        rw [hns]
        by_cases hskip : c.name ∈ skipFrames
        · have h1 : ¬ c.Tracked := fun h => h.2.2 hskip
          have h2 : c.Anonymous := ⟨hu, hskip⟩
          obtain ⟨q, rfl⟩ := Option.ne_none_iff_exists'.1 (hanon hskip)
          have hk := hin.key q rfl
          obtain ⟨e1, e2, e3⟩ := addAll_grows q ns t hk
          obtain ⟨s1, s2, s3, s4, s5⟩ := addAll_same q ns t
          refine ⟨{ t.addAll q ns with stack := .inr c.name :: t.stack }, true, ?_, ⟨s5.trans hin.act, s1, s2, rfl, fun x y => ?_, fun k => ?_, fun k n h => ?_, fun k => ?_⟩, ?_,
            .inr ⟨rfl, _, rfl, .inl ⟨h2, rfl⟩⟩⟩
          · show (if c.name ∈ skipFrames then _ else _) = _
            rw [if_pos hskip, hin.top]
          · show (x, y) ∈ (t.addAll q ns).edges ↔ _
            rw [e1, sysUses_frame]
            constructor
            · rintro (h | ⟨h, n, h'⟩)
              · exact .inl h
              · obtain ⟨g, m, v, _, hk, _⟩ := (hmem _ _).1 h'
                exact .inr (.inr (.inr (.inl ⟨h2, g, m, q, rfl, h, hk⟩)))
            · rintro (h | h | h | ⟨_, g, m, q', hq, ha, hb⟩ | ⟨d, _, h, _⟩ | h)
              · exact .inl h
              · exact absurd h.1 h1
              · exact absurd h.1 h1
              · injection hq with hq
                obtain ⟨v, hv⟩ := Option.ne_none_iff_exists'.1 (hglob g m)
                exact .inr ⟨by rw [ha, hq], _, (hmem _ _).2 ⟨g, m, v, hv, hb, rfl⟩⟩
              · exact absurd h (nosig d)
              · exact absurd h sysUses_nil
          · show k ∈ (t.addAll q ns).nodes.keys ↔ _
            rw [e2]
            constructor
            · rintro (h | ⟨n, h⟩)
              · exact .inl h
              · exact .inr ⟨n, sysSeen_frame.2 (.inr (.inr (.inl ⟨h2, (fun h => nomatch h), (hmem _ _).1 h⟩)))⟩
            · rintro (h | ⟨n, h⟩)
              · exact .inl h
              · rw [sysSeen_frame] at h
                rcases h with h | h | h | ⟨d, h, _⟩ | h
                · exact absurd h.1 h1
                · exact absurd h.1 h1
                · exact .inr ⟨n, (hmem _ _).2 h.2.2⟩
                · exact absurd h (nosig d)
                · exact absurd h sysSeen_nil
          · rcases e3 k n h with h | h
            · exact .inl h
            · exact .inr (sysSeen_frame.2 (.inr (.inr (.inl ⟨h2, (fun h => nomatch h), (hmem _ _).1 h⟩))))
          · show k ∈ (t.addAll q ns).roots ↔ _
            rw [s4]
            exact ⟨.inl, fun h => h.elim id (fun h => nomatch h.1)⟩
          · rw [under_not h1]
            exact ⟨s5.trans hin.act, s1.trans hin.str, s2.trans hin.met, hin.top, ⟨fun h => (nomatch h), fun h => (nomatch h)⟩, fun c' h => (e2 _).2 (.inl (hin.key c' h))⟩
        · have h1 : c.Tracked := ⟨hu, hleaf, hskip⟩
          have h2 : ¬ c.Anonymous := fun h => hskip h.2
          have hk : c.key ∈ (t.addNode c.key (node c)).nodes.keys := Dict.mem_keys_set.2 (.inl rfl)
          obtain ⟨e1, e2, e3⟩ := addAll_grows c ns (t.addNode c.key (node c)) hk
          obtain ⟨s1, s2, s3, s4, s5⟩ := addAll_same c ns (t.addNode c.key (node c))
          have hnod : ∀ k, k ∈ ((t.addNode c.key (node c)).addAll c ns).nodes.keys ↔ k ∈ t.nodes.keys ∨ ∃ n, SysSeen p [.frame c []] k n := by
            intro k
            rw [e2]
            show k ∈ (t.nodes.set c.key (node c)).keys ∨ _ ↔ _
            rw [Dict.mem_keys_set]
            constructor
            · rintro ((h | h) | ⟨n, h⟩)
              · exact .inr ⟨_, sysSeen_frame.2 (.inl ⟨h1, h, rfl⟩)⟩
              · exact .inl h
              · exact .inr ⟨n, sysSeen_frame.2 (.inr (.inl ⟨h1, (hmem _ _).1 h⟩))⟩
            · rintro (h | ⟨n, h⟩)
              · exact .inl (.inr h)
              · rw [sysSeen_frame] at h
                rcases h with h | h | h | ⟨d, h, _⟩ | h
                · exact .inl (.inl h.2.1)
                · exact .inr ⟨n, (hmem _ _).2 h.2⟩
                · exact absurd h.1 h2
                · exact absurd h (nosig d)
                · exact absurd h sysSeen_nil
          have hval : ∀ k n, ((t.addNode c.key (node c)).addAll c ns).nodes.get? k = some n → t.nodes.get? k = some n ∨ SysSeen p [.frame c []] k n := by
            intro k n h
            rcases e3 k n h with h | h
            · change (t.nodes.set c.key (node c)).get? k = some n at h
              rw [Dict.get?_set] at h
              split at h
              · rename_i hkk
                injection h with h
                exact .inr (sysSeen_frame.2 (.inl ⟨h1, hkk.symm, h.symm⟩))
              · exact .inl h
            · exact .inr (sysSeen_frame.2 (.inr (.inl ⟨h1, (hmem _ _).1 h⟩)))
          have hund : c.under p = some c := if_pos h1
          have hglb : ∀ x y, (x, y) ∈ ((t.addNode c.key (node c)).addAll c ns).edges ↔ (x, y) ∈ t.edges ∨ ∃ g ∈ c.globals, x = c.key ∧ y = (c.modul, g.name) := by
            intro x y
            rw [e1]
            refine or_congr_right ⟨fun ⟨h, n, h'⟩ => ?_, fun ⟨g, m, ha, hb⟩ => ?_⟩
            · obtain ⟨g, m, v, _, hk, _⟩ := (hmem _ _).1 h'
              exact ⟨g, m, h, hk⟩
            · obtain ⟨v, hv⟩ := Option.ne_none_iff_exists'.1 (hglob g m)
              exact ⟨ha, _, (hmem _ _).2 ⟨g, m, v, hv, hb, rfl⟩⟩
          cases p with
          | none =>
            have hemp : t.stack = [] := hin.emp.2 rfl
            refine ⟨{ (t.addNode c.key (node c)).addAll c ns with stack := .inl c :: t.stack, roots := if t.stack = [] then PySet.add ((t.addNode c.key (node c)).addAll c ns).roots c.key else ((t.addNode c.key (node c)).addAll c ns).roots }, true, ?_,
              ⟨s5.trans hin.act, s1, s2, rfl, fun x y => ?_, hnod, hval, fun k => ?_⟩, ?_, .inr ⟨rfl, _, rfl, .inr ⟨h1, rfl⟩⟩⟩
            · show (if c.name ∈ skipFrames then _ else _) = _
              rw [if_neg hskip, hin.top]
            · show (x, y) ∈ ((t.addNode c.key (node c)).addAll c ns).edges ↔ _
              rw [hglb, sysUses_frame]
              refine or_congr_right ⟨fun h => .inr (.inl ⟨h1, h⟩), ?_⟩
              rintro (⟨_, _, h, _⟩ | h | h | ⟨d, _, h, _⟩ | h)
              · exact nomatch h
              · exact h.2
              · exact absurd h.1 h2
              · exact absurd h (nosig d)
              · exact absurd h sysUses_nil
            · show k ∈ (if t.stack = [] then PySet.add ((t.addNode c.key (node c)).addAll c ns).roots c.key else ((t.addNode c.key (node c)).addAll c ns).roots) ↔ _
              rw [if_pos hemp, PySet.mem_add, s4, sysRoot_frame]
              show k ∈ t.roots ∨ _ ↔ _
              refine or_congr_right ⟨fun h => ⟨rfl, .inl ⟨h1, h⟩⟩, fun ⟨_, h⟩ => ?_⟩
              rcases h with h | h
              · exact h.2
              · exact absurd h1 h.1
            · rw [hund]
              exact ⟨s5.trans hin.act, s1.trans hin.str, s2.trans hin.met, rfl, ⟨fun h => (nomatch h), fun h => (nomatch h)⟩, fun c' h => by
                injection h with h; rw [← h]; exact (e2 _).2 (.inl hk)⟩
          | some q =>
            have hq : q.key ∈ ((t.addNode c.key (node c)).addAll c ns).nodes.keys := (hnod _).2 (.inl (hin.key q rfl))
            obtain ⟨f1, f2, f3⟩ := addEdge_grows ((t.addNode c.key (node c)).addAll c ns) q.key c.key (node q) (node c) hq
            obtain ⟨r1, r2, r3, r4, r5⟩ := addEdge_same ((t.addNode c.key (node c)).addAll c ns) q.key c.key (node q) (node c)
            have hne : t.stack ≠ [] := fun h => nomatch hin.emp.1 h
            refine ⟨{ ((t.addNode c.key (node c)).addAll c ns).addEdge q.key (node q) c.key (node c) with stack := .inl c :: t.stack, roots := if t.stack = [] then PySet.add (((t.addNode c.key (node c)).addAll c ns).addEdge q.key (node q) c.key (node c)).roots c.key else (((t.addNode c.key (node c)).addAll c ns).addEdge q.key (node q) c.key (node c)).roots }, true, ?_,
              ⟨r5.trans (s5.trans hin.act), r1.trans s1, r2.trans s2, rfl, fun x y => ?_, fun k => ?_, fun k n h => ?_, fun k => ?_⟩, ?_, .inr ⟨rfl, _, rfl, .inr ⟨h1, rfl⟩⟩⟩
            · show (if c.name ∈ skipFrames then _ else _) = _
              rw [if_neg hskip, hin.top]
            · show (x, y) ∈ (((t.addNode c.key (node c)).addAll c ns).addEdge q.key (node q) c.key (node c)).edges ↔ _
              rw [f1, hglb, sysUses_frame]
              constructor
              · rintro ((h | h) | h)
                · exact .inl h
                · exact .inr (.inr (.inl ⟨h1, h⟩))
                · exact .inr (.inl ⟨h1, q, rfl, h⟩)
              · rintro (h | ⟨_, q', h, h'⟩ | h | h | ⟨d, _, h, _⟩ | h)
                · exact .inl (.inl h)
                · injection h with h
                  rw [← h] at h'
                  exact .inr h'
                · exact .inl (.inr h.2)
                · exact absurd h.1 h2
                · exact absurd h (nosig d)
                · exact absurd h sysUses_nil
            · show k ∈ (((t.addNode c.key (node c)).addAll c ns).addEdge q.key (node q) c.key (node c)).nodes.keys ↔ _
              rw [f2, hnod]
              refine ⟨fun h => h.elim id fun h => .inr ⟨_, sysSeen_frame.2 (.inl ⟨h1, h, rfl⟩)⟩, .inl⟩
            · rcases f3 k n h with h | ⟨h, h'⟩
              · exact hval k n h
              · exact .inr (sysSeen_frame.2 (.inl ⟨h1, h, h'⟩))
            · show k ∈ (if t.stack = [] then _ else _) ↔ _
              rw [if_neg hne, r4, s4]
              exact ⟨.inl, fun h => h.elim id (fun h => nomatch h.1)⟩
            · rw [hund]
              exact ⟨r5.trans (s5.trans hin.act), r1.trans (s1.trans hin.str), r2.trans (s2.trans hin.met), rfl, ⟨fun h => (nomatch h), fun h => (nomatch h)⟩, fun c' h => by
                injection h with h; rw [← h]; exact (f2 _).2 (.inr rfl)⟩

/-- Any other frame is refused. -/
theorem onCall_error {strict allowMethods : Bool} {p : Option SysFrame} {t : SysTracer} (hin : In strict allowMethods p t) (c : SysFrame)
    (hs : ¬ c.Supported strict allowMethods p) : ∃ e, t.onCall c = .error e := by
  unfold onCall
  have hout : c.place ≠ .outside := fun h => hs (.inl h)
  rw [if_neg hout]
  by_cases hleaf : c.name = leafSignal
  · rw [if_pos hleaf]
    cases hd : c.data with
    | none => exact ⟨_, rfl⟩
    | some d => exact absurd (.inr (.inl ⟨hleaf, by rw [hd]; exact fun h => nomatch h⟩)) hs
  · rw [if_neg hleaf]
    have hman : c.place ≠ .mandala := fun h => hs (.inr (.inr (.inl ⟨hleaf, h⟩)))
    rw [if_neg hman]
    have hu : c.place = .user := by
      cases h : c.place with
      | outside => exact absurd h hout
      | mandala => exact absurd h hman
      | user => rfl
    by_cases hmeth : '.' ∈ c.qual.toList ∧ t.allowMethods = false
    · rw [if_pos hmeth]; exact ⟨_, rfl⟩
    · rw [if_neg hmeth]
      by_cases hclo : c.closure = true ∧ c.name ∉ skipFrames ∧ t.strict = true
      · rw [if_pos hclo]; exact ⟨_, rfl⟩
      · rw [if_neg hclo]
        by_cases hglob : ∀ g ∈ c.globals, g.hash ≠ none
        · obtain ⟨ns, hns, _⟩ := globalNodes_ok c c.globals hglob
          rw [hns]
          have hsup : ¬ ((c.name ∈ anonymous → p ≠ none) ∧ (c.name ∉ anonymous → strict = true → c.closure = false)) := by
            intro h
            refine hs (.inr (.inr (.inr ⟨hleaf, hu, fun hd => ?_, hglob, h⟩)))
            cases hm : allowMethods with
            | true => rfl
            | false => exact absurd ⟨hd, hin.met.trans hm⟩ hmeth
          by_cases hskip : c.name ∈ skipFrames
          · have hp : p = none := by
              cases hp : p with
              | none => rfl
              | some q => exact absurd ⟨fun _ => by rw [hp]; exact (fun h => nomatch h), fun h => absurd hskip h⟩ hsup
            refine ⟨.assertionError, ?_⟩
            show (if c.name ∈ skipFrames then _ else _) = _
            rw [if_pos hskip, hin.top, hp]
          · refine absurd ⟨fun h => absurd h hskip, fun _ hst => ?_⟩ hsup
            cases hc : c.closure with
            | false => rfl
            | true => exact absurd ⟨hc, hskip, hin.str.trans hst⟩ hclo
        · rw [globalNodes_error c c.globals hglob]
          exact ⟨_, rfl⟩

theorem onReturn_ok (t : SysTracer) (c : SysFrame) (x : SysFrame ⊕ String) (rest : List (SysFrame ⊕ String)) (hst : t.stack = x :: rest) (hx : Pushed c x)
    (hn : c.Tracked → lastPart c.qual = c.name) : t.onReturn c = .ok { t with stack := rest } := by
  unfold onReturn
  rw [hst]
  dsimp only
  rcases hx with ⟨h, hx⟩ | ⟨h, hx⟩
  · rw [if_pos (show c.name ∈ skipFrames from h.2), if_pos hx]
  · rw [if_neg (show ¬ c.name ∈ skipFrames from h.2.2), hx]
    dsimp only
    rw [if_pos (hn h)]

/-! ### runs -/

theorem runFrame_off (r : SysRun) (t : SysTracer) (h : t.active = false) : runFrame r t = (none, t) := by
  cases r with
  | frame c body =>
    rw [runFrame, if_neg (by rw [h]; exact Bool.false_ne_true)]

theorem runFrames_off (rs : List SysRun) (t : SysTracer) (h : t.active = false) : runFrames rs t = (none, t) := by
  induction rs with
  | nil => rw [runFrames]
  | cons r rs ih => rw [runFrames, runFrame_off r t h]; exact ih

mutual
theorem runFrame_spec (strict allowMethods : Bool) : ∀ (r : SysRun) (p : Option SysFrame) (t : SysTracer), In strict allowMethods p t → r.Named →
    (r.Supported strict allowMethods p → ∃ t', runFrame r t = (none, t') ∧ Grown p [r] t t') ∧
    (¬ r.Supported strict allowMethods p → (runFrame r t).2.active = false)
  | .frame c body, p, t, hin, hn => by
    rw [SysRun.Named] at hn
    rw [SysRun.Supported, runFrame, if_pos hin.act]
    by_cases hs : c.Supported strict allowMethods p
    · obtain ⟨t1, on, h1, h2, h3, h4⟩ := onCall_ok hin c hs
      rw [h1]
      dsimp only
      obtain ⟨ih1, ih2⟩ := runFrames_spec strict allowMethods body (c.under p) t1 h3 hn.2
      constructor
      · rintro ⟨_, hb⟩
        obtain ⟨t2, hr, hg⟩ := ih1 hb
        rw [hr]
        dsimp only
        rcases h4 with ⟨rfl, hst⟩ | ⟨rfl, x, hst, hx⟩
        · refine ⟨t2, if_neg (fun h => nomatch h.1), ?_⟩
          have := h2.frame hg
          rwa [show ({ t2 with stack := t.stack } : SysTracer) = t2 by rw [← hst, ← hg.stk]] at this
        · rw [if_pos ⟨rfl, hg.act⟩, onReturn_ok t2 c x t.stack (hg.stk.trans hst) hx hn.1]
          exact ⟨_, rfl, h2.frame hg⟩
      · intro hb
        have hoff := ih2 (fun h => hb ⟨hs, h⟩)
        generalize runFrames body t1 = res at hoff
        obtain ⟨o, t2⟩ := res
        cases o with
        | some e => exact hoff
        | none =>
          dsimp only at hoff ⊢
          rw [if_neg (fun h => by rw [hoff] at h; exact nomatch h.2)]
          exact hoff
    · refine ⟨fun h => absurd h.1 hs, fun _ => ?_⟩
      obtain ⟨e, he⟩ := onCall_error hin c hs
      rw [he]
theorem runFrames_spec (strict allowMethods : Bool) : ∀ (rs : List SysRun) (p : Option SysFrame) (t : SysTracer), In strict allowMethods p t → SysRun.AllNamed rs →
    (SysRun.AllSupported strict allowMethods p rs → ∃ t', runFrames rs t = (none, t') ∧ Grown p rs t t') ∧
    (¬ SysRun.AllSupported strict allowMethods p rs → (runFrames rs t).2.active = false)
  | [], p, t, hin, _ => by
    rw [runFrames, SysRun.AllSupported]
    exact ⟨fun _ => ⟨t, rfl, grown_nil p t hin.act⟩, fun h => absurd trivial h⟩
  | r :: rs, p, t, hin, hn => by
    rw [SysRun.AllNamed] at hn
    rw [runFrames, SysRun.AllSupported]
    obtain ⟨a1, a2⟩ := runFrame_spec strict allowMethods r p t hin hn.1
    by_cases hs : r.Supported strict allowMethods p
    · obtain ⟨t1, h1, g1⟩ := a1 hs
      rw [h1]
      dsimp only
      obtain ⟨b1, b2⟩ := runFrames_spec strict allowMethods rs p t1 (hin.grown g1) hn.2
      exact ⟨fun h => (b1 h.2).elim fun t2 h2 => ⟨t2, h2.1, g1.cons h2.2⟩, fun h => b2 (fun h' => h ⟨hs, h'⟩)⟩
    · refine ⟨fun h => absurd h.1 hs, fun _ => ?_⟩
      have hoff := a2 hs
      generalize runFrame r t = res at hoff
      obtain ⟨o, t2⟩ := res
      cases o with
      | some e => exact hoff
      | none =>
        dsimp only at hoff ⊢
        rw [runFrames_off rs t2 hoff]
        exact hoff
end

theorem onCall_active (t t1 : SysTracer) (c : SysFrame) (on : Bool) (h : t.onCall c = .ok (t1, on)) : t1.active = t.active := by
  unfold onCall at h
  split at h
  · injection h with h; injection h with h _; rw [← h]
  split at h
  · split at h
    · exact nomatch h
    · split at h
      · injection h with h; injection h with h _; rw [← h]; exact (addEdge_same ..).2.2.2.2
      · injection h with h; injection h with h _; rw [← h]
  split at h
  · injection h with h; injection h with h _; rw [← h]
  split at h
  · exact nomatch h
  split at h
  · exact nomatch h
  by_cases hglob : ∀ g ∈ c.globals, g.hash ≠ none
  · obtain ⟨ns, hns, _⟩ := globalNodes_ok c c.globals hglob
    rw [hns] at h
    change (if c.name ∈ skipFrames then _ else _) = _ at h
    split at h
    · split at h
      · exact nomatch h
      · injection h with h; injection h with h _; rw [← h]; exact (addAll_same ..).2.2.2.2
    · injection h with h; injection h with h _; rw [← h]
      dsimp only
      split
      · exact (addEdge_same ..).2.2.2.2.trans (addAll_same ..).2.2.2.2
      · exact (addAll_same ..).2.2.2.2
  · rw [globalNodes_error c c.globals hglob] at h
    exact nomatch h

theorem onReturn_active (t t1 : SysTracer) (c : SysFrame) (h : t.onReturn c = .ok t1) : t1.active = t.active := by
  unfold onReturn at h
  split at h
  · exact nomatch h
  · dsimp only at h
    unfold processFailure at h
    split at h
    · split at h
      · injection h with h; rw [← h]
      · split at h
        · exact nomatch h
        · injection h with h; rw [← h]
    · split at h
      · split at h
        · injection h with h; rw [← h]
        · split at h
          · exact nomatch h
          · injection h with h; rw [← h]
      · exact nomatch h

mutual
theorem runFrame_silent : ∀ (r : SysRun) (t : SysTracer), t.active = true → r.NoCatch → (runFrame r t).1 = none → (runFrame r t).2.active = true
  | .frame c body, t, ha, hc => by
    rw [SysRun.NoCatch] at hc
    rw [runFrame, if_pos ha]
    cases h : t.onCall c with
    | error e => exact fun h => nomatch h
    | ok q =>
      obtain ⟨t1, on⟩ := q
      have ih := runFrames_silent body t1 ((onCall_active t t1 c on h).trans ha) hc.2
      dsimp only
      generalize runFrames body t1 = res at ih
      obtain ⟨o, t2⟩ := res
      cases o with
      | some e =>
        dsimp only
        rw [hc.1]
        exact fun h => nomatch h
      | none =>
        dsimp only
        have h2 := ih rfl
        split
        · cases hr : t2.onReturn c with
          | error e => exact fun h => nomatch h
          | ok t3 => exact fun _ => (onReturn_active t2 t3 c hr).trans h2
        · exact fun _ => h2
theorem runFrames_silent : ∀ (rs : List SysRun) (t : SysTracer), t.active = true → SysRun.AllNoCatch rs → (runFrames rs t).1 = none → (runFrames rs t).2.active = true
  | [], t, ha, _ => by rw [runFrames]; exact fun _ => ha
  | r :: rs, t, ha, hc => by
    rw [SysRun.AllNoCatch] at hc
    rw [runFrames]
    have ih := runFrame_silent r t ha hc.1
    generalize runFrame r t = res at ih
    obtain ⟨o, t2⟩ := res
    cases o with
    | some e => exact fun h => nomatch h
    | none => exact runFrames_silent rs t2 (ih rfl) hc.2
end

end SysTracer
end Verif
