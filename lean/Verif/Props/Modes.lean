import Verif.Model.Modes
/-!
C19: contexts nest and restore the mode.
-/
namespace Verif.Props

open Verif CSt

/-! ### specification: lexical scoping -/

mutual
/-- What is to happen when `cur` is the innermost enclosing block: op calls use it, and leaving an outermost block commits. -/
def scoped1 (cur : Option (SId × Mode)) : Code → List CEvent
  | .op i => [.ran i cur]
  | .block s m body =>
    let inherited := match cur with
      | none => Mode.run
      | some p => p.2
    scopedAll (some (s, m.getD inherited)) body ++ (if cur = none then [.commit s] else [])
  | .noop body => scopedAll (cur.map fun p => (p.1, .noop)) body
def scopedAll (cur : Option (SId × Mode)) : List Code → List CEvent
  | [] => []
  | x :: xs => scoped1 cur x ++ scopedAll cur xs
end

mutual
/-- Only blocks of the storage `s` inside. -/
def onlyOf (s : SId) : Code → Bool
  | .op _ => true
  | .block t _ body => decide (t = s) && onlyAll s body
  | .noop body => onlyAll s body
def onlyAll (s : SId) : List Code → Bool
  | [] => true
  | x :: xs => onlyOf s x && onlyAll s xs
end

mutual
/-- Blocks of different storages are not nested in each other. -/
def unmixed : Code → Bool
  | .op _ => true
  | .block s _ body => onlyAll s body
  | .noop body => unmixedAll body
def unmixedAll : List Code → Bool
  | [] => true
  | x :: xs => unmixed x && unmixedAll xs
end

/-! ### proofs -/

theorem upd_self {α : Type} (f : SId → α) (s : SId) : upd f s (f s) = f := by
  funext t
  unfold upd
  split
  · rename_i h; rw [h]
  · rfl

theorem upd_upd {α : Type} (f : SId → α) (s : SId) (a b : α) : upd (upd f s a) s b = upd f s b := by
  funext t
  unfold upd
  split <;> rfl

theorem upd_same {α : Type} (f : SId → α) (s : SId) (a : α) : upd f s a s = a := if_pos rfl

theorem exit_inner {c : CSt} {s : SId} {a m : Mode} {st : List Mode} (h : c.stack s = a :: m :: st) :
    c.exit s = { c with stack := upd c.stack s (m :: st), next := upd c.next s m } := by
  simp [exit, h]

theorem exit_outer {c : CSt} {s : SId} {a : Mode} (h : c.stack s = [a]) :
    c.exit s = { c with log := c.log ++ [.commit s], current := none, stack := upd c.stack s [], next := upd c.next s .run } := by
  simp [exit, h]

theorem enter_stack (c : CSt) (s : SId) : (c.enter s).stack s = c.next s :: c.stack s := upd_same _ _ _

mutual
/-- Inside blocks of one storage. -/
theorem inside1 (s : SId) : ∀ (x : Code), onlyOf s x = true → ∀ (c : CSt) (m : Mode) (st : List Mode), c.current = some s → c.stack s = m :: st →
    c.next s = m → run1 x c = { c with log := c.log ++ scoped1 (some (s, m)) x }
  | .op i, _, c, m, st, h1, h2, h3 => by
    unfold run1 callOp mode scoped1
    rw [h1]
    dsimp only
    rw [h2]
  | .block t mo body, ho, c, m, st, h1, h2, h3 => by
    unfold onlyOf at ho
    rw [Bool.and_eq_true, decide_eq_true_eq] at ho
    obtain ⟨rfl, ho⟩ := ho
    have key : ∀ c' : CSt, c'.current = some t → c'.stack = c.stack → c'.log = c.log → c'.next = upd c.next t (mo.getD m) →
        (runAll body (c'.enter t)).exit t = { c with log := c.log ++ scoped1 (some (t, m)) (.block t mo body) } := by
      intro c' e1 e2 e3 e4
      have hn : c'.next t = mo.getD m := by rw [e4, upd_same]
      rw [insideAll t body ho (c'.enter t) (mo.getD m) (m :: st) rfl (by rw [enter_stack, hn, e2, h2]) hn,
        exit_inner (a := mo.getD m) (m := m) (st := st) (by show (c'.enter t).stack t = _; rw [enter_stack, hn, e2, h2])]
      unfold scoped1 enter
      dsimp only
      rw [upd_upd, e2, e3, e4, upd_upd, if_neg (by simp), List.append_nil]
      have a1 : upd c.stack t (m :: st) = c.stack := by rw [← h2, upd_self]
      have a2 : upd c.next t m = c.next := by rw [← h3, upd_self]
      rw [a1, a2, h1]
    unfold run1
    cases mo with
    | none => exact key c h1 rfl rfl (by rw [Option.getD_none, ← h3, upd_self])
    | some mm => exact key (c.configure t mm) h1 rfl rfl rfl
  | .noop body, ho, c, m, st, h1, h2, h3 => by
    unfold onlyOf at ho
    unfold run1 noopEnter
    rw [h1]
    dsimp only
    rw [insideAll s body ho ((c.configure s .noop).enter s) .noop (m :: st) rfl (by rw [enter_stack]; unfold configure; dsimp only; rw [upd_same, h2])
      (by unfold enter configure; dsimp only; rw [upd_same])]
    unfold noopExit scoped1
    dsimp only [enter, configure]
    rw [exit_inner (a := .noop) (m := m) (st := st) (by dsimp only; rw [upd_same, upd_same, h2])]
    dsimp only
    rw [upd_upd, upd_upd, upd_upd]
    have a1 : upd c.stack s (m :: st) = c.stack := by rw [← h2, upd_self]
    have a2 : upd c.next s m = c.next := by rw [← h3, upd_self]
    rw [a1, a2]
    rfl
theorem insideAll (s : SId) : ∀ (xs : List Code), onlyAll s xs = true → ∀ (c : CSt) (m : Mode) (st : List Mode), c.current = some s →
    c.stack s = m :: st → c.next s = m → runAll xs c = { c with log := c.log ++ scopedAll (some (s, m)) xs }
  | [], _, c, m, st, _, _, _ => by unfold runAll scopedAll; rw [List.append_nil]
  | x :: xs, ho, c, m, st, h1, h2, h3 => by
    unfold onlyAll at ho
    rw [Bool.and_eq_true] at ho
    unfold runAll scopedAll
    rw [inside1 s x ho.1 c m st h1 h2 h3, insideAll s xs ho.2 { c with log := c.log ++ scoped1 (some (s, m)) x } m st h1 h2 h3]
    dsimp only
    rw [List.append_assoc]
end

/-- Between outermost blocks. -/
structure Outside (c : CSt) : Prop where
  current : c.current = none
  stack : ∀ s, c.stack s = []
  next : ∀ s, c.next s = .run

mutual
theorem outside1 : ∀ (x : Code), unmixed x = true → ∀ c : CSt, Outside c → run1 x c = { c with log := c.log ++ scoped1 none x }
  | .op i, _, c, h => by
    unfold run1 callOp scoped1
    rw [h.current]
  | .block s mo body, ho, c, h => by
    unfold unmixed at ho
    have key : ∀ c' : CSt, c'.stack = c.stack → c'.log = c.log → c'.next = upd c.next s (mo.getD .run) →
        (runAll body (c'.enter s)).exit s = { c with log := c.log ++ scoped1 none (.block s mo body) } := by
      intro c' e2 e3 e4
      have hn : c'.next s = mo.getD .run := by rw [e4, upd_same]
      rw [insideAll s body ho (c'.enter s) (mo.getD .run) [] rfl (by rw [enter_stack, hn, e2, h.stack]) hn,
        exit_outer (a := mo.getD .run) (by show (c'.enter s).stack s = _; rw [enter_stack, hn, e2, h.stack])]
      unfold scoped1 enter
      dsimp only
      rw [upd_upd, e2, e3, e4, upd_upd, if_pos rfl, List.append_assoc]
      have a1 : upd c.stack s [] = c.stack := by rw [← h.stack s, upd_self]
      have a2 : upd c.next s .run = c.next := by rw [← h.next s, upd_self]
      rw [a1, a2, h.current]
    unfold run1
    cases mo with
    | none => exact key c rfl rfl (by rw [Option.getD_none, ← h.next s, upd_self])
    | some mm => exact key (c.configure s mm) rfl rfl rfl
  | .noop body, ho, c, h => by
    unfold unmixed at ho
    unfold run1 noopEnter scoped1
    rw [h.current]
    dsimp only
    rw [outsideAll body ho c h]
    unfold noopExit
    dsimp only
    rw [h.current]
    rfl
theorem outsideAll : ∀ (xs : List Code), unmixedAll xs = true → ∀ c : CSt, Outside c → runAll xs c = { c with log := c.log ++ scopedAll none xs }
  | [], _, c, _ => by unfold runAll scopedAll; rw [List.append_nil]
  | x :: xs, ho, c, h => by
    unfold unmixedAll at ho
    rw [Bool.and_eq_true] at ho
    unfold runAll scopedAll
    rw [outside1 x ho.1 c h, outsideAll xs ho.2 { c with log := c.log ++ scoped1 none x } ⟨h.current, h.stack, h.next⟩]
    dsimp only
    rw [List.append_assoc]
end

/-! ### C19 -/

/-- C19 (partial: blocks of different storages are not nested in each other): running any tree of blocks, every op call uses
the innermost enclosing block, or is a plain call outside of all blocks; a commit happens exactly when an outermost block is
left; and afterwards context, mode stacks and next modes are as before. Missing: nested blocks of different storages, where
it is false (`C19_refuted_context`, `C19_refuted_commit`). -/
theorem C19_blocks_scope_modes_partial (xs : List Code) (h : unmixedAll xs = true) :
    (runAll xs init).log = scopedAll none xs ∧ (runAll xs init).current = none ∧ (∀ s, (runAll xs init).mode s = .run) ∧
      (∀ s, (runAll xs init).stack s = []) ∧ ∀ s, (runAll xs init).next s = .run := by
  rw [outsideAll xs h init ⟨rfl, fun _ => rfl, fun _ => rfl⟩]
  exact ⟨rfl, rfl, fun _ => rfl, fun _ => rfl, fun _ => rfl⟩

/-- C19, inside blocks of a storage: any further code with blocks of this storage leaves the mode as it was, and commits nothing. -/
theorem C19_inner_blocks_restore (s : SId) (xs : List Code) (h : onlyAll s xs = true) (c : CSt) (m : Mode) (st : List Mode)
    (h1 : c.current = some s) (h2 : c.stack s = m :: st) (h3 : c.next s = m) :
    (runAll xs c).mode s = c.mode s ∧ (runAll xs c).stack = c.stack ∧ (runAll xs c).current = c.current ∧ (runAll xs c).next = c.next ∧
      (runAll xs c).log = c.log ++ scopedAll (some (s, m)) xs := by
  rw [insideAll s xs h c m st h1 h2 h3]
  exact ⟨rfl, rfl, rfl, rfl, rfl⟩

mutual
theorem scoped_no_commit1 (p : SId × Mode) (s : SId) : ∀ x : Code, CEvent.commit s ∉ scoped1 (some p) x
  | .op i => by unfold scoped1; simp
  | .block t m body => by
    unfold scoped1
    rw [if_neg (by simp), List.append_nil]
    exact scoped_no_commit _ s body
  | .noop body => by
    unfold scoped1
    exact scoped_no_commit _ s body
theorem scoped_no_commit (p : SId × Mode) (s : SId) : ∀ xs : List Code, CEvent.commit s ∉ scopedAll (some p) xs
  | [] => by unfold scopedAll; simp
  | x :: xs => by
    unfold scopedAll
    rw [List.mem_append]
    rintro (h | h)
    · exact scoped_no_commit1 p s x h
    · exact scoped_no_commit p s xs h
end

/-- C19: one outermost block, whatever is nested in it, commits exactly once, at its end. -/
theorem C19_one_commit_per_outermost_block_partial (s : SId) (m : Option Mode) (body : List Code) (h : onlyAll s body = true) :
    ∃ evs, (runAll [.block s m body] init).log = evs ++ [.commit s] ∧ ∀ t, CEvent.commit t ∉ evs := by
  refine ⟨scopedAll (some (s, m.getD .run)) body, ?_, fun t => scoped_no_commit _ t body⟩
  rw [(C19_blocks_scope_modes_partial [.block s m body] (by unfold unmixedAll unmixed; rw [h]; unfold unmixedAll; rfl)).1]
  have h1 : scopedAll none [Code.block s m body] = scoped1 none (.block s m body) ++ [] := by
    rw [scopedAll, scopedAll]
  rw [h1, List.append_nil, scoped1, if_pos rfl]

/-- Nested blocks of two storages one after the other, with all kinds of blocks. -/
def codeNested : List Code :=
  [.op 0, .block 0 none [.op 1, .noop [.op 2, .block 0 (some .run) [.op 3], .op 4], .op 5, .block 0 (some .noop) [.block 0 none [.op 6]]],
   .noop [.block 1 (some .noop) [.op 7]], .op 8]

example : unmixedAll codeNested = true ∧ scopedAll none codeNested =
    [.ran 0 none, .ran 1 (some (0, .run)), .ran 2 (some (0, .noop)), .ran 3 (some (0, .run)), .ran 4 (some (0, .noop)), .ran 5 (some (0, .run)),
     .ran 6 (some (0, .noop)), .commit 0, .ran 7 (some (1, .noop)), .commit 1, .ran 8 none] := by decide

/-- C19 is false for nested blocks of different storages: after the inner block is left, ops run as plain functions although
the block of storage 0 is still open. -/
theorem C19_refuted_context : (runAll [.block 0 none [.block 1 none [], .op 1]] init).log = [.commit 1, .ran 1 none, .commit 0] := by decide

/-- ... and with `noop` around the inner block, the mode stack of storage 0 is not restored: its outer block is left without a
commit, and so are all later blocks of it. -/
theorem C19_refuted_commit : (runAll [.block 0 none [.op 1, .noop [.block 1 none []]], .block 0 none [.op 2]] init).log =
      [.ran 1 (some (0, .run)), .commit 1, .ran 2 (some (0, .run))] ∧
    (runAll [.block 0 none [.op 1, .noop [.block 1 none []]]] init).stack 0 = [.run] := by
  refine ⟨?_, ?_⟩ <;> decide

end Verif.Props
