import Verif.Model.SourceHistory
/-!
What the printed code history is to show.
-/
namespace Verif
namespace Dag

variable {K C : Type} [DecidableEq K]

/-- `p` is the parent of the commit `k`. -/
def Parent (d : Dag K C) (k p : K) : Prop := ∃ o, d.commits.get? k = some o ∧ o.parents = [p]

/-- Read as an outline, the entries are the tree of commits: the first is the initial commit, at the margin; above every other one its parent is the last entry that is less
indented, by one step. -/
def IsOutline (d : Dag K C) (out : List (ShownCommit K C)) : Prop :=
  ∀ pre e post, out = pre ++ e :: post → (pre = [] ∧ d.initialCommit = some e.commit ∧ e.depth = 0) ∨
    ∃ pre' p mid, pre = pre' ++ p :: mid ∧ d.Parent e.commit p.commit ∧ e.depth = p.depth + 1 ∧ ∀ x ∈ mid, p.depth < x.depth

/-- The entry tells about its commit what is stored: its code, or in the compact form how it differs from that of its parent; whether it is the current one; its ids. -/
structure Tells (d : Dag K C) (diffOnly ids : Bool) (e : ShownCommit K C) : Prop where
  head : e.head = true ↔ d.head = some e.commit
  ids : ∃ o, d.commits.get? e.commit = some o ∧ e.ids = if ids then some (e.commit, o.semanticHash) else none
  body : ∃ c, d.getContent (d.commits.length + 1) e.commit = .ok c ∧
    ((e.body = .code c ∧ (diffOnly = false ∨ d.initialCommit = some e.commit)) ∨
     (diffOnly = true ∧ ∃ p pc, d.Parent e.commit p ∧ d.getContent (d.commits.length + 1) p = .ok pc ∧ e.body = .diff pc c))

end Dag
end Verif
