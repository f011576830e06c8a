import Verif.Model.OpenStorage
import Verif.Proofs.VersionerRun
import Verif.Proofs.VersionerTotal
/-!
Opening a storage with versions: what stays of the options, and that every versioner is well formed, whatever the processes do.
-/
namespace Verif.Opening

open Verif Versioner

variable {H : Val → String} {compOf : String → DepKey} {resolve : String → String}

/-! ### one component -/

/-- The history of a component with a current commit takes any content without asking when it is told what the change is. -/
theorem sync_told {d : Dag String Content} (hd : d.OK (Content.hash H)) (hh : d.head ≠ none) (c : Content) (b : Option Bool) (a : Answer)
    (hb : b = none → a = .abort → c.hash H ∈ d.commits.keys) : ∃ r, d.sync (Content.hash H) c b a = .ok r := by
  cases b with
  | none => exact sync_total hd hh (hb rfl)
  | some b =>
    obtain ⟨r, hr⟩ := sync_total (H := H) hd hh (c := c) (a := if b then .yes else .no) (by intro h; cases b <;> cases h)
    refine ⟨r, ?_⟩
    rw [← hr]
    unfold Dag.sync Dag.commit Dag.declared
    cases b <;> rfl

/-- What a successful sync does to the history. -/
theorem sync_does {d d' : Dag String Content} (hd : d.OK (Content.hash H)) {c : Content} {b : Option Bool} {a : Answer} {x : String}
    (h : d.sync (Content.hash H) c b a = .ok (d', x)) :
    d'.OK (Content.hash H) ∧ x = c.hash H ∧ d'.head = some x ∧ (∀ k o, d.commits.get? k = some o → d'.commits.get? k = some o) ∧
      ((x ∈ d.commits.keys ∧ d'.commits = d.commits) ∨
        (x ∉ d.commits.keys ∧ ∃ hd ho s o, d.head = some hd ∧ d.commits.get? hd = some ho ∧ Dag.declared b a = some s ∧ d'.commits.get? x = some o ∧
          o.semanticHash = (if s then x else ho.semanticHash) ∧ o.parents = [hd] ∧ ∀ y, y ∈ d'.commits.keys ↔ y ∈ d.commits.keys ∨ y = x)) := by
  have hstep : Dag.step (Content.hash H) d (.sync c b a) = d' := by unfold Dag.step; dsimp only; rw [h]
  have hok' : d'.OK (Content.hash H) := by rw [← hstep]; exact Dag.step_keeps hd _
  have hold : ∀ k o, d.commits.get? k = some o → d'.commits.get? k = some o := by
    intro k o ho
    rw [← hstep]
    exact Dag.step_old hd _ ho
  obtain ⟨rfl, hs⟩ := Dag.sync_ok h hd
  refine ⟨hok', rfl, ?_, hold, ?_⟩
  · rcases hs with ⟨_, rfl⟩ | ⟨_, hcm⟩
    · rfl
    · obtain ⟨_, _, _, _, _, _, _, _, _, rfl⟩ := Dag.commit_ok hcm
      rfl
  · rcases hs with ⟨hk, rfl⟩ | ⟨hk, hcm⟩
    · exact .inl ⟨hk, rfl⟩
    · obtain ⟨_, hn, y, ho, s, hc, h1, h2, h3, rfl⟩ := Dag.commit_ok hcm
      refine .inr ⟨hk, y, ho, s, ⟨[y], [(c, hc)], c.hash H, if s then c.hash H else ho.semanticHash, none⟩, h1, h2, h3, ?_, rfl, rfl, ?_⟩
      · rw [← Dag.set_new hn]
        exact Dict.get?_set_self _ _ _
      · intro z
        simp [Dict.keys]

/-- Syncing one component, in full. -/
theorem syncComponent_cases {s : Versioner} (k : DepKey) (b : Option Bool) (cs : CodeState) (a : Answer) :
    (∃ e, s.syncComponent H k b cs a = (.error e, s)) ∨
      ∃ d n c d' x, s.dags.get? k = some d ∧ cs.get? k = some n ∧ n.content = some c ∧ d.sync (Content.hash H) c b a = .ok (d', x) ∧
        s.syncComponent H k b cs a = (.ok x, { s with dags := s.dags.set k d' }) := by
  unfold Versioner.syncComponent
  cases h1 : s.dags.get? k with
  | none => exact .inl ⟨_, rfl⟩
  | some d =>
    dsimp only
    cases h2 : cs.get? k with
    | none => exact .inl ⟨_, rfl⟩
    | some n =>
      dsimp only
      cases h3 : n.content with
      | none => exact .inl ⟨_, rfl⟩
      | some c =>
        dsimp only
        cases h4 : d.sync (Content.hash H) c b a with
        | error e => exact .inl ⟨_, rfl⟩
        | ok r => exact .inr ⟨d, n, c, r.1, r.2, rfl, rfl, h3, h4, rfl⟩

theorem set_dagsLE {s : Versioner} {k : DepKey} {d d' : Dag String Content} (hd : s.dags.get? k = some d)
    (hold : ∀ x o, d.commits.get? x = some o → d'.commits.get? x = some o) : DagsLE s.dags (s.dags.set k d') := by
  rintro k' x y ⟨e, c, a1, a2, a3⟩
  by_cases hk : k = k'
  · subst hk
    rw [hd] at a1
    cases a1
    exact ⟨d', c, Dict.get?_set_self _ _ _, hold _ _ a2, a3⟩
  · exact ⟨e, c, by rw [Dict.get?_set_ne _ _ hk]; exact a1, a2, a3⟩

/-- Syncing a component keeps the versioner well formed. -/
theorem syncComponent_inv {s : Versioner} (hI : VInv H compOf s) (k : DepKey) (b : Option Bool) (cs : CodeState) (a : Answer) :
    VInv H compOf (s.syncComponent H k b cs a).2 ∧ DagsLE s.dags (s.syncComponent H k b cs a).2.dags ∧
      (s.syncComponent H k b cs a).2.topology = s.topology ∧ (s.syncComponent H k b cs a).2.nodes = s.nodes ∧
      (s.syncComponent H k b cs a).2.strict = s.strict := by
  rcases syncComponent_cases (H := H) (s := s) k b cs a with ⟨e, h⟩ | ⟨d, n, c, d', x, h1, h2, h3, h4, h⟩
  · rw [h]
    exact ⟨hI, fun _ _ _ h => h, rfl, rfl, rfl⟩
  · rw [h]
    dsimp only
    obtain ⟨o1, o2, o3, o4, -⟩ := sync_does (hI.dagOK k d h1) h4
    have hle := set_dagsLE h1 o4
    have hk : k ∈ s.dags.keys := Dict.mem_keys.2 ⟨d, h1⟩
    refine ⟨⟨⟨?_, hI.keysV, ?_, ?_, Dict.nodup_set hI.dagsNodup _ _⟩, hI.topo, ?_, hI.vnodup, hI.rows, hI.pair⟩, hle, rfl, rfl, rfl⟩
    · intro k'
      dsimp only
      rw [Dict.keys_set, if_pos hk]
      exact hI.keysD k'
    · intro k' e he
      dsimp only at he
      rw [Dict.get?_set] at he
      split at he
      · cases he; exact o1
      · exact hI.dagOK k' e he
    · intro k' e he
      dsimp only at he
      rw [Dict.get?_set] at he
      split at he
      · cases he; rw [o3]; simp
      · exact hI.dagHead k' e he
    · intro k' cv v hv
      obtain ⟨a1, a2⟩ := hI.vers k' cv v hv
      exact ⟨a1.mono hle, a2⟩

/-! ### strictness stays -/

theorem createComponents_strict : ∀ (l : List (DepKey × TNode)) (s : Versioner), (createComponents H s l).2.strict = s.strict
  | [], _ => rfl
  | (k, n) :: rest, s => by
    unfold createComponents
    split
    · exact createComponents_strict rest s
    · split
      · exact createComponents_strict rest s
      · split
        · rfl
        · rw [createComponents_strict rest]
          rfl

theorem executed_strict (st : VSt) (uid : String) (roots : List DepKey) (trace : Dict DepKey TNode) (edges : List (DepKey × DepKey)) :
    (st.executed H uid roots trace edges).2.versioner.strict = st.versioner.strict := by
  unfold VSt.executed
  cases applyHypothesis st.versioner.strict st.codeState trace with
  | error e => rfl
  | ok trace' =>
    show (processTrace H (st.versioner.updateTopology trace' edges) roots trace' uid).2.strict = (st.versioner.updateTopology trace' edges).strict
    generalize st.versioner.updateTopology trace' edges = s
    unfold processTrace
    split
    · have hc := createComponents_strict (H := H) trace' s
      cases h : createComponents H s trace' with
      | mk r s1 =>
        rw [h] at hc
        cases r with
        | error e => exact hc
        | ok u =>
          dsimp only
          split
          · exact hc
          · split
            · exact hc
            · rename_i v hv s2 hs2
              have h2 : s2.strict = s1.strict := by
                unfold storeVersion at hs2
                split at hs2
                · cases hs2
                · split at hs2 <;> cases hs2 <;> rfl
              split
              · exact h2.trans hc
              · exact h2.trans hc
    · rfl

/-! ### the processes -/

/-- A well-formed versioner that is as strict as its options say. -/
structure ObjOK (H : Val → String) (compOf : String → DepKey) (o : Obj) : Prop where
  inv : VInv H compOf o.2
  topoD : ∀ k, k ∈ o.2.topology.keys → k ∈ o.2.nodes.keys
  strict : o.2.strict = o.1.strict

structure ProcOK (H : Val → String) (compOf : String → DepKey) (p : Proc) : Prop where
  versioned : p.versioned = true → p.cache ≠ none
  code : p.codeState ≠ none → p.cache ≠ none
  obj : ∀ o, p.cache = some o → ObjOK H compOf o
  ctx : ∀ o cs, p.cache = some o → p.codeState = some cs → StInv H compOf ⟨o.2, cs⟩

structure WorldOK (H : Val → String) (compOf : String → DepKey) (w : World) : Prop where
  table : ∀ o, w.table.get? "versioner" = some o → ObjOK H compOf o
  procs : ∀ q p, w.procs q = some p → ProcOK H compOf p

/-- What the commands give: code states and traces are dictionaries, an execution is one of the op of its call. -/
def Cmd.Legal (compOf : String → DepKey) : Cmd → Prop
  | .enter _ cs _ => cs.keys.Nodup
  | .executed _ uid roots trace _ => roots = [compOf uid] ∧ trace.keys.Nodup
  | _ => True

/-- The process does something with the versioner it has, or with the recorded one if it has none yet; what it was given and the
options of the versioner stay. -/
structure Moves (t : Table) (p p' : Proc) : Prop where
  given : p'.given = p.given
  versioned : p'.versioned = p.versioned
  has : p.cache ≠ none → p'.cache ≠ none
  opts : ∀ o', p'.cache = some o' → ∃ o, (p.cache = some o ∨ (p.cache = none ∧ t.get? "versioner" = some o)) ∧ o'.1 = o.1

theorem Moves.refl (t : Table) (p : Proc) : Moves t p p := ⟨rfl, rfl, id, fun o' h => ⟨o', .inl h, rfl⟩⟩

theorem getVersioner_ok {t : Table} {p p' : Proc} {o : Obj} (h : getVersioner t p = .ok (o, p')) :
    p' = { p with cache := some o } ∧ (p.cache = some o ∨ (p.cache = none ∧ t.get? "versioner" = some o)) := by
  obtain ⟨g, v, c, dy, st⟩ := p
  unfold getVersioner at h
  dsimp only at h
  cases c with
  | some o1 => cases h; exact ⟨rfl, .inl rfl⟩
  | none =>
    dsimp only at h
    cases ht : t.get? "versioner" with
    | none => rw [ht] at h; cases h
    | some o1 => rw [ht] at h; cases h; exact ⟨rfl, .inr ⟨rfl, rfl⟩⟩

theorem Moves.mk' {t : Table} {p : Proc} {o o' : Obj} {dy : List String} {st : Option CodeState} (ho : o'.1 = o.1)
    (h : p.cache = some o ∨ (p.cache = none ∧ t.get? "versioner" = some o)) :
    Moves t p { p with cache := some o', dirty := dy, codeState := st } :=
  ⟨rfl, rfl, fun _ => by simp, fun x hx => by cases hx; exact ⟨o, h, ho⟩⟩

theorem source_ok {w : World} (hI : WorldOK H compOf w) {q : Nat} {p : Proc} (hp : w.procs q = some p) {o : Obj}
    (h : p.cache = some o ∨ (p.cache = none ∧ w.table.get? "versioner" = some o)) :
    ObjOK H compOf o ∧ ∀ cs, p.codeState = some cs → StInv H compOf ⟨o.2, cs⟩ := by
  rcases h with h | ⟨h0, h⟩
  · exact ⟨(hI.procs q p hp).obj o h, fun cs => (hI.procs q p hp).ctx o cs h⟩
  · exact ⟨hI.table o h, fun cs hcs => absurd h0 ((hI.procs q p hp).code (by rw [hcs]; simp))⟩

/-- Putting a versioner into the cache. -/
theorem ProcOK.put {p : Proc} {o : Obj} (ho : ObjOK H compOf o) {st : Option CodeState} {dy : List String}
    (hst : ∀ cs, st = some cs → StInv H compOf ⟨o.2, cs⟩) : ProcOK H compOf { p with cache := some o, dirty := dy, codeState := st } :=
  ⟨fun _ => by simp, fun _ => by simp, fun o' h => by cases h; exact ho, fun o' cs h hcs => by cases h; exact hst cs hcs⟩

theorem enter_does (t : Table) (p : Proc) (cs : CodeState) (a : DepKey → Answer) :
    Moves t p (enter H t p cs a).2 ∧ (∀ w : World, ∀ q, w.table = t → WorldOK H compOf w → w.procs q = some p → cs.keys.Nodup → ProcOK H compOf (enter H t p cs a).2) := by
  unfold enter
  split
  · cases hg : getVersioner t p with
    | error e => exact ⟨.refl t p, fun w q ht hI hp _ => hI.procs q p hp⟩
    | ok r =>
      obtain ⟨o, p1⟩ := r
      obtain ⟨rfl, hsrc⟩ := getVersioner_ok hg
      dsimp only
      unfold syncCodebase
      cases h : syncDags H cs a o.2.dags with
      | error e =>
        refine ⟨Moves.mk' (o := o) (o' := (o.1, o.2)) rfl hsrc, fun w q ht hI hp hn => ?_⟩
        subst ht
        obtain ⟨h1, h2⟩ := source_ok hI hp hsrc
        exact ProcOK.put (o := (o.1, o.2)) h1 h2
      | ok ds =>
        refine ⟨Moves.mk' (o := o) (o' := (o.1, { o.2 with dags := ds })) rfl hsrc, fun w q ht hI hp hn => ?_⟩
        subst ht
        obtain ⟨h1, -⟩ := source_ok hI hp hsrc
        obtain ⟨g1, g2, g3⟩ := h1.inv.sync h
        exact ProcOK.put (o := (o.1, { o.2 with dags := ds })) ⟨g1, h1.topoD, h1.strict⟩ fun cs' hcs => by
          cases hcs
          exact ⟨g1, h1.topoD, hn, fun k hk => g3 k (h1.topoD k hk)⟩
  · exact ⟨.refl t p, fun w q ht hI hp _ => hI.procs q p hp⟩

theorem executed_does (t : Table) (p : Proc) (uid : String) (roots : List DepKey) (trace : Dict DepKey TNode) (edges : List (DepKey × DepKey)) :
    Moves t p (executed H p uid roots trace edges).2 ∧
      (∀ w : World, ∀ q, Function.Injective H → WorldOK H compOf w → w.procs q = some p → roots = [compOf uid] → trace.keys.Nodup →
        ProcOK H compOf (executed H p uid roots trace edges).2) := by
  obtain ⟨g, v, c, dy, st⟩ := p
  unfold executed
  cases c with
  | none => exact ⟨.refl t _, fun w q _ hI hp _ _ => hI.procs q _ hp⟩
  | some o =>
    cases st with
    | none => exact ⟨.refl t _, fun w q _ hI hp _ _ => hI.procs q _ hp⟩
    | some cs =>
      dsimp only
      have hs := executed_strict (H := H) ⟨o.2, cs⟩ uid roots trace edges
      have hok : ∀ w : World, ∀ q, Function.Injective H → WorldOK H compOf w → w.procs q = some ⟨g, v, some o, dy, some cs⟩ → roots = [compOf uid] →
          trace.keys.Nodup → StInv H compOf ((⟨o.2, cs⟩ : VSt).executed H uid roots trace edges).2 := by
        rintro w q hH hI hp rfl hn
        obtain ⟨r, st', h1, h2, _⟩ := executed_spec hH ((hI.procs q _ hp).ctx o cs rfl rfl) (uid := uid) (edges := edges) hn
        rw [h1]
        exact h2
      cases h : (⟨o.2, cs⟩ : VSt).executed H uid roots trace edges with
      | mk r st' =>
        rw [h] at hs hok
        cases r with
        | error e =>
          refine ⟨Moves.mk' (p := ⟨g, v, some o, dy, some cs⟩) (o := o) (o' := (o.1, st'.versioner)) rfl (.inl rfl), fun w q hH hI hp hr hn => ?_⟩
          have h3 := hok w q hH hI hp hr hn
          exact ProcOK.put (p := ⟨g, v, some o, dy, some cs⟩) (o := (o.1, st'.versioner))
            ⟨h3.inv, h3.topoD, hs.trans ((hI.procs q _ hp).obj o rfl).strict⟩ fun cs' hcs => by cases hcs; exact h3
        | ok u =>
          refine ⟨Moves.mk' (p := ⟨g, v, some o, dy, some cs⟩) (o := o) (o' := (o.1, st'.versioner)) rfl (.inl rfl), fun w q hH hI hp hr hn => ?_⟩
          have h3 := hok w q hH hI hp hr hn
          exact ProcOK.put (p := ⟨g, v, some o, dy, some cs⟩) (o := (o.1, st'.versioner))
            ⟨h3.inv, h3.topoD, hs.trans ((hI.procs q _ hp).obj o rfl).strict⟩ fun cs' hcs => by cases hcs; exact h3

theorem sync_does_proc (t : Table) (p : Proc) (k : DepKey) (b : Option Bool) (cs : CodeState) (a : Answer) :
    Moves t p (syncComponent H t p k b cs a).2 ∧
      (∀ w : World, ∀ q, w.table = t → WorldOK H compOf w → w.procs q = some p → ProcOK H compOf (syncComponent H t p k b cs a).2) := by
  unfold syncComponent
  cases hg : getVersioner t p with
  | error e => exact ⟨.refl t p, fun w q ht hI hp => hI.procs q p hp⟩
  | ok r =>
    obtain ⟨o, p1⟩ := r
    obtain ⟨rfl, hsrc⟩ := getVersioner_ok hg
    dsimp only
    have hok : ∀ w : World, ∀ q, w.table = t → WorldOK H compOf w → w.procs q = some p →
        ObjOK H compOf (o.1, (o.2.syncComponent H k b cs a).2) ∧ ∀ cs', p.codeState = some cs' → StInv H compOf ⟨(o.2.syncComponent H k b cs a).2, cs'⟩ := by
      rintro w q rfl hI hp
      obtain ⟨h1, h2⟩ := source_ok hI hp hsrc
      obtain ⟨g1, g2, g3, g4, g5⟩ := syncComponent_inv h1.inv k b cs a
      have ht : ∀ k', k' ∈ (o.2.syncComponent H k b cs a).2.topology.keys → k' ∈ (o.2.syncComponent H k b cs a).2.nodes.keys := by
        rw [g3, g4]; exact h1.topoD
      refine ⟨⟨g1, ht, g5.trans h1.strict⟩, fun cs' hcs => ⟨g1, ht, (h2 cs' hcs).csNodup, fun k' hk' => ?_⟩⟩
      dsimp only at hk' ⊢
      rw [g3] at hk'
      obtain ⟨x, n, c, a1, a2, a3⟩ := (h2 cs' hcs).sync k' hk'
      exact ⟨x, n, c, a1, a2, g2 _ _ _ a3⟩
    cases h : o.2.syncComponent H k b cs a with
    | mk r v =>
      rw [h] at hok
      cases r with
      | error e =>
        exact ⟨Moves.mk' (o := o) (o' := (o.1, v)) rfl hsrc, fun w q ht hI hp => ProcOK.put (o := (o.1, v)) (hok w q ht hI hp).1 (hok w q ht hI hp).2⟩
      | ok x =>
        exact ⟨Moves.mk' (o := o) (o' := (o.1, v)) rfl hsrc, fun w q ht hI hp => ProcOK.put (o := (o.1, v)) (hok w q ht hI hp).1 (hok w q ht hI hp).2⟩

theorem save_table (t : Table) (p : Proc) (o : Obj) : (saveVersioner t p o).1.get? "versioner" = some o := by
  unfold saveVersioner
  rw [List.foldl_append]
  exact Dict.get?_set_self _ _ _

/-- What one command does: a process opens the database, ends, or does something and perhaps writes its versioner. -/
theorem step_cases (w : World) (cmd : Cmd) :
    (∃ pid g, cmd = .opens pid g ∧ w.step H resolve cmd = w.setProc pid (openStorage resolve w.table g).toOption) ∨
    (∃ pid, cmd = .ends pid ∧ w.step H resolve cmd = w.setProc pid none) ∨
    (w.step H resolve cmd = w) ∨
    ∃ pid p p' t', w.procs pid = some p ∧ w.step H resolve cmd = World.setProc { w with table := t' } pid (some p') ∧ Moves w.table p p' ∧
      (t' = w.table ∨ ∃ o, p'.cache = some o ∧ t'.get? "versioner" = some o) ∧
      (∀ compOf, Function.Injective H → cmd.Legal compOf → WorldOK H compOf w → ProcOK H compOf p') := by
  have hset : ∀ (pid : Nat) (p : Proc), w.procs pid = some p → World.setProc w pid (some p) = w := by
    intro pid p hp
    unfold World.setProc
    congr 1
    funext q
    split
    · rename_i h; rw [h, hp]
    · rfl
  cases cmd with
  | opens pid g => exact .inl ⟨pid, g, rfl, rfl⟩
  | ends pid => exact .inr (.inl ⟨pid, rfl, rfl⟩)
  | enter pid cs a =>
    unfold World.step
    dsimp only
    cases hp : w.procs pid with
    | none => exact .inr (.inr (.inl rfl))
    | some p => exact .inr (.inr (.inr ⟨pid, p, _, w.table, hp, rfl, (enter_does (compOf := fun _ => "") _ _ _ _).1, .inl rfl,
        fun compOf hH hl hI => (enter_does _ _ _ _).2 w pid rfl hI hp hl⟩))
  | executed pid uid roots trace edges =>
    unfold World.step
    dsimp only
    cases hp : w.procs pid with
    | none => exact .inr (.inr (.inl rfl))
    | some p => exact .inr (.inr (.inr ⟨pid, p, _, w.table, hp, rfl, (executed_does (compOf := fun _ => "") _ _ _ _ _ _).1, .inl rfl,
        fun compOf hH hl hI => (executed_does w.table _ _ _ _ _).2 w pid hH hI hp hl.1 hl.2⟩))
  | sync pid k b cs a =>
    unfold World.step
    dsimp only
    cases hp : w.procs pid with
    | none => exact .inr (.inr (.inl rfl))
    | some p => exact .inr (.inr (.inr ⟨pid, p, _, w.table, hp, rfl, (sync_does_proc (compOf := fun _ => "") _ _ _ _ _ _).1, .inl rfl,
        fun compOf hH hl hI => (sync_does_proc _ _ _ _ _ _).2 w pid rfl hI hp⟩))
  | exit pid =>
    unfold World.step
    dsimp only
    cases hp : w.procs pid with
    | none => exact .inr (.inr (.inl rfl))
    | some p =>
      have hm : Moves w.table p { p with codeState := none } := ⟨rfl, rfl, id, fun o' h => ⟨o', .inl h, rfl⟩⟩
      have hok : ∀ compOf, Function.Injective H → True → WorldOK H compOf w → ProcOK H compOf { p with codeState := none } :=
        fun compOf _ _ hI => ⟨(hI.procs pid p hp).versioned, fun h => absurd rfl h, (hI.procs pid p hp).obj, fun o cs _ h => by cases h⟩
      dsimp only
      unfold Opening.commit
      split
      · rename_i e h
        exact .inr (.inr (.inr ⟨pid, p, _, w.table, hp, rfl, hm, .inl rfl, hok⟩))
      · rename_i t h
        refine .inr (.inr (.inr ⟨pid, p, _, t, hp, rfl, hm, ?_, hok⟩))
        split at h
        · split at h
          · rename_i o ho
            cases h
            exact .inr ⟨o, ho, Dict.get?_set_self _ _ _⟩
          · cases h
        · cases h
          exact .inl rfl
  | commit pid =>
    unfold World.step
    dsimp only
    cases hp : w.procs pid with
    | none => exact .inr (.inr (.inl rfl))
    | some p =>
      dsimp only
      unfold Opening.commit
      split
      · exact .inr (.inr (.inl rfl))
      · rename_i t h
        refine .inr (.inr (.inr ⟨pid, p, p, t, hp, ?_, .refl _ _, ?_, fun compOf _ _ hI => hI.procs pid p hp⟩))
        · show World.mk t w.procs = _
          have := congrArg World.procs (hset pid p hp)
          unfold World.setProc at this ⊢
          dsimp only at this ⊢
          rw [this]
        · split at h
          · split at h
            · rename_i o ho
              cases h
              exact .inr ⟨o, ho, Dict.get?_set_self _ _ _⟩
            · cases h
          · cases h
            exact .inl rfl
  | dropVersion pid sv =>
    unfold World.step
    dsimp only
    cases hp : w.procs pid with
    | none => exact .inr (.inr (.inl rfl))
    | some p =>
      dsimp only
      unfold Opening.dropVersion
      cases hg : getVersioner w.table p with
      | error e => exact .inr (.inr (.inl rfl))
      | ok r =>
        obtain ⟨o, p1⟩ := r
        obtain ⟨rfl, hsrc⟩ := getVersioner_ok hg
        refine .inr (.inr (.inr ⟨pid, p, _, _, hp, rfl, Moves.mk' (o := o) (o' := (o.1, o.2.dropSemanticVersion sv)) rfl hsrc,
          .inr ⟨_, rfl, save_table _ _ _⟩, fun compOf _ _ hI => ?_⟩))
        obtain ⟨h1, h2⟩ := source_ok hI hp hsrc
        exact ProcOK.put (o := (o.1, o.2.dropSemanticVersion sv)) ⟨h1.inv.drop sv, h1.topoD, h1.strict⟩
          fun cs hcs => ⟨h1.inv.drop sv, h1.topoD, (h2 cs hcs).csNodup, (h2 cs hcs).sync⟩

theorem setProc_cases {w : World} {pid q : Nat} {x : Option Proc} {p : Proc} (h : (w.setProc pid x).procs q = some p) :
    (q = pid ∧ x = some p) ∨ (q ≠ pid ∧ w.procs q = some p) := by
  unfold World.setProc at h
  dsimp only at h
  split at h
  · rename_i he; exact .inl ⟨he, h⟩
  · rename_i he; exact .inr ⟨he, h⟩

/-- What opening gives, read off the result. -/
theorem open_ok {t : Table} {g : Given} {p : Proc} (h : openStorage resolve t g = .ok p) :
    p.given = g ∧ (p.versioned = true ↔ g.depsPath ≠ none) ∧ p.codeState = none ∧
      ((∃ o, t.get? "versioner" = some o ∧ p.cache = some o ∧ ∀ d, g.depsPath = some d → o.1.paths = roots resolve d) ∨
        (t.get? "versioner" = none ∧ ((g.depsPath = none ∧ p.cache = none) ∨ ∃ d, g.depsPath = some d ∧ p.cache = some (newVersioner resolve g d)))) := by
  unfold openStorage at h
  dsimp only at h
  cases hd : g.depsPath with
  | none =>
    rw [hd] at h
    cases h
    refine ⟨rfl, by simp, rfl, ?_⟩
    cases ht : t.get? "versioner" with
    | none => exact .inr ⟨rfl, .inl ⟨rfl, rfl⟩⟩
    | some o => exact .inl ⟨o, rfl, rfl, fun d h => by cases h⟩
  | some d =>
    rw [hd] at h
    dsimp only at h
    cases ht : t.get? "versioner" with
    | none =>
      rw [ht] at h
      cases h
      exact ⟨rfl, by simp, rfl, .inr ⟨rfl, .inr ⟨d, rfl, rfl⟩⟩⟩
    | some o =>
      rw [ht] at h
      dsimp only at h
      split at h
      · cases h
      · rename_i hr
        cases h
        exact ⟨rfl, by simp, rfl, .inl ⟨o, rfl, rfl, fun d' h => by cases h; exact Classical.not_not.1 hr⟩⟩

theorem newVersioner_ok (g : Given) (d : String) : ObjOK H compOf (newVersioner resolve g d) :=
  ⟨.empty H compOf g.strict, fun _ h => absurd h List.not_mem_nil, rfl⟩

theorem WorldOK.new : WorldOK H compOf World.new where
  table _ h := by cases h
  procs _ _ h := by cases h

theorem WorldOK.step (hH : Function.Injective H) {w : World} (hI : WorldOK H compOf w) {cmd : Cmd} (hl : cmd.Legal compOf) :
    WorldOK H compOf (w.step H resolve cmd) := by
  rcases step_cases (H := H) (resolve := resolve) w cmd with ⟨pid, g, rfl, h⟩ | ⟨pid, rfl, h⟩ | h | ⟨pid, p, p', t', hp, h, hm, ht, hok⟩
  · rw [h]
    refine ⟨hI.table, fun q p hq => ?_⟩
    rcases setProc_cases hq with ⟨rfl, hx⟩ | ⟨_, hx⟩
    · have ho : openStorage resolve w.table g = .ok p := by
        cases hh : openStorage resolve w.table g with
        | error e => rw [hh] at hx; cases hx
        | ok y => rw [hh] at hx; cases hx; rfl
      obtain ⟨h1, h2, h3, h4⟩ := open_ok ho
      refine ⟨fun hv => ?_, fun hc => absurd h3 hc, fun o hc => ?_, fun o cs _ hcs => by rw [h3] at hcs; cases hcs⟩
      · rcases h4 with ⟨o, _, h5, _⟩ | ⟨_, ⟨h5, _⟩ | ⟨d, _, h5⟩⟩
        · rw [h5]; simp
        · exact absurd h5 (h2.1 hv)
        · rw [h5]; simp
      · rcases h4 with ⟨o', h6, h5, _⟩ | ⟨_, ⟨_, h5⟩ | ⟨d, _, h5⟩⟩
        · rw [h5] at hc; cases hc; exact hI.table o h6
        · rw [h5] at hc; cases hc
        · rw [h5] at hc; cases hc; exact newVersioner_ok g d
    · exact hI.procs q p hx
  · rw [h]
    refine ⟨hI.table, fun q p hq => ?_⟩
    rcases setProc_cases hq with ⟨rfl, hx⟩ | ⟨_, hx⟩
    · cases hx
    · exact hI.procs q p hx
  · rw [h]; exact hI
  · rw [h]
    have h1 := hok compOf hH hl hI
    refine ⟨fun o ho => ?_, fun q p2 hq => ?_⟩
    · have ho : t'.get? "versioner" = some o := ho
      rcases ht with rfl | ⟨o', h2, h3⟩
      · exact hI.table o ho
      · rw [h3] at ho
        cases ho
        exact h1.obj o h2
    · rcases setProc_cases hq with ⟨rfl, hx⟩ | ⟨_, hx⟩
      · cases hx; exact h1
      · exact hI.procs q p2 hx

theorem WorldOK.run (hH : Function.Injective H) : ∀ (cmds : List Cmd) {w : World}, WorldOK H compOf w → (∀ c ∈ cmds, c.Legal compOf) →
    WorldOK H compOf (w.run H resolve cmds)
  | [], _, hI, _ => hI
  | c :: cmds, _, hI, hl => WorldOK.run hH cmds (hI.step hH (hl c (by simp))) fun c' hc' => hl c' (by simp [hc'])

end Verif.Opening
