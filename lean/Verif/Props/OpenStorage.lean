import Verif.Spec.OpenStorage
import Verif.Proofs.OpenStorage
import Verif.Props.Versioner
/-!
C89: opening a storage with versions; the options in use; a component brought up to date by hand.
-/
namespace Verif.Props

open Verif Versioner Opening

variable {H : Val → String} {compOf : String → DepKey} {resolve : String → String}

theorem sameRoots_iff (resolve : String → String) (d : String) (l : List String) : SameRoots resolve d l ↔ l = roots resolve d := by
  unfold SameRoots roots
  by_cases h : d = "__main__"
  · simp [h]
  · simp [h]

/-! ### opening -/

/-- C89: opening is refused exactly if the database has a versioner for other paths than the given ones; it writes nothing to the database. -/
theorem C89_open_rejects_iff (w : World) (pid : Nat) (g : Given) :
    ((∃ e, openStorage resolve w.table g = .error e) ↔
      ∃ d r, g.depsPath = some d ∧ recorded w = some r ∧ ¬ SameRoots resolve d r.1.paths) ∧
    (∀ e, openStorage resolve w.table g = .error e → e = .valueError ∧ (w.step H resolve (.opens pid g)).procs pid = none) ∧
    (w.step H resolve (.opens pid g)).table = w.table := by
  refine ⟨?_, ?_, rfl⟩
  · unfold openStorage recorded
    dsimp only
    cases hd : g.depsPath with
    | none =>
      constructor
      · rintro ⟨e, h⟩; cases h
      · rintro ⟨d, r, h, _⟩; cases h
    | some d =>
      dsimp only
      cases ht : w.table.get? "versioner" with
      | none =>
        constructor
        · rintro ⟨e, h⟩; cases h
        · rintro ⟨d, r, _, h, _⟩; cases h
      | some r =>
        dsimp only
        constructor
        · rintro ⟨e, h⟩
          split at h
          · rename_i hr
            exact ⟨d, r, rfl, rfl, fun hs => hr ((sameRoots_iff _ _ _).1 hs)⟩
          · cases h
        · rintro ⟨d', r', h1, h2, h3⟩
          cases h1
          cases h2
          rw [if_pos fun he => h3 ((sameRoots_iff _ _ _).2 he)]
          exact ⟨_, rfl⟩
  · intro e h
    have hp : (w.step H resolve (.opens pid g)).procs pid = none := by
      unfold World.step World.setProc
      dsimp only
      rw [if_pos rfl, h]
      rfl
    refine ⟨?_, hp⟩
    unfold openStorage at h
    dsimp only at h
    split at h
    · cases h
    · split at h
      · split at h
        · cases h; rfl
        · cases h
      · cases h

theorem newVersioner_asked {g : Given} {d : String} (hd : g.depsPath = some d) : AsAsked resolve g (newVersioner resolve g d).1 :=
  ⟨⟨d, hd, (sameRoots_iff _ _ _).2 rfl⟩, fun t h => by unfold newVersioner; rw [h]; rfl, rfl, rfl, rfl, rfl, rfl, rfl, rfl⟩

/-- What a process has stays, in the options. -/
theorem step_spares {w : World} {pid : Nat} {p : Proc} {o : Options} {v : Versioner} (hp : w.procs pid = some p) (hc : p.cache = some (o, v)) {cmd : Cmd}
    (hs : cmd.Spares pid) : ∃ p' v', (w.step H resolve cmd).procs pid = some p' ∧ p'.cache = some (o, v') ∧ p'.given = p.given ∧ p'.versioned = p.versioned := by
  have hother : ∀ (w' : World) (q : Nat) (x : Option Proc), w'.procs = w.procs → q ≠ pid → (w'.setProc q x).procs pid = some p := by
    intro w' q x hw hq
    unfold World.setProc
    dsimp only
    rw [if_neg fun h => hq h.symm, hw, hp]
  rcases step_cases (H := H) (resolve := resolve) w cmd with ⟨q, g, rfl, h⟩ | ⟨q, rfl, h⟩ | h | ⟨q, p1, p', t', hq, h, hm, -, -⟩
  · rw [h]; exact ⟨p, v, hother w q _ rfl hs, hc, rfl, rfl⟩
  · rw [h]; exact ⟨p, v, hother w q _ rfl hs, hc, rfl, rfl⟩
  · rw [h]; exact ⟨p, v, hp, hc, rfl, rfl⟩
  · rw [h]
    by_cases he : q = pid
    · subst he
      rw [hp] at hq
      cases hq
      have hne := hm.has (by rw [hc]; simp)
      cases hc' : p'.cache with
      | none => exact absurd hc' hne
      | some o' =>
        obtain ⟨o1, h1, h2⟩ := hm.opts o' hc'
        rcases h1 with h1 | ⟨h1, _⟩
        · rw [hc] at h1
          cases h1
          obtain ⟨a, b⟩ := o'
          cases h2
          exact ⟨p', b, if_pos rfl, hc', hm.given, hm.versioned⟩
        · rw [hc] at h1; cases h1
    · exact ⟨p, v, hother { w with table := t' } q _ rfl he, hc, rfl, rfl⟩

theorem run_spares {pid : Nat} {o : Options} : ∀ (cmds : List Cmd) {w : World} {p : Proc} {v : Versioner}, w.procs pid = some p → p.cache = some (o, v) →
    (∀ c ∈ cmds, c.Spares pid) → ∃ p' v', (w.run H resolve cmds).procs pid = some p' ∧ p'.cache = some (o, v') ∧ p'.given = p.given ∧ p'.versioned = p.versioned
  | [], _, p, v, hp, hc, _ => ⟨p, v, hp, hc, rfl, rfl⟩
  | c :: cmds, w, p, v, hp, hc, hs => by
    obtain ⟨p1, v1, h1, h2, h3, h4⟩ := step_spares (H := H) (resolve := resolve) hp hc (hs c (by simp))
    obtain ⟨p2, v2, g1, g2, g3, g4⟩ := run_spares cmds h1 h2 fun c' hc' => hs c' (by simp [hc'])
    exact ⟨p2, v2, g1, g2, g3.trans h3, g4.trans h4⟩

theorem orun_append (w : World) (a b : List Cmd) : w.run H resolve (a ++ b) = (w.run H resolve a).run H resolve b := List.foldl_append ..

/-- C89: as long as a process that has opened the database with versions runs, it uses the options that were in the database when it opened
it, if there were any, and otherwise the ones it asked for, whatever it and other processes do. -/
theorem C89_options_in_use (hH : Function.Injective H) {before later : List Cmd} {pid : Nat} {g : Given} {d : String} {p0 : Proc}
    (hleg : ∀ c ∈ before ++ .opens pid g :: later, c.Legal compOf) (hd : g.depsPath = some d)
    (hopen : openStorage resolve (World.new.run H resolve before).table g = .ok p0) (hs : ∀ c ∈ later, c.Spares pid) :
    ∃ p o v, (World.new.run H resolve (before ++ .opens pid g :: later)).procs pid = some p ∧ p.cache = some (o, v) ∧ p.versioned = true ∧ dumpConfig p = g ∧
      v.strict = o.strict ∧ (∀ r, recorded (World.new.run H resolve before) = some r → o = r.1) ∧
      (recorded (World.new.run H resolve before) = none → AsAsked resolve g o) := by
  obtain ⟨h1, h2, h3, h4⟩ := open_ok hopen
  have hok : WorldOK H compOf (World.new.run H resolve (before ++ .opens pid g :: later)) := WorldOK.new.run hH _ hleg
  have hget : ∃ o v, p0.cache = some (o, v) ∧ (∀ r, recorded (World.new.run H resolve before) = some r → o = r.1) ∧
      (recorded (World.new.run H resolve before) = none → AsAsked resolve g o) := by
    unfold recorded
    rcases h4 with ⟨r, h5, h6, _⟩ | ⟨h5, ⟨h6, _⟩ | ⟨d', h6, h7⟩⟩
    · exact ⟨r.1, r.2, h6, fun r' hr' => by rw [h5] at hr'; cases hr'; rfl, fun h => by rw [h5] at h; cases h⟩
    · rw [hd] at h6; cases h6
    · exact ⟨_, _, h7, fun r hr => (by rw [h5] at hr; cases hr), fun _ => newVersioner_asked h6⟩
  obtain ⟨o, v, hc, ho1, ho2⟩ := hget
  have hp0 : ((World.new.run H resolve before).step H resolve (.opens pid g)).procs pid = some p0 := by
    unfold World.step World.setProc
    dsimp only
    rw [if_pos rfl, hopen]
    rfl
  obtain ⟨p, v', g1, g2, g3, g4⟩ := run_spares (H := H) (resolve := resolve) later hp0 hc hs
  have hrun : World.new.run H resolve (before ++ .opens pid g :: later) =
      ((World.new.run H resolve before).step H resolve (.opens pid g)).run H resolve later := orun_append _ _ _
  rw [hrun] at hok ⊢
  refine ⟨p, o, v', g1, g2, ?_, ?_, ((hok.procs pid p g1).obj _ g2).strict, ho1, ho2⟩
  · rw [g4]
    exact h2.2 (by rw [hd]; simp)
  · unfold dumpConfig
    rw [g3, h1]

/-- C89: `dump_config` tells the options in use, if the database had no versioner, or one with these options, when it was opened. Without
this condition it does not, see `C89_refuted_options`. -/
theorem C89_config_partial (hH : Function.Injective H) {before later : List Cmd} {pid : Nat} {g : Given} {d : String} {p0 : Proc}
    (hleg : ∀ c ∈ before ++ .opens pid g :: later, c.Legal compOf) (hd : g.depsPath = some d)
    (hopen : openStorage resolve (World.new.run H resolve before).table g = .ok p0) (hs : ∀ c ∈ later, c.Spares pid)
    (hsame : ∀ r, recorded (World.new.run H resolve before) = some r → AsAsked resolve g r.1) :
    ∃ p o v, (World.new.run H resolve (before ++ .opens pid g :: later)).procs pid = some p ∧ p.cache = some (o, v) ∧
      AsAsked resolve (dumpConfig p) o ∧ v.strict = (dumpConfig p).strict := by
  obtain ⟨p, o, v, h1, h2, -, h3, h4, h5, h6⟩ := C89_options_in_use hH hleg hd hopen hs
  have ha : AsAsked resolve g o := by
    cases hr : recorded (World.new.run H resolve before) with
    | none => exact h6 hr
    | some r => rw [h5 r hr]; exact hsame r hr
  exact ⟨p, o, v, h1, h2, by rw [h3]; exact ha, by rw [h3, h4, ha.strict]⟩

/-! ### the first one wins -/

/-- All versioners there are have these options. -/
structure Settled (o : Options) (w : World) : Prop where
  table : ∀ r, recorded w = some r → r.1 = o
  procs : ∀ q p r, w.procs q = some p → p.cache = some r → r.1 = o

theorem Settled.step {o : Options} {w : World} (hS : Settled o w) {cmd : Cmd} (hc : recorded w ≠ none ∨ cmd.NoOpen) :
    Settled o (w.step H resolve cmd) ∧ (recorded w ≠ none → recorded (w.step H resolve cmd) ≠ none) := by
  rcases step_cases (H := H) (resolve := resolve) w cmd with ⟨q, g, rfl, h⟩ | ⟨q, rfl, h⟩ | h | ⟨q, p1, p', t', hq, h, hm, ht, -⟩
  · rw [h]
    refine ⟨⟨hS.table, fun q' p r hp hr => ?_⟩, id⟩
    rcases setProc_cases hp with ⟨rfl, hx⟩ | ⟨_, hx⟩
    · have ho : openStorage resolve w.table g = .ok p := by
        cases hh : openStorage resolve w.table g with
        | error e => rw [hh] at hx; cases hx
        | ok y => rw [hh] at hx; cases hx; rfl
      obtain ⟨-, -, -, h4⟩ := open_ok ho
      rcases h4 with ⟨r', h5, h6, _⟩ | ⟨h5, _⟩
      · rw [h6] at hr; cases hr; exact hS.table _ h5
      · rcases hc with hc | hc
        · exact absurd h5 hc
        · exact hc.elim
    · exact hS.procs q' p r hx hr
  · rw [h]
    refine ⟨⟨hS.table, fun q' p r hp hr => ?_⟩, id⟩
    rcases setProc_cases hp with ⟨rfl, hx⟩ | ⟨_, hx⟩
    · cases hx
    · exact hS.procs q' p r hx hr
  · rw [h]; exact ⟨hS, id⟩
  · rw [h]
    have hp' : ∀ r, p'.cache = some r → r.1 = o := by
      intro r hr
      obtain ⟨o1, h1, h2⟩ := hm.opts r hr
      rw [h2]
      rcases h1 with h1 | ⟨_, h1⟩
      · exact hS.procs q p1 o1 hq h1
      · exact hS.table o1 h1
    refine ⟨⟨fun r hr => ?_, fun q' p r hp hr => ?_⟩, fun hne => ?_⟩
    · have hr : t'.get? "versioner" = some r := hr
      rcases ht with rfl | ⟨o', h2, h3⟩
      · exact hS.table r hr
      · rw [h3] at hr
        cases hr
        exact hp' _ h2
    · rcases setProc_cases hp with ⟨rfl, hx⟩ | ⟨_, hx⟩
      · cases hx; exact hp' r hr
      · exact hS.procs q' p r hx hr
    · show t'.get? "versioner" ≠ none
      rcases ht with rfl | ⟨o', h2, h3⟩
      · exact hne
      · rw [h3]; simp

theorem Settled.noOpen {o : Options} : ∀ (cmds : List Cmd) {w : World}, Settled o w → (∀ c ∈ cmds, c.NoOpen) → Settled o (w.run H resolve cmds)
  | [], _, hS, _ => hS
  | c :: cmds, _, hS, h => Settled.noOpen cmds (hS.step (.inr (h c (by simp)))).1 fun c' hc' => h c' (by simp [hc'])

theorem Settled.run {o : Options} : ∀ (cmds : List Cmd) {w : World}, Settled o w → recorded w ≠ none →
    Settled o (w.run H resolve cmds) ∧ recorded (w.run H resolve cmds) ≠ none
  | [], _, hS, h => ⟨hS, h⟩
  | _ :: cmds, _, hS, h => Settled.run cmds (hS.step (.inl h)).1 ((hS.step (.inl h)).2 h)

/-- C89: a new database is opened with versions, and no other process opens it until a versioner is in it. From then on the options in the
database, and the ones in use in every process, are those the first process asked for, and everyone else is let in exactly if they ask for
the same paths or for no versions. Missing: that no other process opens the database meanwhile; without this it is false, see
`C89_refuted_race`. -/
theorem C89_first_wins_partial {pid : Nat} {g : Given} {d : String} (hd : g.depsPath = some d) {mid rest : List Cmd} (hmid : ∀ c ∈ mid, c.NoOpen)
    (hrec : recorded (World.new.run H resolve (.opens pid g :: mid)) ≠ none) :
    ∃ r, recorded (World.new.run H resolve (.opens pid g :: mid ++ rest)) = some r ∧ AsAsked resolve g r.1 ∧
      (∀ q p r', (World.new.run H resolve (.opens pid g :: mid ++ rest)).procs q = some p → p.cache = some r' → r'.1 = r.1) ∧
      ∀ g' : Given, (∃ p, openStorage resolve (World.new.run H resolve (.opens pid g :: mid ++ rest)).table g' = .ok p) ↔
        ∀ d', g'.depsPath = some d' → ∃ paths, SameRoots resolve d' paths ∧ SameRoots resolve d paths := by
  have h0 : Settled (newVersioner resolve g d).1 (World.new.step H resolve (.opens pid g)) := by
    refine ⟨fun r hr => ?_, fun q p r hp hr => ?_⟩
    · cases hr
    · rcases setProc_cases hp with ⟨rfl, hx⟩ | ⟨_, hx⟩
      · unfold openStorage at hx
        rw [hd] at hx
        cases hx
        cases hr
        rfl
      · cases hx
  have h1 : Settled (newVersioner resolve g d).1 (World.new.run H resolve (.opens pid g :: mid)) := h0.noOpen mid hmid
  obtain ⟨h2, h3⟩ := h1.run (H := H) (resolve := resolve) rest hrec
  rw [← orun_append] at h2 h3
  generalize World.new.run H resolve (.opens pid g :: mid ++ rest) = w at *
  cases hr : recorded w with
  | none => exact absurd hr h3
  | some r =>
    have hro := h2.table r hr
    refine ⟨r, rfl, by rw [hro]; exact newVersioner_asked hd, fun q p r' hp hr' => by rw [hro]; exact h2.procs q p r' hp hr', fun g' => ?_⟩
    have hpaths : r.1.paths = roots resolve d := by rw [hro]; rfl
    constructor
    · rintro ⟨p, hp⟩ d' hd'
      obtain ⟨-, -, -, h4⟩ := open_ok hp
      rcases h4 with ⟨r', h5, h6, h7⟩ | ⟨h5, _⟩
      · have : recorded w = some r' := h5
        rw [hr] at this
        cases this
        exact ⟨r.1.paths, (sameRoots_iff _ _ _).2 (h7 d' hd'), (sameRoots_iff _ _ _).2 hpaths⟩
      · exact absurd h5 h3
    · intro h
      cases ho : openStorage resolve w.table g' with
      | ok p => exact ⟨p, rfl⟩
      | error e =>
        obtain ⟨d', r', a1, a2, a3⟩ := (C89_open_rejects_iff (H := H) (resolve := resolve) w 0 g').1.1 ⟨e, ho⟩
        rw [hr] at a2
        cases a2
        obtain ⟨paths, b1, b2⟩ := h d' a1
        rw [sameRoots_iff] at b1 b2
        exact absurd ((sameRoots_iff _ _ _).2 (by rw [hpaths, ← b2, b1])) a3

/-! ### one component brought up to date -/

/-- C89: bringing a component up to date succeeds exactly if the component is known, the code has it, and the user does not abort when they are
asked; they are asked only if they did not say what the change is and the code is new. Then the current commit of the component is the
one of the code, which is the result; every commit made before is as it was; new code has the meaning of the code before unless the change is
semantic; other components are as before. If it fails nothing changes. -/
theorem C89_sync_component (hH : Function.Injective H) {cmds : List Cmd} (hleg : ∀ c ∈ cmds, c.Legal compOf) {pid : Nat} {p p1 : Proc} {o : Options} {v : Versioner}
    (hp : (World.new.run H resolve cmds).procs pid = some p) (hv : getVersioner (World.new.run H resolve cmds).table p = .ok ((o, v), p1))
    (k : DepKey) (b : Option Bool) (cs : CodeState) (a : Answer) :
    ((∃ x, (syncComponent H (World.new.run H resolve cmds).table p k b cs a).1 = .ok x) ↔
      ∃ d n c, v.dags.get? k = some d ∧ cs.get? k = some n ∧ n.content = some c ∧ (b = none → a = .abort → c.hash H ∈ d.commits.keys)) ∧
    (∀ x, (syncComponent H (World.new.run H resolve cmds).table p k b cs a).1 = .ok x →
      ∃ v' d d' n c, (syncComponent H (World.new.run H resolve cmds).table p k b cs a).2.cache = some (o, v') ∧ v' = { v with dags := v'.dags } ∧
        v.dags.get? k = some d ∧ v'.dags.get? k = some d' ∧ (∀ k', k' ≠ k → v'.dags.get? k' = v.dags.get? k') ∧
        cs.get? k = some n ∧ n.content = some c ∧ x = c.hash H ∧ d'.head = some x ∧
        (∀ y e, d.commits.get? y = some e → d'.commits.get? y = some e) ∧ (∀ y, y ∈ d'.commits.keys ↔ y ∈ d.commits.keys ∨ y = x) ∧
        (x ∉ d.commits.keys → ∃ h ho e, d.head = some h ∧ d.commits.get? h = some ho ∧ d'.commits.get? x = some e ∧
          (b = some true → e.semanticHash = x) ∧ (b = some false → e.semanticHash = ho.semanticHash) ∧
          (b = none → (a = .yes ∧ e.semanticHash = x) ∨ (a = .no ∧ e.semanticHash = ho.semanticHash)))) ∧
    (∀ e, (syncComponent H (World.new.run H resolve cmds).table p k b cs a).1 = .error e →
      (syncComponent H (World.new.run H resolve cmds).table p k b cs a).2.cache = some (o, v)) := by
  have hok := WorldOK.new.run (resolve := resolve) hH cmds hleg
  generalize World.new.run H resolve cmds = w at *
  obtain ⟨rfl, hsrc⟩ := getVersioner_ok hv
  have hI : ObjOK H compOf (o, v) := (source_ok hok hp hsrc).1
  have hinv := hI.inv
  dsimp only at hinv
  unfold Opening.syncComponent
  rw [hv]
  dsimp only
  rcases syncComponent_cases (H := H) (s := v) k b cs a with ⟨e, h⟩ | ⟨d, n, c, d', x, h1, h2, h3, h4, h⟩
  · refine ⟨⟨?_, ?_⟩, ?_, ?_⟩
    · rw [h]; rintro ⟨x, hx⟩; cases hx
    · rintro ⟨d, n, c, g1, g2, g3, g4⟩
      obtain ⟨r, hr⟩ := sync_told (hinv.dagOK k d g1) (hinv.dagHead k d g1) c b a g4
      unfold Versioner.syncComponent
      rw [g1]
      dsimp only
      rw [g2]
      dsimp only
      rw [g3]
      dsimp only
      rw [hr]
      exact ⟨_, rfl⟩
    · rw [h]; intro x hx; cases hx
    · rw [h]; intro _ _; rfl
  · rw [h]
    dsimp only
    obtain ⟨o1, rfl, o3, o4, o5⟩ := sync_does (hinv.dagOK k d h1) h4
    refine ⟨⟨fun _ => ⟨d, n, c, h1, h2, h3, ?_⟩, fun _ => ⟨_, rfl⟩⟩, ?_, ?_⟩
    · rintro rfl rfl
      exact sync_abort (hinv.dagOK k d h1) h4
    · rintro x hx
      cases hx
      refine ⟨_, d, d', n, c, rfl, rfl, h1, Dict.get?_set_self _ _ _, fun k' hk' => Dict.get?_set_ne _ _ fun h => hk' h.symm, h2, h3, rfl, o3, o4, ?_, ?_⟩
      · intro y
        rcases o5 with ⟨g1, g2⟩ | ⟨_, _, _, _, _, _, _, _, _, _, _, g⟩
        · rw [g2]
          exact ⟨.inl, fun h => h.elim id fun h => h ▸ g1⟩
        · exact g y
      · intro hn
        rcases o5 with ⟨g1, _⟩ | ⟨_, hd, ho, s, e, g1, g2, g3, g4, g5, _⟩
        · exact absurd g1 hn
        · refine ⟨hd, ho, e, g1, g2, g4, ?_, ?_, ?_⟩
          · rintro rfl; cases g3; exact g5
          · rintro rfl; cases g3; exact g5
          · rintro rfl
            cases a with
            | yes => cases g3; exact .inl ⟨rfl, g5⟩
            | no => cases g3; exact .inr ⟨rfl, g5⟩
            | abort => cases g3
    · intro e he; cases he

/-- C89: when it is told what the change is, nobody is asked: the answer makes no difference. -/
theorem C89_sync_component_told (t : Table) (p : Proc) (k : DepKey) (b : Bool) (cs : CodeState) (a a' : Answer) :
    Opening.syncComponent H t p k (some b) cs a = Opening.syncComponent H t p k (some b) cs a' := rfl

/-- Syncing everything with answers that differ only at a component that is at its code already. -/
theorem syncDags_settled {cs : CodeState} {k : DepKey} {x : String} {a a' : DepKey → Answer} (hc : ∃ n c, cs.get? k = some n ∧ n.content = some c ∧ c.hash H = x)
    (haa : ∀ k', k' ≠ k → a k' = a' k') : ∀ (l : List (DepKey × Dag String Content)), (∀ d, (k, d) ∈ l → d.head = some x) →
    syncDags H cs a l = syncDags H cs a' l
  | [], _ => rfl
  | (k', d) :: rest, hl => by
    unfold syncDags
    rw [syncDags_settled hc haa rest fun d hd => hl d (List.mem_cons_of_mem _ hd)]
    by_cases hk : k' = k
    · subst hk
      obtain ⟨n, c, h1, h2, h3⟩ := hc
      have hh := hl d (by simp)
      rw [h1]
      dsimp only
      rw [h2]
      have hs : ∀ r : Answer, d.sync (Content.hash H) c none r = .ok (d, x) := by
        intro r
        unfold Dag.sync
        rw [hh]
        dsimp only
        rw [if_pos h3.symm]
      dsimp only
      rw [hs, hs]
    · rw [haa k' hk]

/-- C89: a component brought up to date, the versioner committed and the database opened by another process: there the component is at
the code too, and on entering a context with this code nobody is asked about it. Missing: the commit, and that the storage was opened with
versions; without it nothing is kept, see `C89_refuted_sync_lost`. -/
theorem C89_sync_durable_partial (hH : Function.Injective H) {cmds : List Cmd} (hleg : ∀ c ∈ cmds, c.Legal compOf) {pid q : Nat} {p p1 q1 : Proc} {o : Options} {v : Versioner}
    (hp : (World.new.run H resolve cmds).procs pid = some p) (hver : p.versioned = true)
    (hv : getVersioner (World.new.run H resolve cmds).table p = .ok ((o, v), p1)) {k : DepKey} {b : Option Bool} {cs : CodeState} {a : Answer} {x : String}
    (hsync : (Opening.syncComponent H (World.new.run H resolve cmds).table p k b cs a).1 = .ok x) {g : Given}
    (hq : (World.new.run H resolve (cmds ++ [.sync pid k b cs a, .commit pid, .opens q g])).procs q = some q1) :
    ∃ v' d', q1.cache = some (o, v') ∧ v'.dags.get? k = some d' ∧ d'.head = some x ∧
      ∀ (t : Table) (a a' : DepKey → Answer), (∀ k', k' ≠ k → a k' = a' k') → Opening.enter H t q1 cs a = Opening.enter H t q1 cs a' := by
  obtain ⟨-, h2, -⟩ := C89_sync_component (resolve := resolve) hH hleg hp hv k b cs a
  obtain ⟨v', d, d', n, c, g1, g2, g3, g4, g5, g6, g7, rfl, g8, -⟩ := h2 x hsync
  have hok := WorldOK.new.run (resolve := resolve) hH cmds hleg
  rw [orun_append] at hq
  generalize World.new.run H resolve cmds = w at *
  have hpv : (Opening.syncComponent H w.table p k b cs a).2.versioned = true :=
    ((sync_does_proc (compOf := compOf) w.table p k b cs a).1.versioned).trans hver
  have hok' := ((sync_does_proc (compOf := compOf) w.table p k b cs a).2 w pid rfl hok hp).obj _ g1
  have hw1 : w.step H resolve (.sync pid k b cs a) = w.setProc pid (some (Opening.syncComponent H w.table p k b cs a).2) := by
    unfold World.step
    dsimp only
    rw [hp]
  have hw2 : ((w.setProc pid (some (Opening.syncComponent H w.table p k b cs a).2)).step H resolve (.commit pid)).table.get? "versioner" = some (o, v') := by
    have hpp : (w.setProc pid (some (Opening.syncComponent H w.table p k b cs a).2)).procs pid = some (Opening.syncComponent H w.table p k b cs a).2 := if_pos rfl
    have hcm : Opening.commit (w.setProc pid (some (Opening.syncComponent H w.table p k b cs a).2)).table (Opening.syncComponent H w.table p k b cs a).2 =
        .ok (w.table.set "versioner" (o, v')) := by
      unfold Opening.commit
      rw [if_pos hpv, g1]
      rfl
    unfold World.step
    dsimp only
    rw [hpp]
    dsimp only
    rw [hcm]
    exact Dict.get?_set_self _ _ _
  have hq : (((w.step H resolve (.sync pid k b cs a)).step H resolve (.commit pid)).step H resolve (.opens q g)).procs q = some q1 := hq
  rw [hw1] at hq
  generalize (w.setProc pid (some (Opening.syncComponent H w.table p k b cs a).2)).step H resolve (.commit pid) = w2 at *
  have ho : openStorage resolve w2.table g = .ok q1 := by
    rcases setProc_cases hq with ⟨_, hx⟩ | ⟨hne, _⟩
    · cases hh : openStorage resolve w2.table g with
      | error e => rw [hh] at hx; cases hx
      | ok y => rw [hh] at hx; cases hx; rfl
    · exact absurd rfl hne
  obtain ⟨-, -, -, h4⟩ := open_ok ho
  have hq1 : q1.cache = some (o, v') := by
    rcases h4 with ⟨r, h5, h6, _⟩ | ⟨h5, _⟩
    · rw [hw2] at h5; cases h5; exact h6
    · rw [hw2] at h5; cases h5
  refine ⟨v', d', hq1, g4, g8, fun t a1 a2 haa => ?_⟩
  unfold Opening.enter
  have hgv : getVersioner t q1 = .ok ((o, v'), q1) := by
    unfold getVersioner
    rw [hq1]
  rw [hgv]
  dsimp only
  unfold syncCodebase
  rw [syncDags_settled (H := H) (cs := cs) (k := k) ⟨n, c, g6, g7, rfl⟩ haa v'.dags fun e he => ?_]
  have := get?_of_mem hok'.inv.dagsNodup he
  rw [g4] at this
  cases this
  exact g8

/-- C89: and in the process itself, after bringing a component up to date nobody is asked about it on entering a context with this code. -/
theorem C89_sync_then_enter (hH : Function.Injective H) {cmds : List Cmd} (hleg : ∀ c ∈ cmds, c.Legal compOf) {pid : Nat} {p p1 : Proc} {o : Options} {v : Versioner}
    (hp : (World.new.run H resolve cmds).procs pid = some p) (hv : getVersioner (World.new.run H resolve cmds).table p = .ok ((o, v), p1))
    {k : DepKey} {b : Option Bool} {cs : CodeState} {a : Answer} {x : String}
    (hsync : (Opening.syncComponent H (World.new.run H resolve cmds).table p k b cs a).1 = .ok x) (t : Table) {a1 a2 : DepKey → Answer}
    (haa : ∀ k', k' ≠ k → a1 k' = a2 k') :
    Opening.enter H t (Opening.syncComponent H (World.new.run H resolve cmds).table p k b cs a).2 cs a1 =
      Opening.enter H t (Opening.syncComponent H (World.new.run H resolve cmds).table p k b cs a).2 cs a2 := by
  obtain ⟨-, h2, -⟩ := C89_sync_component (resolve := resolve) hH hleg hp hv k b cs a
  obtain ⟨v', d, d', n, c, g1, g2, g3, g4, g5, g6, g7, rfl, g8, -⟩ := h2 x hsync
  have hok := WorldOK.new.run (resolve := resolve) hH cmds hleg
  generalize World.new.run H resolve cmds = w at *
  have hok' := ((sync_does_proc (compOf := compOf) w.table p k b cs a).2 w pid rfl hok hp).obj _ g1
  generalize (Opening.syncComponent H w.table p k b cs a).2 = p2 at *
  unfold Opening.enter
  have hgv : getVersioner t p2 = .ok ((o, v'), p2) := by
    unfold getVersioner
    rw [g1]
  rw [hgv]
  dsimp only
  unfold syncCodebase
  rw [syncDags_settled (H := H) (cs := cs) (k := k) ⟨n, c, g6, g7, rfl⟩ haa v'.dags fun e he => ?_]
  have := get?_of_mem hok'.inv.dagsNodup he
  rw [g4] at this
  cases this
  exact g8

/-! ### concrete sessions -/

/-- `Storage(db, deps_path=path, strict_tracing=strict)` -/
def asking (path : Option String) (strict : Bool) : Given := ⟨path, none, strict, true, true, false, true, false, none⟩

/-- the path as it is -/
def atHome (s : String) : String := "/home/" ++ s

/-- A first process with versions of the code in `lib`: a context, an execution of `f`, which calls `g`. -/
def openRun : List Cmd :=
  [.opens 0 (asking (some "lib") true), .enter 0 (codeOf "def g" "0") (fun _ => .yes),
   .executed 0 "f(1)" ["f"] (traceOf "0") [("f", "g"), ("f", "G")], .exit 0]

theorem openRun_legal : ∀ c ∈ openRun, c.Legal (fun _ => "f") := by
  intro c h
  simp only [openRun, List.mem_cons, List.not_mem_nil, or_false] at h
  rcases h with rfl | rfl | rfl | rfl
  · trivial
  · show Dict.keys (codeOf "def g" "0") |>.Nodup
    decide
  · exact ⟨rfl, by decide⟩
  · trivial

/-- the current commit of `g` -/
def headAt (o : Option Obj) : Option String := (o.bind fun o => o.2.dags.get? "g").bind (·.head)

/-- After the first process: its options are in the database; who asks for another path is refused, for the same path let in. -/
example : (recorded (World.new.run encH atHome openRun)).map (·.1) = some ⟨["/home/lib"], "DecTracer", true, true, true, false, true, false, none⟩ ∧
    (∃ e, openStorage atHome (World.new.run encH atHome openRun).table (asking (some "other") true) = .error e) ∧
    (∃ p, openStorage atHome (World.new.run encH atHome openRun).table (asking (some "lib") true) = .ok p) ∧
    (∃ p, openStorage atHome (World.new.run encH atHome openRun).table (asking none true) = .ok p) := by
  refine ⟨by decide +kernel, ⟨_, rfl⟩, ⟨_, rfl⟩, ⟨_, rfl⟩⟩

/-- A second process asks for tracing that is not strict. -/
def reopenRun : List Cmd := [.opens 1 (asking (some "lib") false), .enter 1 (codeOf "def g" "0") (fun _ => .yes)]

/-- C89: the options given when opening a database that has a versioner are silently ignored. `dump_config` says that tracing is not strict; but
an execution with a dependency that is not in the code state is refused, as it is in strict mode, while in a new database it is accepted. -/
theorem C89_refuted_options :
    ((World.new.run encH atHome (openRun ++ reopenRun)).procs 1).map (fun p => (dumpConfig p).strict) = some false ∧
    ((World.new.run encH atHome (openRun ++ reopenRun)).procs 1).bind (fun p => p.cache.map fun o => (o.1.strict, o.2.strict)) = some (true, true) ∧
    ((World.new.run encH atHome (openRun ++ reopenRun)).procs 1).map (fun p =>
      (executed encH p "f(2)" ["f"] (traceOf "0" ++ [("h", .callable none "bh")]) [("f", "h")]).1.toOption) = some none ∧
    ((World.new.run encH atHome reopenRun).procs 1).map (fun p =>
      (executed encH p "f(2)" ["f"] (traceOf "0" ++ [("h", .callable none "bh")]) [("f", "h")]).1.toOption) = some (some ()) := by
  decide +kernel

/-- Two processes open a new database, with different paths, before either has written to it. -/
def openRace : List Cmd :=
  [.opens 0 (asking (some "lib") true), .opens 1 (asking (some "other") false), .enter 0 (codeOf "def g" "0") (fun _ => .yes),
   .executed 0 "f(1)" ["f"] (traceOf "0") [("f", "g"), ("f", "G")], .exit 0]

/-- C89: the options in the database, and the whole history with them, are replaced by those of a process that opened it before they were
written. Then the paths of the first process are refused, although it committed first and nobody else could open other paths since. -/
theorem C89_refuted_race :
    (recorded (World.new.run encH atHome openRace)).map (fun o => (o.1.paths, o.2.df.length)) = some (["/home/lib"], 1) ∧
    (recorded (World.new.run encH atHome (openRace ++ [.commit 1]))).map (fun o => (o.1.paths, o.2.df.length)) = some (["/home/other"], 0) ∧
    (openStorage atHome (World.new.run encH atHome openRace).table (asking (some "lib") true)).toOption.isSome = true ∧
    (openStorage atHome (World.new.run encH atHome (openRace ++ [.commit 1])).table (asking (some "lib") true)).toOption.isSome = false := by
  decide +kernel

/-- `sync_component` in a second process, told that the change of `g` is not semantic. -/
def syncOne (path : Option String) : List Cmd := openRun ++ [.opens 1 (asking path true), .sync 1 "g" (some false) (codeOf "def g # same" "0") .abort]

/-- It succeeds, and with a commit the next process has it. -/
example : headAt (recorded (World.new.run encH atHome openRun)) = some (encH (.str "def g")) ∧
    headAt (((World.new.run encH atHome (syncOne (some "lib"))).procs 1).bind (·.cache)) = some (encH (.str "def g # same")) ∧
    headAt (((World.new.run encH atHome (syncOne (some "lib") ++ [.commit 1, .opens 2 (asking (some "lib") true)])).procs 2).bind (·.cache)) =
      some (encH (.str "def g # same")) ∧
    ((World.new.run encH atHome (syncOne (some "lib") ++ [.commit 1, .opens 2 (asking (some "lib") true)])).procs 2).map (fun p =>
      (enter encH [] p (codeOf "def g # same" "0") fun _ => .abort).1.toOption) = some (some ()) := by
  decide +kernel

/-- C89: without a commit the answer is lost: `sync_component` succeeds, but stores the versioner under another key and does not write it. The
next process has the old code as the current one, and asks again. With a commit it is lost too if the storage was opened without versions. -/
theorem C89_refuted_sync_lost :
    headAt (((World.new.run encH atHome (syncOne (some "lib"))).procs 1).bind (·.cache)) = some (encH (.str "def g # same")) ∧
    headAt (((World.new.run encH atHome (syncOne (some "lib") ++ [.ends 1, .opens 2 (asking (some "lib") true)])).procs 2).bind (·.cache)) =
      some (encH (.str "def g")) ∧
    ((World.new.run encH atHome (syncOne (some "lib") ++ [.ends 1, .opens 2 (asking (some "lib") true)])).procs 2).map (fun p =>
      (enter encH [] p (codeOf "def g # same" "0") fun _ => .abort).1.toOption) = some none ∧
    headAt (((World.new.run encH atHome (syncOne none)).procs 1).bind (·.cache)) = some (encH (.str "def g # same")) ∧
    headAt (((World.new.run encH atHome (syncOne none ++ [.commit 1, .opens 2 (asking (some "lib") true)])).procs 2).bind (·.cache)) =
      some (encH (.str "def g")) := by
  decide +kernel

/-- The hypotheses of the theorems are met by these sessions. -/
example : (∀ c ∈ openRun, c.Legal (fun _ => "f")) ∧ (∀ c ∈ openRun.drop 1, c.NoOpen) ∧ recorded (World.new.run encH atHome openRun) ≠ none ∧
    (∃ p o, (World.new.run encH atHome openRun).procs 0 = some p ∧ p.versioned = true ∧ getVersioner (World.new.run encH atHome openRun).table p = .ok (o, p) ∧
      (Opening.syncComponent encH (World.new.run encH atHome openRun).table p "g" (some true) (codeOf "def g2" "0") .abort).1.toOption = some (encH (.str "def g2"))) := by
  refine ⟨openRun_legal, ?_, by decide +kernel, _, _, rfl, rfl, rfl, by decide +kernel⟩
  intro c h
  simp only [openRun, List.drop_succ_cons, List.drop_zero, List.mem_cons, List.not_mem_nil, or_false] at h
  rcases h with rfl | rfl | rfl <;> trivial

end Verif.Props
