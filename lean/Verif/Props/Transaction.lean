import Verif.Model.Transaction
import Verif.Examples.World
/-!
C27: transactions; C09: commits and crashes.
-/
namespace Verif.Props

open Verif

section C27
variable {D α : Type}

/-- The database at the start of the attempt `n`, if none of ours took effect before: changed by other processes only. -/
def dbAt (env : Nat → Attempt D α) (db : D) : Nat → D
  | 0 => (env 0).others db
  | n + 1 => (env (n + 1)).others (dbAt env db n)

/-- The ten attempts (storage_utils.py:58). -/
def attempts (env : Nat → Attempt D α) : List (Attempt D α) := (List.range 10).map env

theorem txFile_spec (env : Nat → Attempt D α) (db : D) : ∀ (k i : Nat) (d : D), (env i).others d = dbAt env db i →
    (∃ n x, i ≤ n ∧ n < i + k ∧ txFile ((List.range' i k).map env) d = (.ok x, ((env n).method (dbAt env db n)).2) ∧
      ((env n).method (dbAt env db n)).1 = .ok x ∧ (env n).beginOk = true ∧ (env n).commitOk = true) ∨
    (∃ n e, i ≤ n ∧ n < i + k ∧ txFile ((List.range' i k).map env) d = (.error e, dbAt env db n)) ∨
    (k = 0 ∧ txFile ((List.range' i k).map env) d = (.error .operational, d)) := by
  intro k
  induction k with
  | zero => exact fun i d _ => .inr (.inr ⟨rfl, rfl⟩)
  | succ k ih =>
    intro i d hd
    have hrec : ∀ r, txFile ((List.range' (i + 1) k).map env) (dbAt env db i) = r →
        (∃ n x, i ≤ n ∧ n < i + (k + 1) ∧ r = (.ok x, ((env n).method (dbAt env db n)).2) ∧
          ((env n).method (dbAt env db n)).1 = .ok x ∧ (env n).beginOk = true ∧ (env n).commitOk = true) ∨
        (∃ n e, i ≤ n ∧ n < i + (k + 1) ∧ r = (.error e, dbAt env db n)) := by
      intro r hr
      rcases ih (i + 1) (dbAt env db i) rfl with ⟨n, x, h1, h2, h3, h4⟩ | ⟨n, e, h1, h2, h3⟩ | ⟨h1, h2⟩
      · exact .inl ⟨n, x, by omega, by omega, hr.symm.trans h3, h4⟩
      · exact .inr ⟨n, e, by omega, by omega, hr.symm.trans h3⟩
      · exact .inr ⟨i, _, by omega, by omega, hr.symm.trans h2⟩
    rw [List.range'_succ, List.map_cons]
    unfold txFile
    dsimp only
    rw [hd]
    cases hb : (env i).beginOk with
    | false => exact (hrec _ rfl).elim Or.inl (fun h => Or.inr (Or.inl h))
    | true =>
      rw [if_pos rfl]
      cases hm : (env i).method (dbAt env db i) with
      | mk res db' =>
        cases res with
        | ok x =>
          dsimp only
          cases hc : (env i).commitOk with
          | true => exact .inl ⟨i, x, by omega, by omega, by rw [if_pos rfl, hm], by rw [hm], hb, hc⟩
          | false => exact (hrec _ rfl).elim Or.inl (fun h => Or.inr (Or.inl h))
        | error e =>
          cases e with
          | operational => exact (hrec _ rfl).elim Or.inl (fun h => Or.inr (Or.inl h))
          | other e => exact .inr (.inl ⟨i, .other e, by omega, by omega, rfl⟩)

/-- C27 (partial: file-backed databases): whatever fails in whichever of the ten attempts, and whatever other processes do in
between, an operation in its own transaction either returns, having taken effect exactly once, in one attempt on a database
changed by others only; or raises, and the database is changed by others only. Missing: in-memory databases, where it is
false (`C27_refuted_in_memory`). -/
theorem C27_file_all_or_nothing_partial (env : Nat → Attempt D α) (db : D) :
    (∃ n x, n < 10 ∧ ((env n).method (dbAt env db n)).1 = .ok x ∧ txFile (attempts env) db = (.ok x, ((env n).method (dbAt env db n)).2)) ∨
    (∃ n e, n < 10 ∧ txFile (attempts env) db = (.error e, dbAt env db n)) := by
  unfold attempts
  rw [List.range_eq_range']
  rcases txFile_spec env db 10 0 db rfl with ⟨n, x, _, h2, h3, h4, _⟩ | ⟨n, e, _, h2, h3⟩ | ⟨h, _⟩
  · exact .inl ⟨n, x, by omega, h4, h3⟩
  · exact .inr ⟨n, e, by omega, h3⟩
  · cases h

/-- Ten attempts on a counter: the lock is taken in the first, the second fails in the middle, the third at its commit, the
fourth succeeds; another process adds 100 before each. -/
def counterEnv : Nat → Attempt Nat String := fun n =>
  { others := fun d => d + 100, beginOk := n ≠ 0, commitOk := n ≠ 2,
    method := fun d => if n = 1 then (.error .operational, d + 1) else (.ok "done", d + 2) }

example : txFile (attempts counterEnv) 0 = (.ok "done", 402) := by decide

/-- On an in-memory database without `OperationalError`s, an operation is all or nothing as well. -/
theorem C27_memory_without_operational_errors_partial (env : Nat → Attempt D α) (db : D) (hc : (env 0).commitOk = true)
    (hm : ∀ d', (env 0).method db ≠ (.error .operational, d')) :
    (∃ x db', (env 0).method db = (.ok x, db') ∧ txMem (attempts env) ⟨db, none⟩ = (.ok x, ⟨db', none⟩)) ∨
    (∃ e, txMem (attempts env) ⟨db, none⟩ = (.error e, ⟨db, none⟩)) := by
  unfold attempts
  rw [List.range_succ_eq_map, List.map_cons]
  unfold txMem
  dsimp only
  cases hr : (env 0).method db with
  | mk res db' =>
    cases res with
    | ok x => exact .inl ⟨x, db', rfl, by dsimp only; rw [if_pos hc]⟩
    | error e =>
      cases e with
      | operational => exact absurd hr (hm db')
      | other e => exact .inr ⟨_, rfl⟩

theorem txMem_pending (as : List (Attempt D α)) (c : MemConn D) (d : D) (h : c.pending = some d) : txMem as c = (.error .operational, c) := by
  induction as with
  | nil => rfl
  | cons a as ih =>
    unfold txMem
    rw [h]
    exact ih

/-- C27 is false for in-memory databases: an `OperationalError` in the middle of an operation leaves what was written before
it visible, and every later operation on this storage, whatever it is, fails. -/
theorem C27_refuted_in_memory (env : Nat → Attempt D α) (db half : D) (h : (env 0).method db = (.error .operational, half)) :
    (txMem (attempts env) ⟨db, none⟩).1 = .error .operational ∧ (txMem (attempts env) ⟨db, none⟩).2.visible = half ∧
    ∀ {β : Type} (later : Nat → Attempt D β), (txMem (attempts later) (txMem (attempts env) ⟨db, none⟩).2).1 = .error .operational := by
  have h1 : txMem (attempts env) ⟨db, none⟩ = (.error .operational, ⟨db, some half⟩) := by
    unfold attempts
    rw [List.range_succ_eq_map, List.map_cons]
    unfold txMem
    dsimp only
    rw [h]
    exact txMem_pending _ _ half rfl
  rw [h1]
  exact ⟨rfl, rfl, fun later => by rw [txMem_pending _ _ half rfl]⟩

/-- Concretely: a write, then an `OperationalError` (for instance a missing table). -/
example : txMem (attempts fun _ => ({ others := id, beginOk := true, commitOk := true, method := fun d => (.error .operational, d + 1) } :
    Attempt Nat String)) ⟨0, none⟩ = (.error .operational, ⟨0, some 1⟩) := by decide

end C27

/-! ### C09 -/

/-- All tables are the same (overflow files aside). -/
def SameTables (a b : Disk) : Prop :=
  a.atoms.rows = b.atoms.rows ∧ a.shapes.rows = b.shapes.rows ∧ a.ops.rows = b.ops.rows ∧ a.calls = b.calls

theorem flush_overflow (size : Val → Nat) (cache : Dict String Val) : ∀ (ks : List String) (p : SqlDict Val), p.overflow = none →
    (CachedDict.flush size cache ks p).2.overflow = none ∧ (CachedDict.flush size cache ks p).2.threshold = p.threshold
  | [], p, h => ⟨h, rfl⟩
  | k :: ks, p, h => by
    unfold CachedDict.flush
    cases cache.get? k with
    | none => exact ⟨h, rfl⟩
    | some v =>
      dsimp only
      unfold SqlDict.set
      by_cases hb : size v > p.threshold
      · rw [if_pos hb, h]
        exact ⟨h, rfl⟩
      · rw [if_neg hb]
        exact flush_overflow size cache ks { p with rows := p.rows.set k v } h

/-- C09 (partial: the tables): wherever the process dies during a commit, all tables are as before, or all are as after the
complete commit; and if the commit raises an exception they are all as before. Missing: overflow files, where it is false
(`C09_refuted`). -/
theorem C09_tables_atomic_partial (cfg : Cfg) (s : St) (pt : CrashPoint) :
    (SameTables (crash cfg s pt) s.disk ∨ crash cfg s pt = (commit cfg s).2.disk) ∧
    (∀ e s', commit cfg s = (.error e, s') → SameTables s'.disk s.disk) := by
  constructor
  · cases pt with
    | inAtoms n torn => exact .inl ⟨rfl, rfl, rfl, rfl⟩
    | later => exact .inl ⟨rfl, rfl, rfl, rfl⟩
    | afterCommit => exact .inr rfl
  · intro e s' h
    unfold commit at h
    cases hb : commitBody cfg s with
    | mk r s1 =>
      rw [hb] at h
      cases r with
      | ok _ => cases h
      | error e' =>
        cases h
        exact ⟨rfl, rfl, rfl, rfl⟩

/-- C09 without overflow files: wherever the process dies, the disk is exactly as before or exactly as after the complete
commit. -/
theorem C09_atomic_without_overflow_partial (cfg : Cfg) (s : St) (h : s.atoms.pers.overflow = none) (pt : CrashPoint) :
    crash cfg s pt = s.disk ∨ crash cfg s pt = (commit cfg s).2.disk := by
  have hp : ∀ ks, { (CachedDict.flush cfg.sizeA s.atoms.cache ks s.atoms.pers).2 with rows := s.atoms.pers.rows } = s.atoms.pers := by
    intro ks
    obtain ⟨h1, h2⟩ := flush_overflow cfg.sizeA s.atoms.cache ks s.atoms.pers h
    generalize (CachedDict.flush cfg.sizeA s.atoms.cache ks s.atoms.pers).2 = q at h1 h2
    obtain ⟨r, o, t⟩ := q
    dsimp only at h1 h2 ⊢
    rw [h1, h2]
    generalize hs : s.atoms.pers = p at h
    obtain ⟨r', o', t'⟩ := p
    dsimp only at h ⊢
    rw [h]
  cases pt with
  | inAtoms n torn =>
    left
    unfold crash
    dsimp only
    have ht : tear (CachedDict.flush cfg.sizeA s.atoms.cache (s.atoms.dirty.take n) s.atoms.pers).2 torn =
        (CachedDict.flush cfg.sizeA s.atoms.cache (s.atoms.dirty.take n) s.atoms.pers).2 := by
      have h1 := (flush_overflow cfg.sizeA s.atoms.cache (s.atoms.dirty.take n) s.atoms.pers h).1
      generalize (CachedDict.flush cfg.sizeA s.atoms.cache (s.atoms.dirty.take n) s.atoms.pers).2 = q at h1
      obtain ⟨r, o, t⟩ := q
      cases h1
      cases torn <;> rfl
    rw [ht, hp]
    rfl
  | later =>
    left
    unfold crash
    dsimp only
    rw [hp]
    rfl
  | afterCommit => exact .inr rfl

/-- A partly written overflow file is never repaired: after the crash, the value can be set and committed again, and reading
it back gives the junk (the overflow storage does not overwrite files). -/
theorem C09_torn_file_stays (size : Val → Nat) (p : SqlDict Val) (j : Joblib Val) (k : String) (junk v : Val) (hj : p.overflow = some j)
    (hk : j.exists_ k = false) (hr : p.rows.get? k = none) (hbig : size v > p.threshold) :
    ((((CachedDict.open_ (tear p (some (k, junk)))).set k v).commit size).1 = .ok ()) ∧
    ((CachedDict.open_ (((CachedDict.open_ (tear p (some (k, junk)))).set k v).commit size).2.pers).get k).1 = .ok junk := by
  have h1 : tear p (some (k, junk)) = { p with overflow := some (Dict.set j k junk) } := by
    unfold tear Joblib.set
    dsimp only
    rw [hj, Option.map_some, if_neg (by rw [hk]; simp)]
  rw [h1]
  have h2 : Joblib.set (Dict.set j k junk) k v = Dict.set j k junk := by
    unfold Joblib.set Joblib.exists_
    rw [if_pos (Dict.has_iff.2 (Dict.mem_keys_set.2 (.inl rfl)))]
  have h3 : ((CachedDict.open_ { p with overflow := some (Dict.set j k junk) }).set k v).commit size =
      (.ok (), ⟨{ p with overflow := some (Dict.set j k junk) }, [(k, v)], []⟩) := by
    unfold CachedDict.commit CachedDict.set CachedDict.open_ CachedDict.addKey
    dsimp only
    rw [if_neg List.not_mem_nil]
    unfold CachedDict.flush CachedDict.flush
    simp only [Dict.set, Dict.get?, List.nil_append, if_true]
    unfold SqlDict.set
    dsimp only
    rw [if_pos hbig]
    dsimp only
    rw [h2]
  rw [h3]
  refine ⟨rfl, ?_⟩
  unfold CachedDict.get CachedDict.open_ SqlDict.get
  dsimp only
  rw [hr]
  dsimp only [Dict.get?]
  unfold Joblib.get
  rw [Dict.get?_set_self]

/-- A storage with overflow files for everything, holding one uncommitted call. -/
def bigSt : St :=
  (call Ex.W.cfg Ex.inc [⟨"x", .atom, false, .val (.int 5)⟩] { St.fresh none 100 with atoms := .open_ ⟨[], some [], 0⟩ }).2

/-- C09 is false with overflow files: a crash before the end of the transaction leaves files of the unfinished commit. -/
theorem C09_refuted : (crash Ex.W.cfg bigSt .later).atoms.exists_ (encH (.int 5)) = true ∧ bigSt.disk.atoms.exists_ (encH (.int 5)) = false ∧
    (crash Ex.W.cfg bigSt .later).shapes.rows.keys = [] ∧ (commit Ex.W.cfg bigSt).2.disk.shapes.rows.keys.length = 2 := by
  refine ⟨?_, ?_, ?_, ?_⟩ <;> decide +kernel

end Verif.Props
