import Verif.Model.DropVersion
import Verif.Props.Drop
import Verif.Props.Versioner
/-!
C37: dropping a version.
-/
namespace Verif.Props

open Verif VStorage

/-- The call is recorded in the table with this semantic version. -/
def OfVersion (rows : List Row) (sv h : String) : Prop := ∃ r ∈ rows, r.callHid = h ∧ r.semVer = some sv

/-- The call is one of this version, or was computed from results of such a call. -/
def FromVersion (rows : List Row) (sv h : String) : Prop := ∃ k, OfVersion rows sv k ∧ Star (Flow rows) (.call k) (.call h)

theorem linked_saveCallV (c : CallObj) (sv cv : Option String) : Pres LinkedR (saveCallV c sv cv) := by
  have h1 : Pres Grows (saveCallV c sv cv) := by
    unfold saveCallV
    refine Pres.bind Grows.ord (Pres.read Grows.ord _) (fun _ => Pres.ite (fun _ => Pres.pure Grows.ord _) (fun _ => ?_))
    refine Pres.bind Grows.ord (Pres.bind Grows.ord (Pres.read Grows.ord _) (fun _ => Pres.ite (fun _ => Pres.pure Grows.ord _)
      (fun _ => (quiet_opsSet _).grows))) (fun _ => ?_)
    exact Pres.bind Grows.ord (quiet_saveRefs _).grows (fun _ s => grows_save.1)
  have h2 : Pres SameStale (saveCallV c sv cv) := by
    unfold saveCallV
    refine Pres.bind SameStale.ord (Pres.read SameStale.ord _) (fun _ => Pres.ite (fun _ => Pres.pure SameStale.ord _) (fun _ => ?_))
    refine Pres.bind SameStale.ord (Pres.bind SameStale.ord (Pres.read SameStale.ord _) (fun _ => Pres.ite (fun _ => Pres.pure SameStale.ord _)
      (fun _ => (quiet_opsSet _).sameStale))) (fun _ => ?_)
    exact Pres.bind SameStale.ord (quiet_saveRefs _).sameStale (fun _ s => rfl)
  exact fun s => linked_of (h2 s) (h1 s)

theorem LinkedR.ord : PreOrd LinkedR := ⟨fun _ h => h, fun h1 h2 h => h2 (h1 h)⟩

theorem linked_step (H : Val → String) (cfg : Cfg) (v : VStorage) (c : VStorage.Cmd) (h : Linked v.s) : Linked (v.step H cfg c).2.s := by
  cases c with
  | enter cs answer => exact h
  | record uid roots trace edges c structural =>
    simp only [VStorage.step]
    cases hx : v.st.executed H uid roots trace edges with
    | mk x st =>
      cases x with
      | error e => exact h
      | ok w =>
        exact Pres.bind LinkedR.ord (linked_saveCallV _ _ _) (fun _ => Pres.forM' LinkedR.ord _ (fun c _ => linked_saveCallV c _ _)) v.s h
  | again c known =>
    simp only [VStorage.step]
    cases v.s.calls.getData known with
    | error e => exact h
    | ok d => exact linked_saveCallV _ _ _ v.s h
  | commit =>
    have := linked_of (stale_commit cfg v.s) (grows_commit cfg v.s) h
    simp only [VStorage.step]
    cases hc : Verif.commit cfg v.s with
    | mk x s =>
      rw [hc] at this
      cases x <;> exact this
  | dropCalls hids b => exact linked_dropCalls h
  | dropVersion sv =>
    have := linked_dropCalls (hids := versionHids v.s.calls.pers sv) (b := true) h
    simp only [VStorage.step, VStorage.dropVersion]
    cases hc : Verif.dropCalls (versionHids v.s.calls.pers sv) true v.s with
    | mk x s =>
      rw [hc] at this
      cases x <;> exact this
  | cleanupRefs => exact linked_of (stale_cleanupRefs v.s) (grows_cleanupRefs v.s) h
  | preload =>
    refine ⟨?_, (growsP_preload v.s h.2).1⟩
    show (Verif.preload v.s).2.stale = none
    unfold preload St.setCallCache
    rw [h.1]
  | reopen => exact ⟨rfl, (growsP_reopen v.s h.2).1⟩

theorem linked_run (H : Val → String) (cfg : Cfg) : ∀ (cmds : List VStorage.Cmd) (v : VStorage), Linked v.s → Linked (v.run H cfg cmds).s
  | [], _, h => h
  | c :: cs, v, h => linked_run H cfg cs _ (linked_step H cfg v c h)

theorem dependent_version {rows : List Row} {sv h : String} : Dependent rows [] (versionHids rows sv) (.call h) ↔ FromVersion rows sv h := by
  unfold Dependent FromVersion OfVersion versionHids
  constructor
  · rintro ⟨n, hn, hs⟩
    rcases hn with hn | hn
    · cases hn
    · obtain ⟨k, hk, rfl⟩ := List.mem_map.1 hn
      obtain ⟨r, hr, rfl⟩ := List.mem_map.1 hk
      rw [List.mem_filter] at hr
      exact ⟨_, ⟨r, hr.1, rfl, by simpa using hr.2⟩, hs⟩
  · rintro ⟨k, ⟨r, hr, rfl, hsv⟩, hs⟩
    exact ⟨_, .inr (List.mem_map.2 ⟨_, List.mem_map.2 ⟨r, List.mem_filter.2 ⟨hr, by simpa using hsv⟩, rfl⟩, rfl⟩), hs⟩

/-- C37 (partial: after a successful commit; for calls that are not committed it is false, `C37_refuted_uncommitted`; and the cache was not
cleared): a successful `drop_version` removes exactly the calls of this version and what was computed from their results, from the cache and the
database; the rows of all others are as before. -/
theorem C37_drop_version_calls_partial (H : Val → String) (cfg : Cfg) (strict : Bool) (thr : Nat) (cmds : List VStorage.Cmd) (sv : String)
    {v1 v2 : VStorage} (hcommit : ((fresh strict thr).run H cfg cmds).step H cfg .commit = (.ok (), v1))
    (hdrop : v1.step H cfg (.dropVersion sv) = (.ok (), v2)) :
    (∀ h, v2.s.calls.exists_ h = true ↔ v1.s.calls.exists_ h = true ∧ ¬ FromVersion v1.s.calls.pers sv h) ∧
    (∀ h, v2.s.calls.exists_ h = true → rowsOf v2.s.calls.pers h = rowsOf v1.s.calls.pers h) ∧
    v2.st.versioner = v1.st.versioner.dropSemanticVersion sv ∧ v2.saved = v2.st.versioner ∧
    v2.s.atoms = v1.s.atoms ∧ v2.s.shapes = v1.s.shapes := by
  have hl0 : Linked ((fresh strict thr).run H cfg cmds).s := linked_run H cfg cmds _ (linked_fresh none thr)
  have hl : Linked v1.s := by
    have := linked_step H cfg _ .commit hl0
    rw [hcommit] at this
    exact this
  have hdirty : v1.s.calls.dirty = [] := by
    simp only [VStorage.step] at hcommit
    cases hc : Verif.commit cfg ((fresh strict thr).run H cfg cmds).s with
    | mk x s =>
      rw [hc] at hcommit
      cases x with
      | error e => simp at hcommit
      | ok u =>
        simp only [Prod.mk.injEq, true_and] at hcommit
        obtain ⟨_, h⟩ := commit_calls hc
        rcases h with ⟨⟨e, he⟩, _⟩ | ⟨_, h, _⟩
        · cases he
        · rw [← hcommit]; exact h
  have hpers : ∀ h, v1.s.calls.exists_ h = true → sqlExists v1.s.calls.pers h = true := by
    intro h hh
    rcases exists_iff.1 hh with h1 | h1
    · rcases hl.2 h h1 with h2 | h2
      · rw [hdirty] at h2; simp at h2
      · exact h2
    · exact h1
  simp only [VStorage.step, VStorage.dropVersion] at hdrop
  cases hd : Verif.dropCalls (versionHids v1.s.calls.pers sv) true v1.s with
  | mk x s2 =>
    rw [hd] at hdrop
    cases x with
    | error e => simp at hdrop
    | ok u =>
      simp only [Prod.mk.injEq, true_and] at hdrop
      subst hdrop
      obtain ⟨_, _, ha, hs, _, _, h3, h4, h5⟩ := dropCalls_spec hl.1 hd
      rcases h5 with ⟨_, h6, h7⟩ | ⟨⟨e, he⟩, _⟩
      · have hex : ∀ h, s2.calls.exists_ h = true ↔ v1.s.calls.exists_ h = true ∧ ¬ FromVersion v1.s.calls.pers sv h := by
          intro h
          rw [← dependent_version, ← mem_dropSet]
          constructor
          · intro hh
            rcases exists_iff.1 hh with h8 | h8
            · refine ⟨exists_iff.2 (.inl (h3 h h8)), fun hm => ?_⟩
              rw [h7 h hm] at h8; cases h8
            · rw [h6, sqlExists_filter (p := fun k => k ∈ dropSet v1.s (versionHids v1.s.calls.pers sv) true)] at h8
              exact ⟨exists_iff.2 (.inr h8.1), h8.2⟩
          · rintro ⟨h8, h9⟩
            rw [exists_iff]
            right
            rw [h6, sqlExists_filter (p := fun k => k ∈ dropSet v1.s (versionHids v1.s.calls.pers sv) true)]
            exact ⟨hpers h h8, h9⟩
        refine ⟨hex, ?_, rfl, rfl, ha, hs⟩
        intro h hh
        have hnm : h ∉ dropSet v1.s (versionHids v1.s.calls.pers sv) true := by
          rw [mem_dropSet, dependent_version]; exact ((hex h).1 hh).2
        show rowsOf s2.calls.pers h = _
        rw [h6]
        simp only [rowsOf, List.filter_filter]
        congr 1
        funext r
        by_cases hr : r.callHid = h
        · simp [hr, hnm]
        · simp [hr]
      · cases he

/-! ### a session -/

namespace DropEx

/-- `f` calls `g` and reads `G`; `k` stands alone. -/
def code (g : String) : CodeState := codeOf g "0" ++ [("k", .callable (some "def k") "bk")]

def val (n : Nat) (h : String) : Ref := .atom ("v" ++ toString n) h (some (.int n))

def execF (c : CallObj) : VStorage.Cmd := .record "f(1)" ["f"] (traceOf "0") [("f", "g"), ("f", "G")] (fun _ => c) (fun _ => [])
def execK (uid : String) (c : CallObj) : VStorage.Cmd := .record uid ["k"] [("k", .callable none "bk")] [] (fun _ => c) (fun _ => [])

/-- `f(1)` with the first and with the second version of `g`, and `k` of both results -/
def f1 : CallObj := ⟨"f", "cf1", "f1", [("x", val 1 "x")], [("output_0", val 2 "y1")]⟩
def f2 : CallObj := ⟨"f", "cf2", "f2", [("x", val 1 "x")], [("output_0", val 3 "y2")]⟩
def k1 : CallObj := ⟨"k", "ck1", "k1", [("x", val 2 "y1")], [("output_0", val 4 "z1")]⟩
def k2 : CallObj := ⟨"k", "ck2", "k2", [("x", val 3 "y2")], [("output_0", val 5 "z2")]⟩

def session : List VStorage.Cmd :=
  [.enter (code "def g") (fun _ => .yes), execF f1, execK "k(2)" k1, .enter (code "def g2") (fun _ => .yes), execF f2, execK "k(3)" k2]

def before : VStorage := (fresh true 100).run encH Ex.W.cfg session
def committed : Res VStorage Unit := before.step encH Ex.W.cfg .commit
def dropped : Res VStorage Unit := committed.2.step encH Ex.W.cfg (.dropVersion (svOf "def g2"))

end DropEx

open DropEx

set_option maxRecDepth 20000 in
/-- The hypotheses of `C37_drop_version_calls_partial` hold for this session, -/
example : committed.1 = .ok () ∧ dropped.1 = .ok () := by
  exact ⟨by decide +kernel, by decide +kernel⟩

set_option maxRecDepth 20000 in
/-- and the calls of the first version are left. -/
example : committed.2.s.calls.pers.map (fun r => (r.callHid, r.semVer.isSome)) =
      [("f1", true), ("f1", true), ("k1", true), ("k1", true), ("f2", true), ("f2", true), ("k2", true), ("k2", true)] ∧
    dropped.2.s.calls.pers.map (·.callHid) = ["f1", "f1", "k1", "k1"] ∧ dropped.2.s.calls.cache.callHids = ["f1", "k1"] := by
  exact ⟨by decide +kernel, by decide +kernel, by decide +kernel⟩

set_option maxRecDepth 20000 in
/-- C37 is false for calls that are not committed: the calls of the version stay, and are written by the next commit, although the version is
dropped. -/
theorem C37_refuted_uncommitted :
    (before.step encH Ex.W.cfg (.dropVersion (svOf "def g2"))).1 = .ok () ∧
    ((before.step encH Ex.W.cfg (.dropVersion (svOf "def g2"))).2.step encH Ex.W.cfg .commit).1 = .ok () ∧
    (((before.step encH Ex.W.cfg (.dropVersion (svOf "def g2"))).2.step encH Ex.W.cfg .commit).2.s.calls.pers.filter
      fun r => r.semVer = some (svOf "def g2")).map (·.callHid) = ["f2", "f2"] := by
  exact ⟨by decide +kernel, by decide +kernel, by decide +kernel⟩

set_option maxRecDepth 20000 in
/-- Dependents of other versions are deleted with the version (as documented), but their versions are not: unlike `f(1)`, `k(3)` cannot be
computed again, neither now nor after `f(1)` was computed again. -/
theorem C37_refuted_dependents : (dropped.2.step encH Ex.W.cfg (execF f2)).1 = .ok () ∧
    (dropped.2.step encH Ex.W.cfg (execK "k(3)" k2)).1 = .error .valueError ∧
    ((dropped.2.step encH Ex.W.cfg (execF f2)).2.step encH Ex.W.cfg (execK "k(3)" k2)).1 = .error .valueError := by
  exact ⟨by decide +kernel, by decide +kernel, by decide +kernel⟩

end Verif.Props
