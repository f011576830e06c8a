import Verif.Proofs.VersionedRun
import Verif.Spec.VersionedProcs
/-!
Several processes with one versioned database: what is kept.
-/
namespace Verif.Props

open Verif Tracer Versioner VWorld

variable {V M : Type} {H : Val → String} {enc : DKey → DepKey} {ops : Ops V} {sem : DepKey → String → M}

/-! ### never stale -/

structure WInv (H : Val → String) (enc : DKey → DepKey) (ops : Ops V) (sem : DepKey → String → M) (w : VWorld V) : Prop where
  disk : ∀ v, w.disk.versioner = some v → VInv H (fun uid => enc (ops.key uid)) v ∧ (∀ k, k ∈ v.topology.keys → k ∈ v.nodes.keys) ∧ MeanOk sem v.dags
  dcalls : ∀ uid sv r, ((uid, sv), r) ∈ w.disk.calls → CallOk H enc ops sem uid sv r
  procs : ∀ pid p, w.procs pid = some p → RunInv H enc ops sem p.run

theorem RunInv.withCalls {s : VRun V} (h : RunInv H enc ops sem s) {l : Dict (String × String) V}
    (hl : ∀ uid sv r, ((uid, sv), r) ∈ l → CallOk H enc ops sem uid sv r) : RunInv H enc ops sem { s with calls := l } :=
  ⟨h.inv, h.topoD, h.csNodup, h.mean, hl, h.ctx⟩

theorem WInv.view {w : VWorld V} (hI : WInv H enc ops sem w) {pid : Nat} {p : VProc V} (hp : w.procs pid = some p) :
    RunInv H enc ops sem (VWorld.view w.disk p) := by
  refine (hI.procs pid p hp).withCalls fun uid sv r hm => ?_
  rcases List.mem_append.1 hm with h | h
  · exact (hI.procs pid p hp).calls _ _ _ h
  · exact hI.dcalls _ _ _ h

theorem WInv.new (H : Val → String) (enc : DKey → DepKey) (ops : Ops V) (sem : DepKey → String → M) : WInv H enc ops sem VWorld.new where
  disk v h := by cases h
  dcalls _ _ _ h := by cases h
  procs _ _ h := by cases h

theorem setProc_some {w : VWorld V} {pid q : Nat} {x : Option (VProc V)} {p : VProc V} (h : (w.setProc pid x).procs q = some p) :
    (q = pid ∧ x = some p) ∨ (q ≠ pid ∧ w.procs q = some p) := by
  unfold VWorld.setProc at h
  dsimp only at h
  split at h
  · rename_i he; exact .inl ⟨he, h⟩
  · rename_i he; exact .inr ⟨he, h⟩

theorem setProc_self (w : VWorld V) (pid : Nat) (x : Option (VProc V)) : (w.setProc pid x).procs pid = x := if_pos rfl

theorem setProc_ne (w : VWorld V) {pid q : Nat} (x : Option (VProc V)) (h : q ≠ pid) : (w.setProc pid x).procs q = w.procs q := if_neg h

theorem setProc_disk (w : VWorld V) (pid : Nat) (x : Option (VProc V)) : (w.setProc pid x).disk = w.disk := rfl

theorem WInv.setProc {w : VWorld V} (hI : WInv H enc ops sem w) {pid : Nat} {x : Option (VProc V)}
    (hx : ∀ p, x = some p → RunInv H enc ops sem p.run) : WInv H enc ops sem (w.setProc pid x) where
  disk := hI.disk
  dcalls := hI.dcalls
  procs q p hp := by
    rcases setProc_some hp with ⟨rfl, h⟩ | ⟨_, h⟩
    · exact hx p h
    · exact hI.procs q p h

theorem WInv.update {w : VWorld V} (hI : WInv H enc ops sem w) {d : VDisk V} {pid : Nat} {p : VProc V}
    (h1 : ∀ v, d.versioner = some v → VInv H (fun uid => enc (ops.key uid)) v ∧ (∀ k, k ∈ v.topology.keys → k ∈ v.nodes.keys) ∧ MeanOk sem v.dags)
    (h2 : ∀ uid sv r, ((uid, sv), r) ∈ d.calls → CallOk H enc ops sem uid sv r)
    (hx : ∀ p', some p = some p' → RunInv H enc ops sem p'.run) : WInv H enc ops sem (VWorld.setProc { w with disk := d } pid (some p)) :=
  WInv.setProc (w := { w with disk := d }) ⟨h1, h2, hI.procs⟩ hx

theorem opened_inv {w : VWorld V} (hI : WInv H enc ops sem w) (strict : Bool) (src : Source) : RunInv H enc ops sem (VWorld.opened w.disk strict src).run := by
  have h0 := RunInv.new H enc ops sem strict src
  unfold VWorld.opened
  cases hv : w.disk.versioner with
  | none => exact ⟨h0.inv, h0.topoD, h0.csNodup, h0.mean, h0.calls, h0.ctx⟩
  | some v =>
    obtain ⟨h1, h2, h3⟩ := hI.disk v hv
    exact ⟨h1, h2, by simp [Dict.keys], h3, h0.calls, fun h => absurd h (by simp [VRun.new])⟩

theorem wcall_spec (hH : Function.Injective H) (henc : Function.Injective enc) (hdet : Determined H enc ops sem) {w : VWorld V} (hI : WInv H enc ops sem w)
    {pid : Nat} {p : VProc V} (hp : w.procs pid = some p) {uid : String} (hv : Visible enc ops p.run.src uid) :
    RunInv H enc ops sem (VWorld.call H enc ops w.disk p uid).2.run ∧
      ∀ r, (VWorld.call H enc ops w.disk p uid).1 = .ok r → r = ops.value p.run.src uid := by
  cases hc : VRun.call H enc ops (VWorld.view w.disk p) uid with
  | mk res s' =>
    obtain ⟨h1, h2, _⟩ := call_spec hH henc hdet (hI.view hp) (s := VWorld.view w.disk p) hv hc
    unfold VWorld.call
    rw [hc]
    refine ⟨h1.withCalls fun uid sv r hm => ?_, h2⟩
    rcases List.mem_append.1 hm with h | h
    · exact (hI.procs pid p hp).calls _ _ _ h
    · exact h1.calls _ _ _ (List.mem_of_mem_drop h)

theorem commit_cases (d : VDisk V) (p : VProc V) : (∃ e, VWorld.commit d p = (.error e, d, p)) ∨
    ((∀ k ∈ p.dirty, k ∈ p.run.calls.keys ∧ k ∉ d.calls.keys) ∧
      VWorld.commit d p = (.ok (), ⟨some p.run.st.versioner, d.calls ++ p.run.calls.filter fun q => q.1 ∈ p.dirty⟩, { p with dirty := [] })) := by
  unfold VWorld.commit
  split
  · exact .inl ⟨_, rfl⟩
  · rename_i h1
    split
    · exact .inl ⟨_, rfl⟩
    · rename_i h2
      refine .inr ⟨fun k hk => ⟨?_, ?_⟩, rfl⟩
      · rw [← Dict.has_iff]
        cases hh : p.run.calls.has k with
        | true => rfl
        | false => exact absurd (List.any_eq_true.2 ⟨k, hk, by simp [hh]⟩) h1
      · intro hm
        exact h2 (List.any_eq_true.2 ⟨k, hk, Dict.has_iff.2 hm⟩)

theorem RunInv.exit {s : VRun V} (hI : RunInv H enc ops sem s) : RunInv H enc ops sem s.exit := by
  refine ⟨hI.inv, hI.topoD, hI.csNodup, hI.mean, hI.calls, fun h => ?_⟩
  have h : 0 < s.depth - 1 := h
  obtain ⟨h1, h2⟩ := hI.ctx (by omega)
  refine ⟨?_, h2⟩
  show (if s.depth = 1 then false else s.cached) = true
  rw [if_neg (by omega), h1]

/-- `exit` either does nothing but leave the block, or commits. -/
theorem exit_cases (d : VDisk V) (p : VProc V) : (∃ res, VWorld.exit d p = (res, d, { p with run := p.run.exit }) ∧
      (p.run.depth = 1 → ∃ e, res = .error e)) ∨
    (p.run.depth = 1 ∧ (∀ k ∈ p.dirty, k ∈ p.run.calls.keys ∧ k ∉ d.calls.keys) ∧
      VWorld.exit d p = (.ok (), ⟨some p.run.st.versioner, d.calls ++ p.run.calls.filter fun q => q.1 ∈ p.dirty⟩, ⟨p.run.exit, []⟩)) := by
  unfold VWorld.exit
  split
  · rename_i hd
    rcases commit_cases d p with ⟨e, h⟩ | ⟨h1, h2⟩
    · rw [h]; exact .inl ⟨_, rfl, fun _ => ⟨e, rfl⟩⟩
    · rw [h2]; exact .inr ⟨hd, h1, rfl⟩
  · rename_i hd
    exact .inl ⟨_, rfl, fun h => absurd h hd⟩

theorem WInv.step (hH : Function.Injective H) (henc : Function.Injective enc) (hdet : Determined H enc ops sem) {w : VWorld V} (hI : WInv H enc ops sem w)
    {cmd : VWorld.Cmd} (hp : WProper H enc ops sem w cmd) : WInv H enc ops sem (VWorld.step H enc ops w cmd) := by
  cases cmd with
  | opens pid strict src => exact hI.setProc fun p h => by cases h; exact opened_inv hI strict src
  | ends pid => exact hI.setProc fun p h => by cases h
  | change pid src =>
    unfold VWorld.step
    dsimp only
    cases hq : w.procs pid with
    | none => exact hI
    | some p =>
      refine hI.setProc fun p' h => ?_
      cases h
      exact (hI.procs pid p hq).step hH henc hdet (cmd := .change src) (hp p hq)
  | enter pid cs answer =>
    unfold VWorld.step
    dsimp only
    cases hq : w.procs pid with
    | none => exact hI
    | some p =>
      refine hI.setProc fun p' h => ?_
      cases h
      exact (hI.procs pid p hq).step hH henc hdet (cmd := .enter cs answer) (hp p hq)
  | exit pid =>
    unfold VWorld.step
    dsimp only
    cases hq : w.procs pid with
    | none => exact hI
    | some p =>
      have hR := hI.procs pid p hq
      dsimp only
      rcases exit_cases w.disk p with ⟨_, h, _⟩ | ⟨_, _, h⟩
      · rw [h]
        exact hI.setProc fun p' h => by cases h; exact hR.exit
      · rw [h]
        refine WInv.update hI ?_ ?_ fun p' h => by cases h; exact hR.exit
        · intro v hv
          cases hv
          exact ⟨hR.inv, hR.topoD, hR.mean⟩
        · intro uid sv r hm
          rcases List.mem_append.1 hm with h | h
          · exact hI.dcalls _ _ _ h
          · exact hR.calls _ _ _ (List.mem_filter.1 h).1
  | call pid uid =>
    unfold VWorld.step
    dsimp only
    cases hq : w.procs pid with
    | none => exact hI
    | some p => exact hI.setProc fun p' h => by cases h; exact (wcall_spec hH henc hdet hI hq (hp p hq)).1
  | dropVersion pid sv dependents =>
    unfold VWorld.step
    dsimp only
    cases hq : w.procs pid with
    | none => exact hI
    | some p =>
      have hR := hI.procs pid p hq
      unfold VWorld.dropVersion
      dsimp only
      refine WInv.update hI ?_ ?_ fun p' h => ?_
      · intro v hv
        cases hv
        exact ⟨hR.inv.drop sv, hR.topoD, hR.mean⟩
      · intro uid sv' r hm
        exact hI.dcalls _ _ _ (List.mem_filter.1 hm).1
      · cases h
        exact ⟨hR.inv.drop sv, hR.topoD, hR.csNodup, hR.mean, fun u sv r hr => hR.calls u sv r (List.mem_filter.1 hr).1, hR.ctx⟩

theorem WInv.run (hH : Function.Injective H) (henc : Function.Injective enc) (hdet : Determined H enc ops sem) :
    ∀ (cmds : List VWorld.Cmd) {w : VWorld V}, WInv H enc ops sem w → WProperAll H enc ops sem w cmds → WInv H enc ops sem (VWorld.run H enc ops w cmds)
  | [], _, hI, _ => hI
  | _ :: cmds, _, hI, hp => WInv.run hH henc hdet cmds (hI.step hH henc hdet hp.1) hp.2

/-! ### no call fails -/

/-- Rows of the versioners have results, on disk or in the cache; what is in the cache is on disk or marked. -/
structure WFull (w : VWorld V) : Prop where
  disk : ∀ v, w.disk.versioner = some v → ∀ row ∈ v.df, (row.preCallUid, row.semanticVersion) ∈ w.disk.calls.keys
  rows : ∀ pid p, w.procs pid = some p → ∀ row ∈ p.run.st.versioner.df,
    (row.preCallUid, row.semanticVersion) ∈ p.run.calls.keys ∨ (row.preCallUid, row.semanticVersion) ∈ w.disk.calls.keys
  cache : ∀ pid p, w.procs pid = some p → ∀ k ∈ p.run.calls.keys, k ∈ p.dirty ∨ k ∈ w.disk.calls.keys

theorem WFull.new : WFull (VWorld.new : VWorld V) where
  disk v h := by cases h
  rows _ _ h := by cases h
  cache _ _ h := by cases h

theorem keys_append {K W : Type} (a b : Dict K W) : Dict.keys (a ++ b) = Dict.keys a ++ Dict.keys b := List.map_append ..

theorem WFull.view {w : VWorld V} (hF : WFull w) {pid : Nat} {p : VProc V} (hp : w.procs pid = some p) : Full (VWorld.view w.disk p) := by
  intro row hrow
  refine Dict.mem_keys.1 ?_
  show _ ∈ Dict.keys (p.run.calls ++ w.disk.calls)
  rw [keys_append, List.mem_append]
  exact hF.rows pid p hp row hrow

theorem WFull.setProc {w : VWorld V} (hF : WFull w) {pid : Nat} {x : Option (VProc V)}
    (hx : ∀ p, x = some p → (∀ row ∈ p.run.st.versioner.df,
      (row.preCallUid, row.semanticVersion) ∈ p.run.calls.keys ∨ (row.preCallUid, row.semanticVersion) ∈ w.disk.calls.keys) ∧
      ∀ k ∈ p.run.calls.keys, k ∈ p.dirty ∨ k ∈ w.disk.calls.keys) : WFull (w.setProc pid x) where
  disk := hF.disk
  rows q p hp := by
    rcases setProc_some hp with ⟨rfl, h⟩ | ⟨_, h⟩
    · exact (hx p h).1
    · exact hF.rows q p h
  cache q p hp := by
    rcases setProc_some hp with ⟨rfl, h⟩ | ⟨_, h⟩
    · exact (hx p h).2
    · exact hF.cache q p h

/-- Calls are only added at the end. -/
theorem execute_calls {s s' : VRun V} {uid : String} {res : Except Err V} (h : VRun.execute H enc ops s uid = (res, s')) :
    ∃ l, s'.calls = s.calls ++ l ∧ ∀ k ∈ Dict.keys l, k ∉ s.calls.keys := by
  unfold VRun.execute at h
  split at h
  · cases h; exact ⟨[], by simp, by simp [Dict.keys]⟩
  · split at h
    · cases h; exact ⟨[], by simp, by simp [Dict.keys]⟩
    · cases h
      dsimp only
      split
      · exact ⟨[], by simp, by simp [Dict.keys]⟩
      · rename_i hh
        have hn : _ ∉ s.calls.keys := fun hm => hh (Dict.has_iff.2 hm)
        exact ⟨_, dict_set_absent hn, by simpa [Dict.keys] using hn⟩

theorem call_calls {s s' : VRun V} {uid : String} {res : Except Err V} (h : VRun.call H enc ops s uid = (res, s')) :
    ∃ l, s'.calls = s.calls ++ l ∧ ∀ k ∈ Dict.keys l, k ∉ s.calls.keys := by
  unfold VRun.call at h
  split at h
  · cases h; exact ⟨[], by simp, by simp [Dict.keys]⟩
  · split at h
    · cases h; exact ⟨[], by simp, by simp [Dict.keys]⟩
    · split at h
      · cases h; exact ⟨[], by simp, by simp [Dict.keys]⟩
      · exact execute_calls h
      · split at h
        · cases h; exact ⟨[], by simp, by simp [Dict.keys]⟩
        · exact execute_calls h

/-- What a call does to the process. -/
theorem wcall_eq (d : VDisk V) (p : VProc V) (uid : String) : ∃ res s' l, VRun.call H enc ops (VWorld.view d p) uid = (res, s') ∧
    s'.calls = (VWorld.view d p).calls ++ l ∧ (∀ k ∈ Dict.keys l, k ∉ p.run.calls.keys ∧ k ∉ d.calls.keys) ∧
    VWorld.call H enc ops d p uid = (res, ⟨{ s' with calls := p.run.calls ++ l }, p.dirty ++ Dict.keys l⟩) := by
  cases hc : VRun.call H enc ops (VWorld.view d p) uid with
  | mk res s' =>
    obtain ⟨l, h1, h2⟩ := call_calls hc
    refine ⟨res, s', l, rfl, h1, fun k hk => ?_, ?_⟩
    · have := h2 k hk
      show k ∉ Dict.keys p.run.calls ∧ _
      unfold VWorld.view at this
      dsimp only at this
      rw [keys_append, List.mem_append, not_or] at this
      exact this
    · unfold VWorld.call
      rw [hc]
      dsimp only
      rw [h1, List.drop_left]
      rfl

theorem keys_filter_mem {K W : Type} [DecidableEq K] {d : Dict K W} {f : K → Bool} {k : K} :
    k ∈ Dict.keys (d.filter fun q => f q.1) ↔ k ∈ d.keys ∧ f k = true := by
  unfold Dict.keys
  simp only [List.mem_map, List.mem_filter, Prod.exists, exists_and_right, exists_eq_right]

theorem WFull.step (hH : Function.Injective H) (henc : Function.Injective enc) (hdet : Determined H enc ops sem) {w : VWorld V} (hI : WInv H enc ops sem w)
    (hF : WFull w) {cmd : VWorld.Cmd} (hp : WProper H enc ops sem w cmd) (hc : Careful w cmd) : WFull (VWorld.step H enc ops w cmd) := by
  cases cmd with
  | opens pid strict src =>
    refine hF.setProc fun p h => ?_
    cases h
    refine ⟨fun row hrow => ?_, fun k hk => by cases hk⟩
    unfold VWorld.opened at hrow
    dsimp only at hrow
    cases hv : w.disk.versioner with
    | none => rw [hv] at hrow; cases hrow
    | some v => rw [hv] at hrow; exact .inr (hF.disk v hv row hrow)
  | ends pid => exact hF.setProc fun p h => by cases h
  | change pid src =>
    unfold VWorld.step
    dsimp only
    cases hq : w.procs pid with
    | none => exact hF
    | some p => exact hF.setProc fun p' h => by cases h; exact ⟨hF.rows pid p hq, hF.cache pid p hq⟩
  | enter pid cs answer =>
    unfold VWorld.step
    dsimp only
    cases hq : w.procs pid with
    | none => exact hF
    | some p =>
      obtain ⟨h1, h2, h3⟩ := hp p hq
      dsimp only
      cases he : VRun.enter H p.run cs answer with
      | mk r s' =>
        rw [he] at h3
        cases h3
        obtain ⟨ds, hs, rfl⟩ := enter_ok he
        exact hF.setProc fun p' h => by cases h; exact ⟨hF.rows pid p hq, hF.cache pid p hq⟩
  | exit pid =>
    unfold VWorld.step
    dsimp only
    cases hq : w.procs pid with
    | none => exact hF
    | some p =>
      dsimp only
      rcases exit_cases w.disk p with ⟨_, h, _⟩ | ⟨_, hd, h⟩
      · rw [h]
        exact hF.setProc fun p' h => by cases h; exact ⟨hF.rows pid p hq, hF.cache pid p hq⟩
      · rw [h]
        have hall : ∀ k, k ∈ p.run.calls.keys ∨ k ∈ w.disk.calls.keys →
            k ∈ Dict.keys (w.disk.calls ++ p.run.calls.filter fun q => decide (q.1 ∈ p.dirty)) := by
          intro k hk
          rw [keys_append, List.mem_append, keys_filter_mem (f := fun k => decide (k ∈ p.dirty))]
          rcases hk with hk | hk
          · rcases hF.cache pid p hq k hk with h | h
            · exact .inr ⟨hk, by simpa using h⟩
            · exact .inl h
          · exact .inl hk
        refine WFull.setProc (w := ⟨_, w.procs⟩) ⟨?_, ?_, ?_⟩ fun p' h => ?_
        · intro v hv row hrow
          cases hv
          exact hall _ (hF.rows pid p hq row hrow)
        · intro q p' hp' row hrow
          exact (hF.rows q p' hp' row hrow).imp id fun h => hall _ (.inr h)
        · intro q p' hp' k hk
          exact (hF.cache q p' hp' k hk).imp id fun h => hall _ (.inr h)
        · cases h
          exact ⟨fun row hrow => .inr (hall _ (hF.rows pid p hq row hrow)), fun k hk => .inr (hall k (.inl hk))⟩
  | call pid uid =>
    unfold VWorld.step
    dsimp only
    cases hq : w.procs pid with
    | none => exact hF
    | some p =>
      dsimp only
      obtain ⟨res, s', l, h1, h2, h3, h4⟩ := wcall_eq (H := H) (enc := enc) (ops := ops) w.disk p uid
      rw [h4]
      obtain ⟨_, _, g3, g4⟩ := call_spec hH henc hdet (hI.view hq) (s := VWorld.view w.disk p) (hp p hq) h1
      refine hF.setProc fun p' h => ?_
      cases h
      have hk : ∀ k, k ∈ s'.calls.keys → k ∈ Dict.keys (p.run.calls ++ l) ∨ k ∈ w.disk.calls.keys := by
        intro k hk
        rw [h2] at hk
        have hk : k ∈ Dict.keys ((p.run.calls ++ w.disk.calls) ++ l) := hk
        rw [keys_append, keys_append, List.mem_append, List.mem_append] at hk
        rw [keys_append, List.mem_append]
        rcases hk with (h | h) | h
        · exact .inl (.inl h)
        · exact .inr h
        · exact .inl (.inr h)
      refine ⟨fun row hrow => ?_, fun k hk => ?_⟩
      · rcases g4 row hrow with h | h
        · have := hF.rows pid p hq row h
          rw [keys_append, List.mem_append]
          exact this.imp .inl id
        · exact hk _ (Dict.mem_keys.2 h)
      · rw [keys_append, List.mem_append] at hk
        rcases hk with h | h
        · exact (hF.cache pid p hq k h).imp (List.mem_append_left _) id
        · exact .inl (List.mem_append_right _ h)
  | dropVersion pid sv dependents =>
    obtain ⟨rfl, halone, hdirty⟩ := hc
    unfold VWorld.step
    dsimp only
    cases hq : w.procs pid with
    | none => exact hF
    | some p =>
      have hd := hdirty p hq
      unfold VWorld.dropVersion
      dsimp only
      rw [List.append_nil]
      have hcache : ∀ k ∈ p.run.calls.keys, k ∈ w.disk.calls.keys := by
        intro k hk
        rcases hF.cache pid p hq k hk with h | h
        · rw [hd] at h; cases h
        · exact h
      have hkeep : ∀ k, k.2 ≠ sv → k ∈ w.disk.calls.keys → k ∈ Dict.keys (w.disk.calls.filter fun q => decide (q.1 ∉ (w.disk.calls.filter fun q => decide (q.1.2 = sv)).map (·.1))) := by
        intro k hk hm
        rw [keys_filter_mem (f := fun k => decide (k ∉ (w.disk.calls.filter fun q => decide (q.1.2 = sv)).map (·.1)))]
        refine ⟨hm, ?_⟩
        rw [decide_eq_true_eq, List.mem_map]
        rintro ⟨a, ha, rfl⟩
        rw [List.mem_filter] at ha
        exact hk (by simpa using ha.2)
      have hrows : ∀ row ∈ (p.run.st.versioner.dropSemanticVersion sv).df, (row.preCallUid, row.semanticVersion) ∈
          Dict.keys (w.disk.calls.filter fun q => decide (q.1 ∉ (w.disk.calls.filter fun q => decide (q.1.2 = sv)).map (·.1))) := by
        intro row hrow
        have hrow : row ∈ p.run.st.versioner.df.filter (fun r => r.semanticVersion ≠ sv) := hrow
        rw [List.mem_filter] at hrow
        refine hkeep _ (by simpa using hrow.2) ?_
        rcases hF.rows pid p hq row hrow.1 with h | h
        · exact hcache _ h
        · exact h
      constructor
      · intro v hv row hrow
        cases hv
        exact hrows row hrow
      · intro q p' hp' row hrow
        rcases setProc_some hp' with ⟨rfl, h⟩ | ⟨hne, h⟩
        · cases h; exact .inr (hrows row hrow)
        · have h : w.procs q = some p' := h
          rw [halone q hne] at h; cases h
      · intro q p' hp' k hk
        rcases setProc_some hp' with ⟨rfl, h⟩ | ⟨hne, h⟩
        · cases h
          right
          have hk : k ∈ Dict.keys (p.run.calls.filter fun q => decide (q.1 ∉ (w.disk.calls.filter fun q => decide (q.1.2 = sv)).map (·.1))) := hk
          rw [keys_filter_mem (f := fun k => decide (k ∉ (w.disk.calls.filter fun q => decide (q.1.2 = sv)).map (·.1)))] at hk
          show k ∈ Dict.keys (w.disk.calls.filter fun q => decide (q.1 ∉ (w.disk.calls.filter fun q => decide (q.1.2 = sv)).map (·.1)))
          rw [keys_filter_mem (f := fun k => decide (k ∉ (w.disk.calls.filter fun q => decide (q.1.2 = sv)).map (·.1)))]
          exact ⟨hcache k hk.1, hk.2⟩
        · have h : w.procs q = some p' := h
          rw [halone q hne] at h; cases h

theorem WFull.run (hH : Function.Injective H) (henc : Function.Injective enc) (hdet : Determined H enc ops sem) :
    ∀ (cmds : List VWorld.Cmd) {w : VWorld V}, WInv H enc ops sem w → WFull w → WProperAll H enc ops sem w cmds → CarefulAll H enc ops w cmds →
      WFull (VWorld.run H enc ops w cmds)
  | [], _, _, hF, _, _ => hF
  | _ :: cmds, _, hI, hF, hp, hc => WFull.run hH henc hdet cmds (hI.step hH henc hdet hp.1) (hF.step hH henc hdet hI hp.1 hc.1) hp.2 hc.2

/-! ### one process at a time -/

/-- What only grows in a versioner. -/
structure VExt (v v' : Versioner) : Prop where
  df : ∀ row ∈ v.df, row ∈ v'.df
  versions : ∀ k cv x, getVersion v.versions k cv = .ok x → getVersion v'.versions k cv = .ok x
  dags : DagsLE v.dags v'.dags

theorem VExt.refl (v : Versioner) : VExt v v := ⟨fun _ h => h, fun _ _ _ h => h, fun _ _ _ h => h⟩

theorem VExt.trans {a b c : Versioner} (h : VExt a b) (h' : VExt b c) : VExt a c :=
  ⟨fun _ x => h'.df _ (h.df _ x), fun _ _ _ x => h'.versions _ _ _ (h.versions _ _ _ x), fun _ _ _ x => h'.dags _ _ _ (h.dags _ _ _ x)⟩

theorem Grows.ext {s s' : VRun V} (h : Grows s s') : VExt s.st.versioner s'.st.versioner := ⟨h.df, h.versions, h.dags⟩

theorem Known.mono' {s s' : VRun V} (hg : VExt s.st.versioner s'.st.versioner) (hk : ∀ k, k ∈ s.calls.keys → k ∈ s'.calls.keys) {src : Source} {uid : String}
    (h : Known H enc ops src uid s) : Known H enc ops src uid s' := by
  obtain ⟨row, h1, h2, h3, w, h4, h5⟩ := h
  refine ⟨row, hg.df _ h1, h2, Dict.mem_keys.1 (hk _ (Dict.mem_keys.2 h3)), w, hg.versions _ _ _ h4, fun k x hx => ?_⟩
  obtain ⟨a, n, c, b1, b2, b3⟩ := h5 k x hx
  exact ⟨a, n, c, b1, b2, hg.dags _ _ _ b3⟩

structure WSolo (w : VWorld V) : Prop where
  one : ∀ q q' p p', w.procs q = some p → w.procs q' = some p' → q = q'
  dirty : ∀ pid p, w.procs pid = some p → ∀ k ∈ p.dirty, k ∈ p.run.calls.keys ∧ k ∉ w.disk.calls.keys
  ext : ∀ pid p, w.procs pid = some p → ∀ v, w.disk.versioner = some v → VExt v p.run.st.versioner

theorem WSolo.new : WSolo (VWorld.new : VWorld V) where
  one _ _ _ _ h := by cases h
  dirty _ _ h := by cases h
  ext _ _ h := by cases h

/-- Another state of the one process. -/
theorem WSolo.setProc {w : VWorld V} (hS : WSolo w) {pid : Nat} {p p' : VProc V} (hq : w.procs pid = some p)
    (h1 : ∀ k ∈ p'.dirty, k ∈ p'.run.calls.keys ∧ k ∉ w.disk.calls.keys) (h2 : VExt p.run.st.versioner p'.run.st.versioner) :
    WSolo (w.setProc pid (some p')) where
  one q q' x x' hx hx' := by
    have h : ∀ q x, (w.setProc pid (some p')).procs q = some x → q = pid := by
      intro q x hx
      rcases setProc_some hx with ⟨h, _⟩ | ⟨_, h⟩
      · exact h
      · exact hS.one _ _ _ _ h hq
    rw [h q x hx, h q' x' hx']
  dirty q x hx := by
    rcases setProc_some hx with ⟨_, h⟩ | ⟨hne, h⟩
    · cases h; exact h1
    · exact absurd (hS.one _ _ _ _ h hq) hne
  ext q x hx v hv := by
    rcases setProc_some hx with ⟨_, h⟩ | ⟨hne, h⟩
    · cases h; exact (hS.ext pid p hq v hv).trans h2
    · exact absurd (hS.one _ _ _ _ h hq) hne

/-- The versioner of a process only grows. -/
theorem proc_ext (hH : Function.Injective H) (henc : Function.Injective enc) {w : VWorld V} (hI : WInv H enc ops sem w)
    {pid : Nat} {p : VProc V} (hq : w.procs pid = some p) {uid : String} (hv : Visible enc ops p.run.src uid) :
    VExt p.run.st.versioner (VWorld.call H enc ops w.disk p uid).2.run.st.versioner := by
  have := (call_grows hH henc (hI.view hq) (s := VWorld.view w.disk p) hv).ext
  obtain ⟨res, s', l, h1, _, _, h4⟩ := wcall_eq (H := H) (enc := enc) (ops := ops) w.disk p uid
  rw [h1] at this
  rw [h4]
  exact this

theorem enter_ext {s : VRun V} (hI : RunInv H enc ops sem s) {cs : CodeState} {answer : DepKey → Answer} (hp : Proper H enc ops sem s (.enter cs answer)) :
    VExt s.st.versioner (VRun.enter H s cs answer).2.st.versioner ∧ (VRun.enter H s cs answer).2.calls = s.calls := by
  obtain ⟨h1, h2, h3⟩ := hp
  cases he : VRun.enter H s cs answer with
  | mk r s' =>
    rw [he] at h3
    cases h3
    obtain ⟨ds, hs, rfl⟩ := enter_ok he
    exact ⟨⟨fun _ h => h, fun _ _ _ h => h, (hI.inv.sync hs).2.1⟩, rfl⟩

theorem WSolo.step (hH : Function.Injective H) (henc : Function.Injective enc) {w : VWorld V} (hI : WInv H enc ops sem w)
    (hS : WSolo w) {cmd : VWorld.Cmd} (hp : WProper H enc ops sem w cmd) (hc : Solo w cmd) : WSolo (VWorld.step H enc ops w cmd) := by
  cases cmd with
  | opens pid strict src =>
    have halone : ∀ q, w.procs q = none := hc
    have h : ∀ q x, (VWorld.step H enc ops w (.opens pid strict src)).procs q = some x → q = pid ∧ x = VWorld.opened w.disk strict src := by
      intro q x hx
      rcases setProc_some hx with ⟨h, h'⟩ | ⟨_, h⟩
      · cases h'; exact ⟨h, rfl⟩
      · rw [halone q] at h; cases h
    refine ⟨fun q q' x x' hx hx' => (h q x hx).1.trans (h q' x' hx').1.symm, fun q x hx => ?_, fun q x hx v hv => ?_⟩
    · obtain ⟨rfl, rfl⟩ := h q x hx
      intro k hk
      cases hk
    · obtain ⟨rfl, rfl⟩ := h q x hx
      have hv : w.disk.versioner = some v := hv
      show VExt v (w.disk.versioner.getD _)
      rw [hv]
      exact .refl v
  | ends pid =>
    have h : ∀ q x, (VWorld.step H enc ops w (.ends pid)).procs q = some x → w.procs q = some x := by
      intro q x hx
      rcases setProc_some hx with ⟨_, h⟩ | ⟨_, h⟩
      · cases h
      · exact h
    exact ⟨fun q q' x x' hx hx' => hS.one _ _ _ _ (h q x hx) (h q' x' hx'), fun q x hx => hS.dirty q x (h q x hx), fun q x hx => hS.ext q x (h q x hx)⟩
  | change pid src =>
    unfold VWorld.step
    dsimp only
    cases hq : w.procs pid with
    | none => exact hS
    | some p => exact hS.setProc hq (hS.dirty pid p hq) (.refl _)
  | enter pid cs answer =>
    unfold VWorld.step
    dsimp only
    cases hq : w.procs pid with
    | none => exact hS
    | some p =>
      obtain ⟨h1, h2⟩ := enter_ext (hI.procs pid p hq) (hp p hq)
      refine hS.setProc hq ?_ h1
      dsimp only
      rw [h2]
      exact hS.dirty pid p hq
  | exit pid =>
    unfold VWorld.step
    dsimp only
    cases hq : w.procs pid with
    | none => exact hS
    | some p =>
      dsimp only
      rcases exit_cases w.disk p with ⟨_, h, _⟩ | ⟨_, hd, h⟩
      · rw [h]
        exact hS.setProc hq (hS.dirty pid p hq) (.refl _)
      · rw [h]
        have h : ∀ q x, (VWorld.setProc (V := V) ⟨⟨some p.run.st.versioner, w.disk.calls ++ p.run.calls.filter fun q => decide (q.1 ∈ p.dirty)⟩, w.procs⟩ pid
            (some ⟨p.run.exit, []⟩)).procs q = some x → q = pid ∧ x = ⟨p.run.exit, []⟩ := by
          intro q x hx
          rcases setProc_some hx with ⟨h, h'⟩ | ⟨hne, h⟩
          · cases h'; exact ⟨h, rfl⟩
          · exact absurd (hS.one _ _ _ _ h hq) hne
        refine ⟨fun q q' x x' hx hx' => (h q x hx).1.trans (h q' x' hx').1.symm, fun q x hx => ?_, fun q x hx v hv => ?_⟩
        · obtain ⟨rfl, rfl⟩ := h q x hx
          intro k hk
          cases hk
        · obtain ⟨rfl, rfl⟩ := h q x hx
          cases hv
          exact .refl _
  | call pid uid =>
    unfold VWorld.step
    dsimp only
    cases hq : w.procs pid with
    | none => exact hS
    | some p =>
      refine hS.setProc hq ?_ (proc_ext hH henc hI hq (hp p hq))
      obtain ⟨res, s', l, h1, h2, h3, h4⟩ := wcall_eq (H := H) (enc := enc) (ops := ops) w.disk p uid
      rw [h4]
      intro k hk
      show k ∈ Dict.keys (p.run.calls ++ l) ∧ _
      rw [keys_append, List.mem_append]
      rcases List.mem_append.1 hk with hk | hk
      · exact ⟨.inl (hS.dirty pid p hq k hk).1, (hS.dirty pid p hq k hk).2⟩
      · exact ⟨.inr hk, (h3 k hk).2⟩
  | dropVersion pid sv dependents => exact hc.elim

theorem Solo.careful {w : VWorld V} : ∀ {cmd : VWorld.Cmd}, Solo w cmd → Careful w cmd
  | .opens .., _ => trivial
  | .ends .., _ => trivial
  | .change .., _ => trivial
  | .enter .., _ => trivial
  | .exit .., _ => trivial
  | .call .., _ => trivial

/-- What holds when there is one process at a time. -/
theorem solo_run (hH : Function.Injective H) (henc : Function.Injective enc) (hdet : Determined H enc ops sem) :
    ∀ (cmds : List VWorld.Cmd) {w : VWorld V}, WInv H enc ops sem w → WFull w → WSolo w → WProperAll H enc ops sem w cmds → SoloAll H enc ops w cmds →
      WInv H enc ops sem (VWorld.run H enc ops w cmds) ∧ WFull (VWorld.run H enc ops w cmds) ∧ WSolo (VWorld.run H enc ops w cmds)
  | [], _, hI, hF, hS, _, _ => ⟨hI, hF, hS⟩
  | _ :: cmds, _, hI, hF, hS, hp, hc => solo_run hH henc hdet cmds (hI.step hH henc hdet hp.1) (hF.step hH henc hdet hI hp.1 hc.1.careful)
      (hS.step hH henc hI hp.1 hc.1) hp.2 hc.2

/-- Leaving the outermost block writes all. -/
theorem WSolo.commits {w : VWorld V} (hS : WSolo w) {pid : Nat} {p : VProc V} (hq : w.procs pid = some p) (hd : p.run.depth = 1) :
    VWorld.exit w.disk p = (.ok (), ⟨some p.run.st.versioner, w.disk.calls ++ p.run.calls.filter fun q => q.1 ∈ p.dirty⟩, ⟨p.run.exit, []⟩) := by
  unfold VWorld.exit VWorld.commit
  rw [if_pos hd, if_neg, if_neg]
  · intro h
    obtain ⟨k, hk, h⟩ := List.any_eq_true.1 h
    exact (hS.dirty pid p hq k hk).2 (Dict.has_iff.1 h)
  · intro h
    obtain ⟨k, hk, h⟩ := List.any_eq_true.1 h
    rw [Dict.has_iff.2 (hS.dirty pid p hq k hk).1] at h
    cases h

/-- What the database has. -/
def diskRun (v : Versioner) (calls : Dict (String × String) V) : VRun V := { VRun.new (V := V) true (fun _ => none) with st := ⟨v, []⟩, calls := calls }

def KnownD (H : Val → String) (enc : DKey → DepKey) (ops : Ops V) (src : Source) (uid : String) (d : VDisk V) : Prop :=
  ∃ v, d.versioner = some v ∧ Known H enc ops src uid (diskRun v d.calls)

theorem KnownD.step {w : VWorld V} (hS : WSolo w) {cmd : VWorld.Cmd} (hc : Solo w cmd) {src : Source} {uid : String} (h : KnownD H enc ops src uid w.disk) :
    KnownD H enc ops src uid (VWorld.step H enc ops w cmd).disk := by
  cases cmd with
  | opens pid strict src => exact h
  | ends pid => exact h
  | change pid src => unfold VWorld.step; dsimp only; split <;> exact h
  | enter pid src => unfold VWorld.step; dsimp only; split <;> exact h
  | call pid src => unfold VWorld.step; dsimp only; split <;> exact h
  | dropVersion pid sv dependents => exact hc.elim
  | exit pid =>
    unfold VWorld.step
    dsimp only
    cases hq : w.procs pid with
    | none => exact h
    | some p =>
      dsimp only
      rcases exit_cases w.disk p with ⟨_, h', _⟩ | ⟨_, hd, h'⟩
      · rw [h']; exact h
      · rw [h']
        obtain ⟨v, hv, hk⟩ := h
        refine ⟨_, rfl, ?_⟩
        refine Known.mono' ?_ ?_ (hk)
        · exact (hS.ext pid p hq v hv)
        intro k hk
        show k ∈ Dict.keys (w.disk.calls ++ _)
        rw [keys_append, List.mem_append]
        exact .inl hk

theorem KnownD.run (hH : Function.Injective H) (henc : Function.Injective enc) (hdet : Determined H enc ops sem) {src : Source} {uid : String} :
    ∀ (cmds : List VWorld.Cmd) {w : VWorld V}, WInv H enc ops sem w → WSolo w → WProperAll H enc ops sem w cmds → SoloAll H enc ops w cmds →
      KnownD H enc ops src uid w.disk → KnownD H enc ops src uid (VWorld.run H enc ops w cmds).disk
  | [], _, _, _, _, _, h => h
  | _ :: cmds, _, hI, hS, hp, hc, h => KnownD.run hH henc hdet cmds (hI.step hH henc hdet hp.1) (hS.step hH henc hI hp.1 hc.1) hp.2 hc.2 (h.step hS hc.1)

theorem KnownD.view {w : VWorld V} (hS : WSolo w) {pid : Nat} {p : VProc V} (hq : w.procs pid = some p) {src : Source} {uid : String}
    (h : KnownD H enc ops src uid w.disk) : Known H enc ops src uid (VWorld.view w.disk p) := by
  obtain ⟨v, hv, hk⟩ := h
  refine Known.mono' ?_ ?_ (hk)
  · exact (hS.ext pid p hq v hv)
  intro k hk
  show k ∈ Dict.keys (p.run.calls ++ w.disk.calls)
  rw [keys_append, List.mem_append]
  exact .inr hk

/-- A call whose result is known to the process is not executed. -/
theorem wknown_hit (hH : Function.Injective H) {w : VWorld V} (hI : WInv H enc ops sem w) {pid : Nat} {p : VProc V} (hq : w.procs pid = some p)
    (hd : 0 < p.run.depth) {src : Source} {uid : String} (hk : Known H enc ops src uid (VWorld.view w.disk p)) (hu : Unchanged H enc ops src p.run.src uid) :
    ∃ r, VWorld.call H enc ops w.disk p uid = (.ok r, p) := by
  obtain ⟨r, h⟩ := known_hit hH (hI.view hq) (s := VWorld.view w.disk p) hd hk hu
  refine ⟨r, ?_⟩
  unfold VWorld.call
  rw [h]
  simp [VWorld.view]

/-- A call that has returned is known to the process. -/
theorem wcall_known (hH : Function.Injective H) (henc : Function.Injective enc) (hdet : Determined H enc ops sem) {w : VWorld V} (hI : WInv H enc ops sem w)
    {pid : Nat} {p : VProc V} (hq : w.procs pid = some p) (hd : 0 < p.run.depth) {uid : String} (hv : Visible enc ops p.run.src uid) {r : V}
    (h : (VWorld.call H enc ops w.disk p uid).1 = .ok r) :
    Known H enc ops p.run.src uid (VWorld.view w.disk (VWorld.call H enc ops w.disk p uid).2) := by
  obtain ⟨res, s', l, h1, h2, h3, h4⟩ := wcall_eq (H := H) (enc := enc) (ops := ops) w.disk p uid
  rw [h4] at h ⊢
  dsimp only at h ⊢
  subst h
  refine Known.mono' ?_ ?_ ((call_known hH henc hdet (hI.view hq) (s := VWorld.view w.disk p) hd hv h1))
  · exact (.refl _)
  intro k hk
  rw [h2] at hk
  have hk : k ∈ Dict.keys ((p.run.calls ++ w.disk.calls) ++ l) := hk
  show k ∈ Dict.keys ((p.run.calls ++ l) ++ w.disk.calls)
  simp only [keys_append, List.mem_append] at hk ⊢
  rcases hk with (h | h) | h
  · exact .inl (.inl h)
  · exact .inr h
  · exact .inl (.inr h)

/-- It stays known to the process, whatever other processes do. -/
theorem wknown_step (hH : Function.Injective H) (henc : Function.Injective enc) {w : VWorld V} (hI : WInv H enc ops sem w)
    {cmd : VWorld.Cmd} (hp : WProper H enc ops sem w cmd) {pid : Nat} (hg : GoesOn pid cmd) {src : Source} {uid : String}
    (h : ∃ p, w.procs pid = some p ∧ Known H enc ops src uid (VWorld.view w.disk p)) :
    ∃ p, (VWorld.step H enc ops w cmd).procs pid = some p ∧ Known H enc ops src uid (VWorld.view (VWorld.step H enc ops w cmd).disk p) := by
  obtain ⟨p, hpid, hk⟩ := h
  have key : ∀ {d : VDisk V} {q : Nat} {x x' : VProc V}, w.procs q = some x → (∀ k, k ∈ w.disk.calls.keys → k ∈ d.calls.keys) →
      VExt x.run.st.versioner x'.run.st.versioner → (∀ k, k ∈ x.run.calls.keys → k ∈ x'.run.calls.keys) →
      ∃ p, (VWorld.setProc { w with disk := d } q (some x')).procs pid = some p ∧ Known H enc ops src uid (VWorld.view d p) := by
    intro d q x x' hq hd hx hc
    by_cases he : pid = q
    · subst he
      rw [hq] at hpid
      cases hpid
      refine ⟨x', setProc_self _ _ _, ?_⟩
      refine Known.mono' ?_ ?_ (hk)
      · exact hx
      intro k hk
      have hk : k ∈ Dict.keys (p.run.calls ++ w.disk.calls) := hk
      show k ∈ Dict.keys (x'.run.calls ++ d.calls)
      rw [keys_append, List.mem_append] at hk ⊢
      exact hk.imp (hc k) (hd k)
    · refine ⟨p, (setProc_ne _ _ he).trans hpid, ?_⟩
      refine Known.mono' ?_ ?_ (hk)
      · exact (.refl _)
      intro k hk
      have hk : k ∈ Dict.keys (p.run.calls ++ w.disk.calls) := hk
      show k ∈ Dict.keys (p.run.calls ++ d.calls)
      rw [keys_append, List.mem_append] at hk ⊢
      exact hk.imp id (hd k)
  cases cmd with
  | opens q strict src => exact ⟨p, (setProc_ne _ _ (Ne.symm hg)).trans hpid, hk⟩
  | ends q => exact ⟨p, (setProc_ne _ _ (Ne.symm hg)).trans hpid, hk⟩
  | change q src =>
    unfold VWorld.step
    dsimp only
    cases hq : w.procs q with
    | none => exact ⟨p, hpid, hk⟩
    | some x => exact key hq (fun _ h => h) (.refl _) fun _ h => h
  | enter q cs answer =>
    unfold VWorld.step
    dsimp only
    cases hq : w.procs q with
    | none => exact ⟨p, hpid, hk⟩
    | some x =>
      obtain ⟨h1, h2⟩ := enter_ext (hI.procs q x hq) (hp x hq)
      refine key hq (fun _ h => h) h1 fun k h => ?_
      dsimp only
      rw [h2]
      exact h
  | exit q =>
    unfold VWorld.step
    dsimp only
    cases hq : w.procs q with
    | none => exact ⟨p, hpid, hk⟩
    | some x =>
      dsimp only
      rcases exit_cases w.disk x with ⟨_, h, _⟩ | ⟨_, hd, h⟩
      · rw [h]
        exact key hq (fun _ h => h) (.refl _) fun _ h => h
      · rw [h]
        refine key hq (fun k h => ?_) (.refl _) fun _ h => h
        show k ∈ Dict.keys (w.disk.calls ++ _)
        rw [keys_append, List.mem_append]
        exact .inl h
  | call q uid' =>
    unfold VWorld.step
    dsimp only
    cases hq : w.procs q with
    | none => exact ⟨p, hpid, hk⟩
    | some x =>
      refine key hq (fun _ h => h) (proc_ext hH henc hI hq (hp x hq)) fun k h => ?_
      obtain ⟨res, s', l, h1, h2, h3, h4⟩ := wcall_eq (H := H) (enc := enc) (ops := ops) w.disk x uid'
      rw [h4]
      show k ∈ Dict.keys (x.run.calls ++ l)
      rw [keys_append, List.mem_append]
      exact .inl h
  | dropVersion => exact hg.elim

theorem wknown_run (hH : Function.Injective H) (henc : Function.Injective enc) (hdet : Determined H enc ops sem) {src : Source} {uid : String} {pid : Nat} :
    ∀ (cmds : List VWorld.Cmd) {w : VWorld V}, WInv H enc ops sem w → WProperAll H enc ops sem w cmds → (∀ cmd ∈ cmds, GoesOn pid cmd) →
      (∃ p, w.procs pid = some p ∧ Known H enc ops src uid (VWorld.view w.disk p)) →
      ∃ p, (VWorld.run H enc ops w cmds).procs pid = some p ∧ Known H enc ops src uid (VWorld.view (VWorld.run H enc ops w cmds).disk p)
  | [], _, _, _, _, h => h
  | _ :: cmds, _, hI, hp, hg, h => wknown_run hH henc hdet cmds (hI.step hH henc hdet hp.1) hp.2 (fun c hc => hg c (List.mem_cons_of_mem _ hc))
      (wknown_step hH henc hI hp.1 (hg _ (List.mem_cons_self ..)) h)

/-- What is known to the process is known to the database when the outermost block is left. -/
theorem exit_known {w : VWorld V} (hF : WFull w) (hS : WSolo w) {pid : Nat} {p : VProc V} (hq : w.procs pid = some p) (hd : p.run.depth = 1)
    {src : Source} {uid : String} (h : Known H enc ops src uid (VWorld.view w.disk p)) :
    KnownD H enc ops src uid (VWorld.step H enc ops w (.exit pid)).disk := by
  unfold VWorld.step
  dsimp only
  rw [hq]
  dsimp only
  rw [hS.commits hq hd]
  refine ⟨_, rfl, ?_⟩
  refine Known.mono' ?_ ?_ (h)
  · exact (.refl _)
  intro k hk
  have hk : k ∈ Dict.keys (p.run.calls ++ w.disk.calls) := hk
  show k ∈ Dict.keys (w.disk.calls ++ p.run.calls.filter fun q => decide (q.1 ∈ p.dirty))
  rw [keys_append, List.mem_append] at hk ⊢
  rw [keys_filter_mem (f := fun k => decide (k ∈ p.dirty))]
  rcases hk with hk | hk
  · rcases hF.cache pid p hq k hk with h | h
    · exact .inr ⟨hk, by simpa using h⟩
    · exact .inl h
  · exact .inl hk

end Verif.Props
