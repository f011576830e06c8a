import Verif.Spec.History
import Verif.Proofs.StorageTables
/-!
Recorded calls are recorded as they were made; the recorded history has no cycles.
-/
namespace Verif

variable {W : World}

theorem canon_keys_nodup {α : Type} {l : List (String × α)} : (Dict.keys (canon l)).Nodup ↔ (Dict.keys l).Nodup :=
  ((perm_canon l).map Prod.fst).nodup_iff

theorem callSem_ids_nodup (hW : W.Good) {op op' h c : String} {ver : Int} {ids : List (String × String)} {cins outs : List (String × TVal)}
    (hs : CallSem W op' h c cins outs) (hh : h = callId W.H op ver ids) : (Dict.keys ids).Nodup := by
  obtain ⟨ver', ins', _, hh', _, hci, hnd, _⟩ := hs
  rw [hh] at hh'
  have h1 := (callId_inj hW hh').2.2
  rw [← canon_keys_nodup, h1, canon_keys_nodup]
  rw [hci, canon_keys_nodup] at hnd
  simpa [Dict.keys, insHids, insVals, Function.comp_def] using hnd

theorem TableOK.recordTrue (hW : W.Good) {rows : List Row} (h : TableOK W rows) {r : Row} (hr : r ∈ rows) : RecordTrue W.H rows r := by
  obtain ⟨cins, outs, hs, _, hout, _, ver, ids, hid, hin, hall⟩ := h r hr
  have hnd := callSem_ids_nodup hW hs hid
  refine ⟨ver, ids, hid, hnd, hin, fun hd => ?_, fun p hp => ?_⟩
  · obtain ⟨_, _, h1⟩ := hout hd; exact h1
  · obtain ⟨r', hr', h1, h2⟩ := hall p.1 (List.mem_map_of_mem hp)
    refine ⟨r', hr', h1, h2, ?_⟩
    cases hd : r'.dir with
    | out => exact .inl rfl
    | in_ =>
      right
      obtain ⟨_, _, _, _, _, _, ver', ids', hid', hin', _⟩ := h r' hr'
      rw [h1, hid] at hid'
      have hm := hin' hd
      rw [← mem_canon, ← (callId_inj hW hid').2.2, mem_canon, h2] at hm
      have g1 := (Dict.get?_eq_some_iff hnd).2 hm
      have g2 := (Dict.get?_eq_some_iff hnd).2 (show (p.1, p.2) ∈ ids from hp)
      rw [g1] at g2
      exact ⟨rfl, Option.some.inj g2⟩

theorem RecordTrue.mono {H : Val → String} {rows rows' : List Row} (hsub : ∀ r ∈ rows, r ∈ rows') {r : Row} (h : RecordTrue H rows r) : RecordTrue H rows' r := by
  obtain ⟨ver, ids, h1, h2, h3, h4, h5⟩ := h
  exact ⟨ver, ids, h1, h2, h3, h4, fun p hp => by
    obtain ⟨r', hr', hh⟩ := h5 p hp
    exact ⟨r', hsub r' hr', hh⟩⟩

theorem acc_parent (hW : W.Good) {rows : List Row} (ht : ∀ r ∈ rows, RecordTrue W.H rows r) {h : String} {t : TVal} (hp : Prov W h t) : Acc (Parent rows) h := by
  induction hp with
  | raw _ =>
    refine ⟨_, fun h' hpar => ?_⟩
    obtain ⟨r, hr, r', hr', _, _, hd, _, he⟩ := hpar
    obtain ⟨_, _, _, _, _, ho, _⟩ := ht r' hr'
    rw [ho hd] at he
    exact absurd he.symm (rawHid_ne_outHid hW)
  | @out op ver ins outs name t _ _ _ _ ih =>
    refine ⟨_, fun h' hpar => ?_⟩
    obtain ⟨r, hr, r', hr', hc, hdi, hdo, rfl, he⟩ := hpar
    obtain ⟨_, _, _, _, _, ho, _⟩ := ht r' hr'
    rw [ho hdo] at he
    have hc' := (outHid_inj hW he).1
    obtain ⟨_, ids, hid, _, hin, _⟩ := ht r hr
    rw [hc, hc'] at hid
    have hm := hin hdi
    rw [← mem_canon, ← (callId_inj hW hid).2.2, mem_canon] at hm
    obtain ⟨p, hp, hpe⟩ := List.mem_map.1 hm
    simp only [Prod.mk.injEq] at hpe
    rw [← hpe.2]
    exact ih p hp

theorem wf_parent (hW : W.Good) {rows : List Row} (ht : ∀ r ∈ rows, RecordTrue W.H rows r) (hp : ∀ r ∈ rows, ∃ t, Prov W r.refHid t) : WellFounded (Parent rows) :=
  ⟨fun h => ⟨h, fun h' hpar => by
    obtain ⟨r, hr, _, _, _, _, _, rfl, _⟩ := hpar
    obtain ⟨t, ht'⟩ := hp r hr
    exact acc_parent hW ht ht'⟩⟩

/-- If refs are not their own ancestors, neither are calls. -/
theorem wf_feeds {rows : List Row} (hw : WellFounded (Parent rows)) : WellFounded (Feeds rows) := by
  have key : ∀ x, Acc (Parent rows) x → ∀ r ∈ rows, r.dir = .out → r.refHid = x → Acc (Feeds rows) r.callHid := by
    intro x hx
    induction hx with
    | intro x _ ih =>
      intro r hr hd hrx
      refine ⟨_, fun c hf => ?_⟩
      obtain ⟨r1, hr1, r2, hr2, rfl, h2, h3, h4, h5⟩ := hf
      exact ih r1.refHid ⟨r2, hr2, r, hr, h2, h4, hd, h5.symm, hrx⟩ r1 hr1 h3 rfl
  refine ⟨fun c => ⟨c, fun c' hf => ?_⟩⟩
  obtain ⟨r1, hr1, r2, hr2, rfl, _, h3, _, _⟩ := hf
  exact key _ (hw.apply _) r1 hr1 h3 rfl

theorem not_transGen_self {α : Type} {R : α → α → Prop} (hw : WellFounded R) (a : α) : ¬ Relation.TransGen R a a := by
  have hacc : ∀ b, Acc R b → ∀ c, Relation.TransGen R c b → c ≠ b := by
    intro b hb
    induction hb with
    | intro b _ ih =>
      intro c hc hcb
      subst hcb
      have hpre : ∃ d, R d c ∧ (d = c ∨ Relation.TransGen R c d) := by
        cases hc with
        | single h => exact ⟨_, h, .inl rfl⟩
        | tail h1 h2 => exact ⟨_, h2, .inr h1⟩
      obtain ⟨d, hd, h | h⟩ := hpre
      · subst h
        exact ih d hd d (.single hd) rfl
      · exact ih d hd d (.trans (.single hd) h) rfl
  exact fun h => hacc a (hw.apply a) a h rfl

theorem Inv.rows (hi : Inv W s) (hW : W.Good) : (∀ r ∈ s.rows, RecordTrue W.H s.rows r) ∧ ∀ r ∈ s.rows, ∃ t, Prov W r.refHid t := by
  have hp : ∀ rows, TableOK W rows → ∀ r ∈ rows, ∃ t, Prov W r.refHid t := by
    intro rows h r hr
    obtain ⟨_, _, _, ⟨t, ht, _⟩, _⟩ := h r hr
    exact ⟨t, ht⟩
  constructor <;> intro r hr <;> rcases List.mem_append.1 hr with h | h
  · exact (hi.cache.1.recordTrue hW h).mono fun r hr => List.mem_append_left _ hr
  · exact (hi.pers.recordTrue hW h).mono fun r hr => List.mem_append_right _ hr
  · exact hp _ hi.cache.1 r h
  · exact hp _ hi.pers r h

end Verif
