import Verif.Spec.Queries
import Verif.Spec.FrameHistory
import Verif.Proofs.Keyed
import Verif.Proofs.CallBatch
import Verif.Proofs.Upkeep
import Verif.Props.Integrity
import Verif.Props.Creator
/-!
Reading calls back from the database.
-/
namespace Verif

open Props

variable {W : World}

/-- The storage between two statements; the recorded values are not nested too deeply for python. -/
structure Quer (W : World) (s : St) : Prop where
  base : Base W s
  keyed : Keyed s
  linked : s.stale = none
  fits : ∀ r ∈ s.calls.pers, ∀ t, Prov W r.refHid t → t.Fits W.cfg.fuel

theorem fits_of_ref : ∀ {n : Nat} {r : Ref} {t : TVal}, RefOK W r t → r.fits n = true → t.Fits n
  | 0, _, _, _, h => by simp [Ref.fits] at h
  | n + 1, .atom c h o, t, hr, _ => by
    simp only [RefOK] at hr
    obtain ⟨_, v, rfl, _⟩ := hr
    simp [TVal.Fits]
  | n + 1, .coll k c h m ks es, t, hr, hf => by
    simp only [RefOK] at hr
    obtain ⟨hP, ks', ts, rfl, hC, hm⟩ := hr
    clear hP hC
    simp only [Ref.fits, Bool.and_eq_true, List.all_eq_true] at hf
    have hrs := (hm hf.1).2
    have hes := hf.2
    show ∀ t ∈ ts, TVal.Fits n t
    clear hf hm
    induction es generalizing ts with
    | nil =>
      cases ts with
      | nil => simp
      | cons t ts => simp [RefsOK] at hrs
    | cons e es ih =>
      cases ts with
      | nil => simp
      | cons t ts =>
        simp only [RefsOK] at hrs
        intro t' ht'
        rcases List.mem_cons.1 ht' with rfl | ht'
        · exact fits_of_ref hrs.1 (hes e (by simp))
        · exact ih ts hrs.2 (fun e he => hes e (List.mem_cons_of_mem _ he)) t' ht'

/-- The data of a call, as rows of the database say. -/
structure DataOf (rows : List Row) (h : String) (d : CallData) : Prop where
  hid : d.hid = h
  header : ∀ r ∈ rows, r.callHid = h → r.op = d.opName ∧ r.callCid = d.cid
  nodupIn : (Dict.keys d.inputHids).Nodup
  nodupOut : (Dict.keys d.outputHids).Nodup
  inputs : ∀ n x, (n, x) ∈ d.inputHids ↔ ∃ c, RowSays rows h .in_ n x c
  outputs : ∀ n x, (n, x) ∈ d.outputHids ↔ ∃ c, RowSays rows h .out n x c

theorem header_cid {rs : List Row} {d : CallData} (h : dataOfRows rs = some d) : ∃ r ∈ rs, d.opName = r.op ∧ d.cid = r.callCid ∧ d.hid = r.callHid := by
  cases rs with
  | nil => cases h
  | cons r rs =>
    simp only [dataOfRows, Option.some.injEq] at h
    have hh := foldl_header (r :: rs) (CallData.mk r.op r.callCid r.callHid [] [] [] [] r.semVer r.contVer)
    rw [h] at hh
    exact ⟨r, by simp, hh.2.2, hh.2.1, hh.1⟩

/-- Data read from a table that agrees with the database on this call. -/
theorem dataOf_rows {rows rows' : List Row} (hk : KeyedRows rows) {h : String} {d : CallData} (hd : dataOfRows (rowsOf rows h) = some d)
    (hhead : ∀ r ∈ rows', ∀ r0 ∈ rows, r.callHid = h → r0.callHid = h → r.op = r0.op ∧ r.callCid = r0.callCid)
    (h1 : ∀ r ∈ rows, r.callHid = h → RowSays rows' h r.dir r.name r.refHid r.refCid)
    (h2 : ∀ r ∈ rows', r.callHid = h → RowSays rows h r.dir r.name r.refHid r.refCid) : DataOf rows' h d := by
  have hf := foldOK_of_rows hd
  obtain ⟨r0, hr0, e1, e2, e3⟩ := header_cid hd
  obtain ⟨hr0, hh0⟩ := mem_rowsOf.1 hr0
  refine ⟨?_, ?_, hf.nodupIn, hf.nodupOut, fun n x => ⟨fun hm => ?_, fun hm => ?_⟩, fun n x => ⟨fun hm => ?_, fun hm => ?_⟩⟩
  · rw [e3, hh0]
  · intro r hr hh
    rw [e1, e2]
    exact hhead r hr r0 hr0 hh hh0
  · obtain ⟨r, hr, g1, g2, g3, _⟩ := hf.ins n x ((Dict.get?_eq_some_iff hf.nodupIn).2 hm)
    obtain ⟨hr, hh⟩ := mem_rowsOf.1 hr
    have := h1 r hr hh
    rw [g1, g2, g3] at this
    exact ⟨_, this⟩
  · obtain ⟨c, r, hr, hh, g1, g2, g3, _⟩ := hm
    obtain ⟨r', hr', hh', f1, f2, f3, _⟩ := h2 r hr hh
    rw [g1] at f1
    rw [g2] at f2
    rw [g3] at f3
    have hk' := hf.allIn r' (mem_rowsOf.2 ⟨hr', hh'⟩) f1
    obtain ⟨y, hy⟩ := Dict.mem_keys.1 hk'
    obtain ⟨q, hq, q1, q2, q3, _⟩ := hf.ins _ y hy
    obtain ⟨hq, hqh⟩ := mem_rowsOf.1 hq
    have := hk.unique hr' hq (hh'.trans hqh.symm) q2.symm
    rw [← this, f3] at q3
    rw [q3, ← f2]
    exact Dict.mem_of_get? hy
  · obtain ⟨r, hr, g1, g2, g3, _⟩ := hf.outs n x ((Dict.get?_eq_some_iff hf.nodupOut).2 hm)
    obtain ⟨hr, hh⟩ := mem_rowsOf.1 hr
    have := h1 r hr hh
    rw [g1, g2, g3] at this
    exact ⟨_, this⟩
  · obtain ⟨c, r, hr, hh, g1, g2, g3, _⟩ := hm
    obtain ⟨r', hr', hh', f1, f2, f3, _⟩ := h2 r hr hh
    rw [g1] at f1
    rw [g2] at f2
    rw [g3] at f3
    have hk' := hf.all r' (mem_rowsOf.2 ⟨hr', hh'⟩) f1
    obtain ⟨y, hy⟩ := Dict.mem_keys.1 hk'
    obtain ⟨q, hq, q1, q2, q3, _⟩ := hf.outs _ y hy
    obtain ⟨hq, hqh⟩ := mem_rowsOf.1 hq
    have := hk.unique hr' hq (hh'.trans hqh.symm) q2.symm
    rw [← this, f3] at q3
    rw [q3, ← f2]
    exact Dict.mem_of_get? hy

/-- The rows of two true tables for a call in both. -/
theorem rowSays_of (hW : W.Good) {rows rows' : List Row} (h : TableOK W rows) (h' : TableOK W rows') (hk : KeyedRows rows) {r r0 : Row} (hr : r ∈ rows)
    (hr0 : r0 ∈ rows') (he : r0.callHid = r.callHid) : RowSays rows' r.callHid r.dir r.name r.refHid r.refCid := by
  obtain ⟨_, _, r', hr', g1, g2, g3, g4, g5⟩ := tables_agree hW h h' hk hr hr0 he
  exact ⟨r', hr', g1, g3, g2, g4, g5⟩

/-- Looking up a call that is in the database. -/
theorem single_of (hW : W.Good) {s : St} (hs : Quer W s) {h : String} (hr : ∃ r ∈ s.calls.pers, r.callHid = h) :
    ∃ d, singleData s.callCache s.calls.pers h = some d ∧ DataOf s.calls.pers h d ∧ DataOK W d h ∧ DataLive s d := by
  obtain ⟨r, hr, hrh⟩ := hr
  have hcc : s.callCache = s.calls.cache := by simp [St.callCache, hs.linked]
  have hi := hs.base.inv
  rw [hcc]
  unfold singleData
  split
  · rename_i hex
    have hrow : ∃ r' ∈ s.calls.cache.df, r'.callHid = h := by
      rcases hs.base.full h (by simpa [InMem.exists_] using hex) with h1 | ⟨op, cid, h1⟩
      · exact h1
      · exfalso
        obtain ⟨cins, outs, hsem, ⟨t, _, _, hin⟩, hout, _⟩ := hi.pers r hr
        rw [hrh] at hsem
        obtain ⟨_, _, e1, e2⟩ := callSem_functional hW h1 hsem
        subst e1; subst e2
        cases hd : r.dir with
        | in_ => simpa using hin hd
        | out =>
          obtain ⟨_, hg, _⟩ := hout hd
          cases hg
    obtain ⟨r', hr', hrh'⟩ := hrow
    obtain ⟨d, hd⟩ := dataOfRows_some (rs := rowsOf s.calls.cache.df h) (fun hn => rowsOf_eq_nil.1 hn r' hr' hrh')
    refine ⟨d, hd, dataOf_rows hs.keyed.cache hd ?_ ?_ ?_, dataOK_of_rows hW hi.cache.1 hd, dataLive_of_rows (fun r hr => hs.base.whole.rows r (.inl hr)) hd⟩
    · intro a ha b hb h1 h2
      obtain ⟨g1, g2, _⟩ := tables_agree hW hi.cache.1 hi.pers hs.keyed.cache hb ha (h1.trans h2.symm)
      exact ⟨g1, g2⟩
    · intro a ha h1
      rw [← h1]
      exact rowSays_of hW hi.cache.1 hi.pers hs.keyed.cache ha hr (hrh.trans h1.symm)
    · intro a ha h1
      rw [← h1]
      exact rowSays_of hW hi.pers hi.cache.1 hs.keyed.pers ha hr' (hrh'.trans h1.symm)
  · obtain ⟨d, hd⟩ := dataOfRows_some (rs := rowsOf s.calls.pers h) (fun hn => rowsOf_eq_nil.1 hn r hr hrh)
    refine ⟨d, hd, dataOf_rows hs.keyed.pers hd ?_ ?_ ?_, dataOK_of_rows hW hi.pers hd, dataLive_of_rows (fun r hr => hs.base.whole.rows r (.inr hr)) hd⟩
    · intro a ha b hb h1 h2
      obtain ⟨g1, g2, _⟩ := tables_agree hW hi.pers hi.pers hs.keyed.pers hb ha (h1.trans h2.symm)
      exact ⟨g1, g2⟩
    · intro a ha h1
      exact ⟨a, ha, h1, rfl, rfl, rfl, rfl⟩
    · intro a ha h1
      exact ⟨a, ha, h1, rfl, rfl, rfl, rfl⟩

/-- What is loaded for call data: refs with the recorded ids. -/
def Loaded (W : World) (p : String × String) (q : String × Ref) : Prop := q.1 = p.1 ∧ q.2.hid = p.2 ∧ ∀ t, Prov W p.2 t → q.2.cid = t.cid W.H

structure ObjOf (W : World) (d : CallData) (c : CallObj) : Prop where
  op : c.op = d.opName
  cid : c.cid = d.cid
  hid : c.hid = d.hid
  inputs : All2 (Loaded W) d.inputHids c.inputs
  outputs : All2 (Loaded W) d.outputHids c.outputs

theorem obj_of (hW : W.Good) {s : St} (hs : Quer W s) {h : String} {d : CallData} (hd : DataOf s.calls.pers h d) (hl : DataLive s d) :
    Keeps (During W s) (getCallFromData W.cfg d) (ObjOf W d) (fun _ => False) := by
  have hload : ∀ p : String × String, Has s.shapes p.2 → (∀ t, Prov W p.2 t → t.Fits W.cfg.fuel) →
      Keeps (During W s) (do let r ← loadRef W.cfg.fuel p.2 true; M.pure (p.1, r)) (Loaded W p) (fun _ => False) := by
    intro p h1 h2
    refine Keeps.bind ((firm_loadRef hW hs.base _ p.2 true).mono (fun _ h => h) (fun _ hn => hn ⟨h1, h2⟩)) (fun r hr => Keeps.pure ?_)
    obtain ⟨⟨⟨e1, t, ht⟩, _⟩, _⟩ := hr
    exact ⟨rfl, e1, fun t' ht' => same_cid hW ht (by rw [e1]; exact ht')⟩
  unfold getCallFromData
  refine Keeps.bind ((during_opsGet _).mono (fun _ h => h) (fun _ hn => hn hl.op)) (fun _ _ => ?_)
  refine Keeps.bind (Keeps.mapM' (R := Loaded W) _ (fun p hp => hload p (hl.ins p hp) (fun t ht => ?_))) (fun ins hins => ?_)
  · obtain ⟨_, r, hr, _, _, _, h1, _⟩ := (hd.inputs p.1 p.2).1 hp
    exact hs.fits r hr t (h1 ▸ ht)
  refine Keeps.bind (Keeps.mapM' (R := Loaded W) _ (fun p hp => hload p (hl.outs p hp) (fun t ht => ?_))) (fun outs houts => ?_)
  · obtain ⟨_, r, hr, _, _, _, h1, _⟩ := (hd.outputs p.1 p.2).1 hp
    exact hs.fits r hr t (h1 ▸ ht)
  exact Keeps.pure ⟨rfl, rfl, rfl, hins, houts⟩

/-- The inputs (or outputs) loaded for a call are those of its rows. -/
theorem loaded_says {rows : List Row} (hT : TableOK W rows) {h : String} {dir : Dir} {ps : List (String × String)} {qs : List (String × Ref)}
    (hl : All2 (Loaded W) ps qs) (hp : ∀ n x, (n, x) ∈ ps ↔ ∃ c, RowSays rows h dir n x c) (n x d : String) :
    (∃ y, (n, y) ∈ qs ∧ Ref.hid y = x ∧ Ref.cid y = d) ↔ RowSays rows h dir n x d := by
  have hcid : ∀ c, RowSays rows h dir n x c → ∃ t, Prov W x t ∧ c = t.cid W.H := by
    rintro c ⟨r, hr, _, _, _, h1, h2⟩
    obtain ⟨_, _, _, ⟨t, ht1, ht2, _⟩, _⟩ := hT r hr
    exact ⟨t, h1 ▸ ht1, h2 ▸ ht2⟩
  constructor
  · rintro ⟨y, hy, h1, h2⟩
    obtain ⟨p, hpm, g1, g2, g3⟩ := hl.mem_right hy
    have hm : (n, x) ∈ ps := by
      have : p = (n, x) := Prod.ext g1.symm (g2.symm.trans h1)
      exact this ▸ hpm
    obtain ⟨c, hc⟩ := (hp n x).1 hm
    obtain ⟨t, ht, he⟩ := hcid c hc
    have := g3 t (by rw [← g2, h1]; exact ht)
    have hcd : c = d := by rw [he, ← this]; exact h2
    exact hcd ▸ hc
  · intro hs
    obtain ⟨q, hq, g1, g2, g3⟩ := hl.mem_left ((hp n x).2 ⟨d, hs⟩)
    obtain ⟨t, ht, he⟩ := hcid d hs
    have hq' : (n, q.2) ∈ qs := by rw [← show q.1 = n from g1]; exact hq
    exact ⟨q.2, hq', g2, by rw [he]; exact g3 t ht⟩

theorem callOf_obj {rows : List Row} (hT : TableOK W rows) {h : String} (hr : ∃ r ∈ rows, r.callHid = h) {d : CallData} {c : CallObj}
    (hd : DataOf rows h d) (ho : ObjOf W d c) : CallOf rows c ∧ c.hid = h := by
  have hh : c.hid = h := ho.hid.trans hd.hid
  refine ⟨⟨hh ▸ hr, fun r hr hrh => ?_, ?_, ?_, fun n x e => ?_, fun n x e => ?_⟩, hh⟩
  · rw [ho.op, ho.cid]; exact hd.header r hr (hrh.trans hh)
  · rw [keys_of_all2 (fun _ _ h => h.1) ho.inputs]; exact hd.nodupIn
  · rw [keys_of_all2 (fun _ _ h => h.1) ho.outputs]; exact hd.nodupOut
  · rw [hh]; exact loaded_says hT ho.inputs hd.inputs n x e
  · rw [hh]; exact loaded_says hT ho.outputs hd.outputs n x e

/-- Looking up calls that are in the database. -/
theorem mgetCall_of (hW : W.Good) {s : St} (hs : Quer W s) {hids : List String} (hr : ∀ h ∈ hids, ∃ r ∈ s.calls.pers, r.callHid = h) :
    ∃ cs s', mgetCall W.cfg hids s = (.ok cs, s') ∧ During W s s' ∧
      All2 (fun h c => ∃ d, singleData s.callCache s.calls.pers h = some d ∧ DataOf s.calls.pers h d ∧ DataOK W d h ∧ ObjOf W d c) hids cs := by
  have hex : ∀ hids : List String, (∀ h ∈ hids, ∃ r ∈ s.calls.pers, r.callHid = h) → ∃ ds,
      All2 (fun h d => singleData s.callCache s.calls.pers h = some d) hids ds := by
    intro hids
    induction hids with
    | nil => intro _; exact ⟨[], .nil⟩
    | cons h hids ih =>
      intro hr
      obtain ⟨d, hd, _⟩ := single_of hW hs (hr h (by simp))
      obtain ⟨ds, hds⟩ := ih (fun h hh => hr h (List.mem_cons_of_mem _ hh))
      exact ⟨d :: ds, .cons hd hds⟩
  obtain ⟨ds, hds⟩ := hex hids hr
  have hbatch := (mgetCallData_ok _ _ _ _).2 hds
  have hall : ∀ d ∈ ds, ∃ h ∈ hids, singleData s.callCache s.calls.pers h = some d ∧ DataOf s.calls.pers h d ∧ DataOK W d h ∧ DataLive s d := by
    intro d hd
    obtain ⟨h, hh, h1⟩ := hds.mem_right hd
    obtain ⟨d', h1', h2⟩ := single_of hW hs (hr h hh)
    rw [h1] at h1'
    cases h1'
    exact ⟨h, hh, h1, h2⟩
  have hk : Keeps (During W s) (M.mapM' (getCallFromData W.cfg) ds) (All2 (ObjOf W) ds) (fun _ => False) :=
    Keeps.mapM' _ (fun d hd => by
      obtain ⟨h, _, _, h2, _, h4⟩ := hall d hd
      exact obj_of hW hs h2 h4)
  have hD : During W s s := ⟨hs.base.inv, Ext.refl s, rfl⟩
  have hrun := hk s hD
  have heq : mgetCall W.cfg hids s = M.mapM' (getCallFromData W.cfg) ds s := by
    unfold mgetCall
    exact bind_eq (by rw [hbatch])
  rw [heq]
  cases hm : M.mapM' (getCallFromData W.cfg) ds s with
  | mk x s' =>
    rw [hm] at hrun
    cases x with
    | error e => exact hrun.2.elim
    | ok cs =>
      refine ⟨cs, s', rfl, hrun.1, ?_⟩
      have hcs := hrun.2
      clear hrun hm hk hall hbatch heq
      induction hds generalizing cs with
      | nil => cases hcs; exact .nil
      | @cons h d hids ds h1 h2 ih =>
        cases hcs with
        | cons g1 g2 =>
          obtain ⟨d', e1, e2, e3, _⟩ := single_of hW hs (hr h (by simp))
          rw [h1] at e1
          cases e1
          exact .cons ⟨d, h1, e2, e3, g1⟩ (ih (fun h hh => hr h (List.mem_cons_of_mem _ hh)) _ g2)

theorem Quer.of_shallow (hW : W.Good) {s : St} (hb : Base W s) (hk : Keyed s) (hl : s.stale = none) (hf : Shallow W.cfg s) : Quer W s := by
  refine ⟨hb, hk, hl, fun r hr t ht => ?_⟩
  obtain ⟨x, hx⟩ := (hb.whole.rows r (.inr hr)).1
  obtain ⟨h1, t', ht'⟩ := (hb.inv.shapes.get r.refHid).2 x hx
  have := (refOK_prov ht').1
  rw [h1] at this
  rw [ht.det hW this]
  exact fits_of_ref ht' (hf r hr x hx)

/-- One query. -/
theorem query_of (hW : W.Good) {s : St} (hs : Quer W s) {dir : Dir} {refs hids : List String} (hn : hids.Nodup)
    (hm : ∀ h, h ∈ hids ↔ ∃ r ∈ s.calls.pers, r.dir = dir ∧ r.refHid ∈ refs ∧ r.callHid = h) :
    ∃ cs s', mgetCall W.cfg hids s = (.ok cs, s') ∧ During W s s' ∧ Found s dir refs cs ∧
      All2 (fun h c => ∃ d, singleData s.callCache s.calls.pers h = some d ∧ DataOf s.calls.pers h d ∧ DataOK W d h ∧ ObjOf W d c) hids cs := by
  have hr : ∀ h ∈ hids, ∃ r ∈ s.calls.pers, r.callHid = h := fun h hh => by
    obtain ⟨r, hr, _, _, h1⟩ := (hm h).1 hh
    exact ⟨r, hr, h1⟩
  obtain ⟨cs, s', h1, h2, h3⟩ := mgetCall_of hW hs hr
  have hids_eq : cs.map CallObj.hid = hids := by
    clear h1 h2 hn hm hr
    induction h3 with
    | nil => rfl
    | cons g1 _ ih =>
      obtain ⟨d, _, g2, _, g3⟩ := g1
      rw [List.map_cons, ih, g3.hid, g2.hid]
  refine ⟨cs, s', h1, h2, ⟨by rw [hids_eq]; exact hn, by rw [hids_eq]; exact hm, fun c hc => ?_⟩, h3⟩
  obtain ⟨h, hh, d, _, g2, _, g3⟩ := h3.mem_right hc
  exact (callOf_obj hs.base.inv.pers (hr h hh) g2 g3).1

/-! ### as a frame sees it -/

theorem toF_obj {d : CallData} {h : String} {c c' : CallObj} (hd : DataOK W d h)
    (ho : ObjOf W d c) (ho' : ObjOf W d c') : c.toF = c'.toF := by
  have key : ∀ {ps : List (String × String)} {qs qs' : List (String × Ref)}, (∀ p ∈ ps, ∃ t, Prov W p.2 t) → All2 (Loaded W) ps qs → All2 (Loaded W) ps qs' →
      (qs.map fun p => (p.1, (⟨p.2.hid, p.2.cid⟩ : FRef))) = qs'.map fun p => (p.1, ⟨p.2.hid, p.2.cid⟩) := by
    intro ps qs qs' hp h1 h2
    induction h1 generalizing qs' with
    | nil => cases h2; rfl
    | @cons p q ps qs g1 g2 ih =>
      cases h2 with
      | cons f1 f2 =>
        obtain ⟨t, ht⟩ := hp p (by simp)
        simp only [List.map_cons]
        rw [ih (fun p hpm => hp p (List.mem_cons_of_mem _ hpm)) f2, g1.1, f1.1, g1.2.1, f1.2.1, g1.2.2 t ht, f1.2.2 t ht]
  obtain ⟨_, cins, outs, _, hni, hno, hin, hout, _⟩ := hd
  unfold CallObj.toF
  rw [key (fun p hp => ?_) ho.inputs ho'.inputs, key (fun p hp => ?_) ho.outputs ho'.outputs, ho.hid, ho.op, ho'.hid, ho'.op]
  · obtain ⟨t, _, _, ht, _⟩ := hout p.1 p.2 ((Dict.get?_eq_some_iff hno).2 hp)
    exact ⟨t, ht⟩
  · obtain ⟨t, ht, _⟩ := hin p.1 p.2 ((Dict.get?_eq_some_iff hni).2 hp)
    exact ⟨t, ht⟩

/-- What a batch of calls looks like from a frame: each is what the storage answers for the call alone. -/
theorem batch_answered (hW : W.Good) {s : St} (hs : Quer W s) {h : String} (hr : ∃ r ∈ s.calls.pers, r.callHid = h) {c : CallObj}
    (hc : ∃ d, singleData s.callCache s.calls.pers h = some d ∧ DataOf s.calls.pers h d ∧ DataOK W d h ∧ ObjOf W d c) : Answered W.cfg s c.toF := by
  obtain ⟨d, h1, _, h3, h4⟩ := hc
  obtain ⟨cs, s', g1, _, g2⟩ := mgetCall_of hW hs (hids := [h]) (by simpa using hr)
  cases g2 with
  | @cons _ c' _ _ f1 f2 =>
    cases f2
    obtain ⟨d', e1, _, _, e4⟩ := f1
    rw [h1] at e1
    cases e1
    exact ⟨h, c', s', hr, g1, toF_obj h3 e4 h4⟩

/-- The answers are the recorded calls. -/
theorem answered_of (hW : W.Good) {s : St} (hs : Quer W s) {c : FCall} (h : Answered W.cfg s c) :
    ∃ obj, obj.toF = c ∧ CallOf s.calls.pers obj ∧ ∃ d, singleData s.callCache s.calls.pers c.hid = some d ∧ DataOK W d c.hid ∧ ObjOf W d obj := by
  obtain ⟨k, obj, s', hr, h1, h2⟩ := h
  obtain ⟨cs, s'', g1, _, g2⟩ := mgetCall_of hW hs (hids := [k]) (by simpa using hr)
  rw [h1] at g1
  cases g1
  cases g2 with
  | cons f1 f2 =>
    obtain ⟨d, e1, e2, e3, e4⟩ := f1
    obtain ⟨q1, q2⟩ := callOf_obj hs.base.inv.pers hr e2 e4
    have hk : c.hid = k := by rw [← h2]; exact q2
    rw [hk]
    exact ⟨obj, h2, q1, d, e1, e3, e4⟩

theorem mem_toF_inputs {c : CallObj} {p : String × FRef} : p ∈ c.toF.inputs ↔ ∃ x, (p.1, x) ∈ c.inputs ∧ Ref.hid x = p.2.hid ∧ Ref.cid x = p.2.cid := by
  obtain ⟨n, h, d⟩ := p
  simp only [CallObj.toF, List.mem_map, Prod.mk.injEq, FRef.mk.injEq]
  constructor
  · rintro ⟨q, hq, rfl, rfl, rfl⟩; exact ⟨q.2, hq, rfl, rfl⟩
  · rintro ⟨x, hx, rfl, rfl⟩; exact ⟨_, hx, rfl, rfl, rfl⟩

theorem mem_toF_outputs {c : CallObj} {p : String × FRef} : p ∈ c.toF.outputs ↔ ∃ x, (p.1, x) ∈ c.outputs ∧ Ref.hid x = p.2.hid ∧ Ref.cid x = p.2.cid := by
  obtain ⟨n, h, d⟩ := p
  simp only [CallObj.toF, List.mem_map, Prod.mk.injEq, FRef.mk.injEq]
  constructor
  · rintro ⟨q, hq, rfl, rfl, rfl⟩; exact ⟨q.2, hq, rfl, rfl⟩
  · rintro ⟨x, hx, rfl, rfl⟩; exact ⟨_, hx, rfl, rfl, rfl⟩

theorem isElt_eltName (i : Nat) : isElt (eltName i) = true := by
  unfold isElt eltName idxName
  rw [List.isPrefixOf_iff_prefix, String.toList_append]
  rw [String.toList_append]
  exact ⟨(toString i).toList, by simp⟩

/-- Building a list: the inputs are the elements, the output the list. -/
theorem sem_makeList (hW : W.Good) {op : String} {ver : Int} {cins outs : List (String × TVal)} (hs : Sem W op ver cins outs) (ho : op = makeListName) :
    (∀ p ∈ cins, isElt p.1 = true) ∧ ∀ n ∈ Dict.keys outs, n = "list" := by
  cases hs with
  | user hd _ _ _ =>
    refine absurd ?_ (hW.user _ hd)
    rw [ho]; decide
  | @make k keys ts hw =>
    cases k with
    | dict => exact absurd ho (by decide)
    | list =>
      refine ⟨fun p hp => ?_, by simp [Dict.keys, builderOut]⟩
      rw [mem_canon] at hp
      have := (List.of_mem_zip (show (p.1, p.2) ∈ _ from hp)).1
      simp only [structNames, List.mem_map] at this
      obtain ⟨i, _, hi⟩ := this
      rw [← hi]; exact isElt_eltName i
  | @getitem k keys ts idx t he => cases k <;> exact absurd ho (by decide)

theorem answered_recOk (hW : W.Good) {s : St} (hs : Quer W s) : RecOk (Answered W.cfg s) := by
  have hkeys : ∀ {α : Type} (l : List (String × Ref)) (f : String × Ref → α), Dict.keys (l.map fun p => (p.1, f p)) = Dict.keys l := by
    intro α l f; simp [Dict.keys, Function.comp_def]
  refine ⟨fun c c' h h' he => ?_, fun c h => ?_, fun c h => ?_, fun c c' p p' h h' hp hp' he => ?_, fun c h ho p hp => ?_, fun c h ho p hp => ?_⟩
  · obtain ⟨o, rfl, _, d, h1, h2, h3⟩ := answered_of hW hs h
    obtain ⟨o', rfl, _, d', h1', _, h3'⟩ := answered_of hW hs h'
    rw [he, h1'] at h1
    cases h1
    exact toF_obj h2 h3 h3'
  · obtain ⟨o, rfl, h1, _⟩ := answered_of hW hs h
    show (Dict.keys (o.inputs.map _)).Nodup
    rw [hkeys]; exact h1.nodupIn
  · obtain ⟨o, rfl, h1, _⟩ := answered_of hW hs h
    show (Dict.keys (o.outputs.map _)).Nodup
    rw [hkeys]; exact h1.nodupOut
  · obtain ⟨o, rfl, g1, d, h1, h2, h3⟩ := answered_of hW hs h
    obtain ⟨o', rfl, g1', d', h1', _, h3'⟩ := answered_of hW hs h'
    obtain ⟨r, hr, e1, e2, e3, e4, _⟩ := (g1.outputs _ _ _).1 (mem_toF_outputs.1 hp)
    obtain ⟨r', hr', f1, f2, f3, f4, _⟩ := (g1'.outputs _ _ _).1 (mem_toF_outputs.1 hp')
    obtain ⟨_, _, _, _, ho, _⟩ := hs.base.inv.pers r hr
    obtain ⟨_, _, _, _, ho', _⟩ := hs.base.inv.pers r' hr'
    obtain ⟨_, _, q1⟩ := ho e2
    obtain ⟨_, _, q2⟩ := ho' f2
    have heq : r.refHid = r'.refHid := by rw [e4, f4, he]
    rw [q1, q2] at heq
    have hc := (outHid_inj hW heq).1
    rw [e1, f1] at hc
    have hc' : o'.toF.hid = o.toF.hid := hc.symm
    rw [hc', h1] at h1'
    cases h1'
    exact toF_obj h2 h3 h3'
  · obtain ⟨o, rfl, g1, _⟩ := answered_of hW hs h
    obtain ⟨r, hr, e1, e2, e3, _⟩ := (g1.inputs _ _ _).1 (mem_toF_inputs.1 hp)
    obtain ⟨cins, outs, ⟨ver, ins, _, _, _, _, _, hsem⟩, ⟨t, _, _, hin⟩, _⟩ := hs.base.inv.pers r hr
    have hop : r.op = makeListName := ((g1.header r hr e1).1).trans ho
    exact e3 ▸ (sem_makeList hW hsem hop).1 _ (hin e2)
  · obtain ⟨o, rfl, g1, _⟩ := answered_of hW hs h
    obtain ⟨r, hr, e1, e2, e3, _⟩ := (g1.outputs _ _ _).1 (mem_toF_outputs.1 hp)
    obtain ⟨cins, outs, ⟨ver, ins, _, _, _, _, _, hsem⟩, _, hout, _⟩ := hs.base.inv.pers r hr
    have hop : r.op = makeListName := ((g1.header r hr e1).1).trans ho
    obtain ⟨t, hg, _⟩ := hout e2
    have := (sem_makeList hW hsem hop).2 _ (List.mem_map_of_mem (f := Prod.fst) (Dict.mem_of_get? hg))
    rw [← e3, show r.name = "list" from this]
    decide

theorem filter_length_lt {α : Type} {p q : α → Bool} {l : List α} {a : α} (ha : a ∈ l) (hq : q a = true) (hp : p a = false) (h : ∀ x, p x = true → q x = true) :
    (l.filter p).length < (l.filter q).length := by
  have hle : ∀ l : List α, (l.filter p).length ≤ (l.filter q).length := by
    intro l
    induction l with
    | nil => simp
    | cons x l ih =>
      simp only [List.filter_cons]
      cases hx : p x with
      | true => simp [h x hx, ih]
      | false => cases q x <;> simp <;> omega
  induction l with
  | nil => cases ha
  | cons x l ih =>
    simp only [List.filter_cons]
    rcases List.mem_cons.1 ha with rfl | ha
    · simp only [hq, hp, if_true, Bool.false_eq_true, if_false, List.length_cons]
      exact Nat.lt_succ_of_le (hle l)
    · have := ih ha
      cases hx : p x with
      | true => simp [h x hx, this]
      | false => cases q x <;> simp <;> omega

/-- Recorded values have an age: the number of recorded values they come from. -/
theorem answered_acyclic (hW : W.Good) {s : St} (hs : Quer W s) : Acyclic (Answered W.cfg s) := by
  classical
  have hw : WellFounded (Parent s.calls.pers) := wf_parent hW (fun r hr => TableOK.recordTrue hW hs.base.inv.pers hr) (fun r hr => by
    obtain ⟨_, _, _, ⟨t, ht, _⟩, _⟩ := hs.base.inv.pers r hr
    exact ⟨t, ht⟩)
  refine ⟨fun h => ((s.calls.pers.map (·.refHid)).filter fun x => decide (Relation.TransGen (Parent s.calls.pers) x h)).length, fun c hc p hp q hq => ?_⟩
  obtain ⟨o, rfl, g1, _⟩ := answered_of hW hs hc
  obtain ⟨r, hr, e1, e2, _, e4, _⟩ := (g1.inputs _ _ _).1 (mem_toF_inputs.1 hp)
  obtain ⟨r', hr', f1, f2, _, f4, _⟩ := (g1.outputs _ _ _).1 (mem_toF_outputs.1 hq)
  have hpar : Parent s.calls.pers p.2.hid q.2.hid := ⟨r, hr, r', hr', e1.trans f1.symm, e2, f2, e4, f4⟩
  refine filter_length_lt (a := p.2.hid) (e4 ▸ List.mem_map_of_mem hr) (decide_eq_true (.single hpar)) (decide_eq_false (not_transGen_self hw _)) ?_
  intro x hx
  exact decide_eq_true ((of_decide_eq_true hx).tail hpar)

/-! ### the queries -/

theorem mem_creators {s : St} {refs : List String} {h : String} : h ∈ getCreators s refs ↔ ∃ r ∈ s.calls.pers, r.dir = .out ∧ r.refHid ∈ refs ∧ r.callHid = h := by
  unfold getCreators
  rw [distinct_mem]
  simp only [creatorHids, List.mem_map, List.mem_filter, decide_eq_true_eq]
  constructor
  · rintro ⟨r, ⟨h1, h2, h3⟩, h4⟩; exact ⟨r, h1, h3, h2, h4⟩
  · rintro ⟨r, h1, h3, h2, h4⟩; exact ⟨r, ⟨h1, h2, h3⟩, h4⟩

theorem mem_consumers {s : St} {refs : List String} {h : String} : h ∈ getConsumers s refs ↔ ∃ r ∈ s.calls.pers, r.dir = .in_ ∧ r.refHid ∈ refs ∧ r.callHid = h := by
  unfold getConsumers
  rw [distinct_mem]
  simp only [consumerHids, List.mem_map, List.mem_filter, decide_eq_true_eq]
  constructor
  · rintro ⟨r, ⟨h1, h2, h3⟩, h4⟩; exact ⟨r, h1, h3, h2, h4⟩
  · rintro ⟨r, h1, h3, h2, h4⟩; exact ⟨r, ⟨h1, h2, h3⟩, h4⟩

theorem creators_run (hW : W.Good) {s : St} (hs : Quer W s) {ord : List String → List String} (hord : ∀ l, (ord l).Perm l) (refs : List String) :
    ∃ cs s', getCreatorCalls W.cfg ord false refs s = (.ok cs, s') ∧ During W s s' ∧ Found s .out refs cs ∧ ∀ c ∈ cs, Answered W.cfg s c.toF := by
  obtain ⟨cs, s', h1, h2, h3, h4⟩ := query_of hW hs (dir := .out) (refs := refs) (hids := ord (getCreators s refs)) ((hord _).nodup_iff.2 (distinct_nodup _))
    (fun h => by rw [(hord _).mem_iff]; exact mem_creators)
  refine ⟨cs, s', h1, h2, h3, fun c hc => ?_⟩
  obtain ⟨h, hh, hd⟩ := h4.mem_right hc
  obtain ⟨r, hr, _, _, e⟩ := mem_creators.1 ((hord _).mem_iff.1 hh)
  exact batch_answered hW hs ⟨r, hr, e⟩ hd

theorem consumers_run (hW : W.Good) {s : St} (hs : Quer W s) {ord : List String → List String} (hord : ∀ l, (ord l).Perm l) (refs : List String) :
    ∃ cs s', getConsumerCalls W.cfg ord false refs s = (.ok cs, s') ∧ During W s s' ∧ Found s .in_ refs cs ∧ ∀ c ∈ cs, Answered W.cfg s c.toF := by
  obtain ⟨cs, s', h1, h2, h3, h4⟩ := query_of hW hs (dir := .in_) (refs := refs) (hids := ord (getConsumers s refs)) ((hord _).nodup_iff.2 (distinct_nodup _))
    (fun h => by rw [(hord _).mem_iff]; exact mem_consumers)
  refine ⟨cs, s', h1, h2, h3, fun c hc => ?_⟩
  obtain ⟨h, hh, hd⟩ := h4.mem_right hc
  obtain ⟨r, hr, _, _, e⟩ := mem_consumers.1 ((hord _).mem_iff.1 hh)
  exact batch_answered hW hs ⟨r, hr, e⟩ hd

/-- Queries only read. -/
theorem quiet_mgetCall (cfg : Cfg) (hids : List String) : Pres Quiet (mgetCall cfg hids) := by
  unfold mgetCall
  exact Pres.bind Quiet.ord (fun s => Quiet.ord.refl s) (fun ds => Pres.mapM' Quiet.ord _ (fun d _ => pres_getCallFromData Quiet.reads cfg d))

theorem quiet_creators (cfg : Cfg) (ord : List String → List String) (refs : List String) : Pres Quiet (getCreatorCalls cfg ord false refs) :=
  Pres.bind Quiet.ord (Pres.read Quiet.ord _) (fun _ => quiet_mgetCall cfg _)

theorem quiet_consumers (cfg : Cfg) (ord : List String → List String) (refs : List String) : Pres Quiet (getConsumerCalls cfg ord false refs) :=
  Pres.bind Quiet.ord (Pres.read Quiet.ord _) (fun _ => quiet_mgetCall cfg _)

/-- After a read, the next query is answered alike. -/
theorem Quer.after {s s' : St} (h : Quer W s) (hd : During W s s') (hq : Quiet s s') : Quer W s' :=
  ⟨⟨hd.inv, hd.ext.whole h.base.whole, by rw [hq.calls]; exact h.base.full⟩, Keyed.of_calls hq.calls hq.stale h.keyed, hq.stale.trans h.linked,
    by rw [hq.calls]; exact h.fits⟩

theorem answered_still (hW : W.Good) {s s' : St} (h : Quer W s) (h' : Quer W s') (e : s'.calls = s.calls) {c : FCall} (hc : Answered W.cfg s c) : Answered W.cfg s' c := by
  obtain ⟨obj, rfl, h1, d, h2, h3, h4⟩ := answered_of hW h hc
  have hr := h1.recorded
  rw [← e] at hr
  obtain ⟨cs, s'', g1, _, g2⟩ := mgetCall_of hW h' (hids := [obj.hid]) (by simpa using hr)
  cases g2 with
  | @cons _ c' _ _ f1 f2 =>
    cases f2
    obtain ⟨d', e1, _, _, e4⟩ := f1
    have hcc : s'.callCache = s.callCache := by unfold St.callCache; rw [h.linked, h'.linked, e]
    rw [hcc, e] at e1
    have : some d = some d' := h2.symm.trans e1
    cases this
    exact ⟨_, c', s'', hr, g1, toF_obj h3 e4 h4⟩

end Verif
