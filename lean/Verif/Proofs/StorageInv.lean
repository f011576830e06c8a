import Verif.Proofs.Meaning
import Verif.Proofs.Hoare
import Verif.Proofs.CallRows
/-!
The invariant of the storage: whatever is stored is true. It is kept by every operation, successful or not.
-/
namespace Verif

/-! ### key/value tables -/

section
variable {V : Type} {P : String → V → Prop}

/-- Every entry satisfies `P`. -/
def DictAll (P : String → V → Prop) (d : Dict String V) : Prop := ∀ p ∈ d, P p.1 p.2

/-- Every entry of the table and the overflow files satisfies `P`. -/
def SqlAll (P : String → V → Prop) (p : SqlDict V) : Prop :=
  DictAll P p.rows ∧ ∀ j, p.overflow = some j → DictAll P j

/-- Every entry anywhere satisfies `P`. -/
def StoreAll (P : String → V → Prop) (d : CachedDict V) : Prop := DictAll P d.cache ∧ SqlAll P d.pers

theorem mem_set {d : Dict String V} {k : String} {v : V} {p : String × V} (h : p ∈ Dict.set d k v) :
    p = (k, v) ∨ p ∈ d := by
  induction d with
  | nil => simpa [Dict.set] using h
  | cons a d ih =>
    obtain ⟨a1, a2⟩ := a
    simp only [Dict.set] at h
    split at h
    · rcases List.mem_cons.1 h with h | h
      · exact .inl h
      · exact .inr (List.mem_cons_of_mem _ h)
    · rcases List.mem_cons.1 h with h | h
      · exact .inr (h ▸ List.mem_cons_self)
      · exact (ih h).imp id (List.mem_cons_of_mem _)

theorem DictAll.set {d : Dict String V} (h : DictAll P d) {k : String} {v : V} (hv : P k v) :
    DictAll P (Dict.set d k v) := by
  intro p hp
  rcases mem_set hp with rfl | hp
  · exact hv
  · exact h p hp

theorem DictAll.filter {d : Dict String V} (h : DictAll P d) (f : String × V → Bool) : DictAll P (d.filter f) :=
  fun p hp => h p (List.mem_filter.1 hp).1

theorem DictAll.get {d : Dict String V} (h : DictAll P d) {k : String} {v : V} (hg : Dict.get? d k = some v) : P k v :=
  h _ (Dict.mem_of_get? hg)

theorem DictAll.nil : DictAll P ([] : Dict String V) := fun p hp => by simp at hp

theorem SqlAll.get {p : SqlDict V} (h : SqlAll P p) {k : String} {v : V} (hg : p.get k = .ok v) : P k v := by
  unfold SqlDict.get at hg
  split at hg
  · split at hg
    · rename_i j hj
      simp only [Joblib.get] at hg
      split at hg
      · cases hg
        exact (h.2 j hj).get ‹_›
      · cases hg
    · cases hg
  · cases hg
    exact h.1.get ‹_›

theorem SqlAll.set {p p' : SqlDict V} {size : V → Nat} (h : SqlAll P p) {k : String} {v : V} (hv : P k v)
    (hs : p.set size k v = .ok p') : SqlAll P p' := by
  unfold SqlDict.set at hs
  split at hs
  · split at hs
    · rename_i j hj
      cases hs
      refine ⟨h.1, ?_⟩
      intro j' hj'
      cases hj'
      unfold Joblib.set
      split
      · exact h.2 j hj
      · exact (h.2 j hj).set hv
    · cases hs
  · cases hs
    exact ⟨h.1.set hv, h.2⟩

theorem SqlAll.drop {p p' : SqlDict V} (h : SqlAll P p) {k : String} (hs : p.drop k = .ok p') : SqlAll P p' := by
  unfold SqlDict.drop at hs
  dsimp only at hs
  split at hs
  · cases hs
    exact ⟨h.1.filter _, h.2⟩
  · rename_i j hj
    split at hs
    · rename_i hex
      simp only [Joblib.drop, hex, if_true] at hs
      cases hs
      refine ⟨h.1.filter _, ?_⟩
      intro j' hj'
      cases hj'
      exact (h.2 j hj).filter _
    · cases hs
      exact ⟨h.1.filter _, h.2⟩

theorem StoreAll.get {d : CachedDict V} (h : StoreAll P d) (k : String) :
    StoreAll P (d.get k).2 ∧ ∀ v, (d.get k).1 = .ok v → P k v := by
  unfold CachedDict.get
  split
  · rename_i v hv
    refine ⟨h, ?_⟩
    intro v' hv'; cases hv'
    exact h.1.get hv
  · split
    · rename_i v hv
      have := h.2.get hv
      refine ⟨⟨h.1.set this, h.2⟩, ?_⟩
      intro v' hv'; cases hv'
      exact this
    · exact ⟨h, fun v hv => by cases hv⟩

theorem StoreAll.set {d : CachedDict V} (h : StoreAll P d) {k : String} {v : V} (hv : P k v) :
    StoreAll P (d.set k v) := ⟨h.1.set hv, h.2⟩

theorem flush_all {size : V → Nat} {cache : Dict String V} (hc : DictAll P cache) :
    ∀ (ks : List String) (p : SqlDict V), SqlAll P p → SqlAll P (CachedDict.flush size cache ks p).2
  | [], p, h => h
  | k :: ks, p, h => by
    unfold CachedDict.flush
    split
    · exact h
    · rename_i v hv
      split
      · exact h
      · rename_i p' hp'
        exact flush_all hc ks p' (h.set (hc.get hv) hp')

theorem StoreAll.commit {d : CachedDict V} {size : V → Nat} (h : StoreAll P d) : StoreAll P (d.commit size).2 := by
  have := flush_all (size := size) h.1 d.dirty d.pers h.2
  unfold CachedDict.commit
  split <;> rename_i heq <;> rw [heq] at this <;> exact ⟨h.1, this⟩

theorem StoreAll.clear {d : CachedDict V} (h : StoreAll P d) (a : Bool) : StoreAll P (d.clear a).2 := by
  unfold CachedDict.clear
  split
  · exact h
  · exact ⟨DictAll.nil, h.2⟩

theorem StoreAll.drop {d : CachedDict V} (h : StoreAll P d) (k : String) : StoreAll P (d.drop k).2 := by
  unfold CachedDict.drop
  dsimp only
  split
  · rename_i p hp
    exact ⟨h.1.filter _, h.2.drop hp⟩
  · exact ⟨h.1.filter _, h.2⟩

theorem StoreAll.rollback {d d' : CachedDict V} (h : StoreAll P d) (h' : StoreAll P d') :
    StoreAll P { d' with pers := { d'.pers with rows := d.pers.rows } } := ⟨h'.1, h.2.1, h'.2.2⟩

theorem StoreAll.open_ {d : CachedDict V} (h : StoreAll P d) : StoreAll P (.open_ d.pers) := ⟨DictAll.nil, h.2⟩

theorem foldl_set_all {e : Dict String V} : ∀ {d : Dict String V}, DictAll P d → DictAll P e →
    DictAll P (e.foldl (fun acc p => acc.set p.1 p.2) d) := by
  induction e with
  | nil => intro d h _; exact h
  | cons p e ih =>
    intro d h he
    exact ih (h.set (he p (by simp))) (fun q hq => he q (List.mem_cons_of_mem _ hq))

theorem SqlAll.loadAll {p : SqlDict V} (h : SqlAll P p) : DictAll P p.loadAll := by
  unfold SqlDict.loadAll
  split
  · exact h.1
  · rename_i j hj
    exact foldl_set_all h.1 (h.2 j hj)

end

/-! ### call tables -/

section
variable (W : World)

/-- Every row belongs to a completely recorded call with true identifiers and true outputs. -/
def TableOK (rows : List Row) : Prop := ∀ r ∈ rows, ∃ cins outs, CallSem W r.op r.callHid r.callCid cins outs ∧
  (∃ t, Prov W r.refHid t ∧ r.refCid = t.cid W.H ∧ (r.dir = .in_ → (r.name, t) ∈ cins)) ∧
  (r.dir = .out → ∃ t, Dict.get? outs r.name = some t ∧ r.refHid = outHid W.H r.callHid r.name) ∧
  (∀ n ∈ Dict.keys outs, ∃ r' ∈ rows, r'.callHid = r.callHid ∧ r'.name = n ∧ r'.dir = .out) ∧
  ∃ (ver : Int) (ids : List (String × String)), r.callHid = callId W.H r.op ver ids ∧ (r.dir = .in_ → (r.name, r.refHid) ∈ ids) ∧
    ∀ n ∈ Dict.keys ids, ∃ r' ∈ rows, r'.callHid = r.callHid ∧ r'.name = n

/-- The in-memory table. -/
def MemOK (m : InMem) : Prop := TableOK W m.df ∧ ∀ r ∈ m.df, r.callHid ∈ m.callHids

/-- Records under a history id. -/
def ShapeOK (h : String) (r : Ref) : Prop := r.hid = h ∧ ∃ t, RefOK W r t

/-- The invariant of the storage. -/
structure Inv (s : St) : Prop where
  atoms : StoreAll (fun c v => c = W.H v) s.atoms
  shapes : StoreAll (ShapeOK W) s.shapes
  cache : MemOK W s.calls.cache
  pers : TableOK W s.calls.pers
  stale : ∀ m, s.stale = some m → MemOK W m

/-- Call data read from a true table. -/
def DataOK (d : CallData) (h : String) : Prop := d.hid = h ∧ ∃ cins outs, CallSem W d.opName h d.cid cins outs ∧
  (Dict.keys d.inputHids).Nodup ∧ (Dict.keys d.outputHids).Nodup ∧
  (∀ n x, Dict.get? d.inputHids n = some x → ∃ t, Prov W x t ∧ (n, t) ∈ cins ∧
    Dict.get? d.inputCids n = some (t.cid W.H)) ∧
  (∀ n x, Dict.get? d.outputHids n = some x → ∃ t, Dict.get? outs n = some t ∧ x = outHid W.H h n ∧ Prov W x t ∧
    Dict.get? d.outputCids n = some (t.cid W.H)) ∧
  (∀ n ∈ Dict.keys outs, n ∈ Dict.keys d.outputHids) ∧ InsFrom W.H d.opName h d.inputHids (Dict.keys d.outputHids)
end

/-- What folding rows into call data yields. -/
structure FoldOK (rs : List Row) (d : CallData) : Prop where
  nodupIn : (Dict.keys d.inputHids).Nodup
  nodupOut : (Dict.keys d.outputHids).Nodup
  ins : ∀ n x, Dict.get? d.inputHids n = some x →
    ∃ r ∈ rs, r.dir = .in_ ∧ r.name = n ∧ r.refHid = x ∧ Dict.get? d.inputCids n = some r.refCid
  outs : ∀ n x, Dict.get? d.outputHids n = some x →
    ∃ r ∈ rs, r.dir = .out ∧ r.name = n ∧ r.refHid = x ∧ Dict.get? d.outputCids n = some r.refCid
  all : ∀ r ∈ rs, r.dir = .out → r.name ∈ Dict.keys d.outputHids
  allIn : ∀ r ∈ rs, r.dir = .in_ → r.name ∈ Dict.keys d.inputHids

theorem FoldOK.addRow {rs : List Row} {d : CallData} (h : FoldOK rs d) (r : Row) : FoldOK (rs ++ [r]) (d.addRow r) := by
  unfold CallData.addRow
  cases hd : r.dir with
  | in_ =>
    refine ⟨Dict.nodup_set h.nodupIn _ _, h.nodupOut, ?_, ?_, ?_, ?_⟩
    · intro n x hx
      dsimp only at hx ⊢
      rw [Dict.get?_set] at hx ⊢
      split at hx
      · rename_i hn
        cases hx
        exact ⟨r, by simp, hd, hn, rfl, by simp [hn]⟩
      · rename_i hn
        obtain ⟨r', hr', h1, h2, h3, h4⟩ := h.ins n x hx
        exact ⟨r', by simp [hr'], h1, h2, h3, by rw [if_neg hn]; exact h4⟩
    · intro n x hx
      obtain ⟨r', hr', hh⟩ := h.outs n x hx
      exact ⟨r', by simp [hr'], hh⟩
    · intro r' hr' hd'
      rcases List.mem_append.1 hr' with hm | hm
      · exact h.all r' hm hd'
      · simp only [List.mem_singleton] at hm
        subst hm
        rw [hd] at hd'
        cases hd'
    · intro r' hr' hd'
      rw [Dict.mem_keys_set]
      rcases List.mem_append.1 hr' with hm | hm
      · exact .inr (h.allIn r' hm hd')
      · simp only [List.mem_singleton] at hm
        exact .inl (by rw [hm])
  | out =>
    refine ⟨h.nodupIn, Dict.nodup_set h.nodupOut _ _, ?_, ?_, ?_, ?_⟩
    · intro n x hx
      obtain ⟨r', hr', hh⟩ := h.ins n x hx
      exact ⟨r', by simp [hr'], hh⟩
    · intro n x hx
      dsimp only at hx ⊢
      rw [Dict.get?_set] at hx ⊢
      split at hx
      · rename_i hn
        cases hx
        exact ⟨r, by simp, hd, hn, rfl, by simp [hn]⟩
      · rename_i hn
        obtain ⟨r', hr', h1, h2, h3, h4⟩ := h.outs n x hx
        exact ⟨r', by simp [hr'], h1, h2, h3, by rw [if_neg hn]; exact h4⟩
    · intro r' hr' hd'
      rw [Dict.mem_keys_set]
      rcases List.mem_append.1 hr' with hm | hm
      · exact .inr (h.all r' hm hd')
      · simp only [List.mem_singleton] at hm
        exact .inl (by rw [hm])
    · intro r' hr' hd'
      rcases List.mem_append.1 hr' with hm | hm
      · exact h.allIn r' hm hd'
      · simp only [List.mem_singleton] at hm
        subst hm
        rw [hd] at hd'
        cases hd'

theorem FoldOK.foldl {rs : List Row} : ∀ {rs0 : List Row} {d : CallData}, FoldOK rs0 d →
    FoldOK (rs0 ++ rs) (rs.foldl CallData.addRow d) := by
  induction rs with
  | nil => intro rs0 d h; simpa using h
  | cons r rs ih =>
    intro rs0 d h
    have := ih (h.addRow r)
    simpa using this

theorem addRow_header (d : CallData) (r : Row) :
    (d.addRow r).hid = d.hid ∧ (d.addRow r).cid = d.cid ∧ (d.addRow r).opName = d.opName := by
  unfold CallData.addRow
  cases r.dir <;> exact ⟨rfl, rfl, rfl⟩

theorem foldl_header (rs : List Row) : ∀ (d : CallData),
    (rs.foldl CallData.addRow d).hid = d.hid ∧ (rs.foldl CallData.addRow d).cid = d.cid ∧
    (rs.foldl CallData.addRow d).opName = d.opName := by
  induction rs with
  | nil => intro d; exact ⟨rfl, rfl, rfl⟩
  | cons r rs ih =>
    intro d
    have h1 := ih (d.addRow r)
    have h2 := addRow_header d r
    exact ⟨h1.1.trans h2.1, h1.2.1.trans h2.2.1, h1.2.2.trans h2.2.2⟩

theorem mem_rowsOf {rows : List Row} {h : String} {r : Row} : r ∈ rowsOf rows h ↔ r ∈ rows ∧ r.callHid = h := by
  simp [rowsOf]

variable {W : World}

theorem dataOK_of_rows (hW : W.Good) {rows : List Row} (hT : TableOK W rows) {h : String} {d : CallData}
    (hd : dataOfRows (rowsOf rows h) = some d) : DataOK W d h := by
  cases hrs : rowsOf rows h with
  | nil => rw [hrs] at hd; cases hd
  | cons r rs =>
    rw [hrs] at hd
    simp only [dataOfRows, Option.some.injEq] at hd
    have hmem : ∀ r' ∈ r :: rs, r' ∈ rows ∧ r'.callHid = h := by
      intro r' hr'
      rw [← hrs] at hr'
      exact mem_rowsOf.1 hr'
    have hf : FoldOK (r :: rs) d := by
      rw [← hd]
      refine FoldOK.foldl (rs0 := []) ⟨?_, ?_, ?_, ?_, ?_, ?_⟩
      · simp [Dict.keys]
      · simp [Dict.keys]
      · intro n x hx; cases hx
      · intro n x hx; cases hx
      · intro r hr; simp at hr
      · intro r hr; simp at hr
    have hh := foldl_header (r :: rs) (CallData.mk r.op r.callCid r.callHid [] [] [] [] r.semVer r.contVer)
    rw [hd] at hh
    obtain ⟨hr, hrh⟩ := hmem r (by simp)
    obtain ⟨cins, outs, hs, _, _, hall, ver, ids, hids, hidin, hidall⟩ := hT r hr
    rw [hrh] at hs
    refine ⟨hh.1.trans hrh, cins, outs, ?_, hf.nodupIn, hf.nodupOut, ?_, ?_, ?_, ver, ids, ?_, ?_, ?_⟩
    · rw [hh.2.1, hh.2.2]; exact hs
    · intro n x hx
      obtain ⟨r', hr', h1, h2, h3, h4⟩ := hf.ins n x hx
      obtain ⟨cins', outs', hs', ⟨t, ht, hc, hin⟩, _⟩ := hT r' (hmem r' hr').1
      rw [(hmem r' hr').2] at hs'
      have := (callSem_functional hW hs hs').2.2.1
      subst this
      exact ⟨t, h3 ▸ ht, h2 ▸ hin h1, by rw [h4, hc]⟩
    · intro n x hx
      obtain ⟨r', hr', h1, h2, h3, h4⟩ := hf.outs n x hx
      obtain ⟨cins', outs', hs', ⟨t', ht', hc, _⟩, hout, _⟩ := hT r' (hmem r' hr').1
      obtain ⟨t, ht, href⟩ := hout h1
      rw [(hmem r' hr').2] at hs' href
      have := (callSem_functional hW hs hs').2.2.2
      subst this
      rw [h2] at ht href
      have hx' : x = outHid W.H h n := by rw [← h3, href]
      have hprov := callSem_prov hs ht
      rw [href] at ht'
      have := hprov.det hW ht'
      subst this
      exact ⟨t, ht, hx', hx' ▸ hprov, by rw [h4, hc]⟩
    · intro n hn
      obtain ⟨r', hr', h1, h2, h3⟩ := hall n hn
      have : r' ∈ r :: rs := by rw [← hrs, mem_rowsOf]; exact ⟨hr', h1.trans hrh⟩
      have := hf.all r' this h3
      rwa [h2] at this
    · rw [← hrh, hh.2.2]; exact hids
    · intro p hp
      obtain ⟨r', hr', h1, h2, h3, _⟩ := hf.ins p.1 p.2 ((Dict.get?_eq_some_iff hf.nodupIn).2 hp)
      obtain ⟨_, _, _, _, _, _, ver', ids', hids', hin', _⟩ := hT r' (hmem r' hr').1
      rw [(hmem r' hr').2, ← hrh, hids] at hids'
      have hm := hin' h1
      rw [h2, h3, ← mem_canon, ← (callId_inj hW hids').2.2, mem_canon] at hm
      exact hm
    · intro n hn
      obtain ⟨r', hr', h1, h2⟩ := hidall n hn
      have hr'' : r' ∈ r :: rs := by rw [← hrs, mem_rowsOf]; exact ⟨hr', h1.trans hrh⟩
      cases hdir : r'.dir with
      | in_ => have := hf.allIn r' hr'' hdir; rw [h2] at this; exact .inl this
      | out => have := hf.all r' hr'' hdir; rw [h2] at this; exact .inr this
end Verif
