import Verif.Proofs.FirmSess
import Verif.Spec.Total
import Verif.Proofs.NoNew
/-!
Statements of a session that must be answered are answered.
-/
namespace Verif

section
variable {W : World}

/-! ### from values and types to stored values -/

theorem Val.height_le : ∀ {vs : List Val} {v : Val}, v ∈ vs → v.height ≤ Val.heights vs
  | [], _, h => by simp at h
  | u :: us, v, h => by
    simp only [Val.heights]
    rcases List.mem_cons.1 h with rfl | h
    · omega
    · have := Val.height_le h
      omega

mutual
theorem TVal.fits_of_height : ∀ (t : TVal) (n : Nat), t.erase.height < n → t.Fits n
  | .atom _, n, h => TVal.Fits.atom (by omega) _
  | .coll k ks ts, 0, h => by omega
  | .coll k ks ts, n + 1, h => by
    show ∀ t ∈ ts, TVal.Fits n t
    refine TVal.fitss_of_height ts n ?_
    cases k <;> simp only [TVal.erase, mkVal, Val.height] at h <;> omega
theorem TVal.fitss_of_height : ∀ (ts : List TVal) (n : Nat), Val.heights (TVal.erases ts) < n → ∀ t ∈ ts, t.Fits n
  | [], _, _, t, ht => by simp at ht
  | a :: ts, n, h, t, ht => by
    simp only [TVal.erases, Val.heights] at h
    rcases List.mem_cons.1 ht with ht | ht
    · rw [ht]; exact TVal.fits_of_height a n (by omega)
    · exact TVal.fitss_of_height ts n (by omega) t ht
end

theorem valT_flat : ∀ {ty : Ty} {v : Val} {t : TVal}, ValT ty v t → FlatTy ty → t.Flat
  | .atom, v, t, h, _ => by
    simp only [ValT] at h
    rw [h]; simp [TVal.Flat]
  | .unsupported, v, t, h, _ => by simp only [ValT] at h
  | .coll .list ty, v, t, h, hf => by
    simp only [FlatTy] at hf
    subst hf
    simp only [ValT] at h
    obtain ⟨keys, vs, ts, _, rfl, _, ha⟩ := h
    simp only [TVal.Flat]
    intro t ht
    obtain ⟨v, _, h1⟩ := ha.mem_right ht
    exact ⟨v, h1⟩
  | .coll .dict ty, v, t, h, hf => by
    simp only [FlatTy] at hf
    simp only [ValT] at h
    obtain ⟨keys, vs, ts, _, rfl, _, ha⟩ := h
    simp only [TVal.Flat]
    refine TVal.flats_iff.2 (fun t ht => ?_)
    obtain ⟨v, _, h1⟩ := ha.mem_right ht
    exact valT_flat h1 hf

theorem argT_val_flat : ∀ {ty : Ty} {v : Val} {t : TVal}, ArgT W ty (.val v) t → FlatTy ty → t.Flat
  | .atom, v, t, h, _ => by
    simp only [ArgT] at h
    rw [h.1]; simp [TVal.Flat]
  | .unsupported, v, t, h, _ => by simp only [ArgT] at h
  | .coll .list ty, v, t, h, hf => by
    simp only [FlatTy] at hf
    subst hf
    simp only [ArgT] at h
    obtain ⟨keys, items, ts, hi, rfl, _, ha⟩ := h
    simp only [TVal.Flat]
    intro t ht
    obtain ⟨a, ham, h1⟩ := ha.mem_right ht
    cases v <;> simp only [plainItems, Option.some.injEq, Prod.mk.injEq, reduceCtorEq] at hi
    obtain ⟨_, rfl⟩ := hi
    simp only [List.mem_map] at ham
    obtain ⟨u, _, rfl⟩ := ham
    exact ⟨u, h1.1⟩
  | .coll .dict ty, v, t, h, hf => by
    simp only [FlatTy] at hf
    simp only [ArgT] at h
    obtain ⟨keys, items, ts, hi, rfl, _, ha⟩ := h
    simp only [TVal.Flat]
    refine TVal.flats_iff.2 (fun t ht => ?_)
    obtain ⟨a, ham, h1⟩ := ha.mem_right ht
    cases v <;> simp only [plainItems, Option.some.injEq, Prod.mk.injEq, reduceCtorEq] at hi
    obtain ⟨_, rfl⟩ := hi
    simp only [List.mem_map] at ham
    obtain ⟨u, _, rfl⟩ := ham
    exact argT_val_flat h1 hf

theorem argT_ref {ty : Ty} {r : Ref} {t : TVal} (h : ArgT W ty (.ref r) t) : RefOK W r t := by
  cases ty <;> exact h

theorem TVal.atom_of_erase {t : TVal} (h : t.erase.isColl = false) : ∃ v, t = .atom v := by
  cases t with
  | atom v => exact ⟨v, rfl⟩
  | coll k ks ts => cases k <;> simp [TVal.erase, mkVal, Val.isColl] at h

theorem toArgs_mem {env : List Ref} : ∀ {xs : List PExpr} {as : List Arg}, PExpr.toArgs env xs = some as → ∀ a ∈ as, ∃ x ∈ xs, x.toArg env = some a
  | [], as, h, a, ha => by cases h; simp at ha
  | x :: xs, as, h, a, ha => by
    simp only [PExpr.toArgs] at h
    split at h
    · cases h
      rcases List.mem_cons.1 ha with rfl | ha
      · exact ⟨x, by simp, ‹_›⟩
      · obtain ⟨y, hy, h1⟩ := toArgs_mem ‹_› a ha
        exact ⟨y, List.mem_cons_of_mem _ hy, h1⟩
    · cases h

theorem atomExpr_atom (hW : W.Good) {env : List Ref} {penv : List Val} (he : EnvOK W env penv) {ty : Ty} {x : PExpr} {a : Arg} {t : TVal}
    (hx : AtomExpr penv ty x) (ha : x.toArg env = some a) (ht : ArgT W ty a t) : ∃ v, t = .atom v := by
  cases x with
  | raw v =>
    cases ha
    simp only [AtomExpr] at hx
    subst hx
    exact ⟨v, ht.1⟩
  | var i =>
    simp only [PExpr.toArg, Option.map_eq_some_iff] at ha
    obtain ⟨r, hr, rfl⟩ := ha
    rcases he.get? i with ⟨h1, _⟩ | ⟨r', v, t', h1, h2, h3, h4⟩
    · rw [h1] at hr; cases hr
    · rw [h1] at hr; cases hr
      have := (argT_ref ht).prov.det hW h3.prov
      subst this
      exact TVal.atom_of_erase (by rw [h4]; exact hx v h2)
  | list xs => exact absurd hx id
  | dict ks xs => exact absurd hx id

/-- Results of ops that return no lists of collections are none. -/
structure OrigOK (W : World) (env : List Ref) (orig : List OpDef) : Prop where
  len : orig.length = env.length
  ok : ∀ (i : Nat) (r : Ref) (d : OpDef), env[i]? = some r → orig[i]? = some d → OutsFlat d → ∀ t, RefOK W r t → t.Flat

theorem OrigOK.flat {env : List Ref} {orig : List OpDef} (h : OrigOK W env orig) {i : Nat} {r : Ref} (hr : env[i]? = some r)
    (hx : FlatVar orig i) : ∀ t, RefOK W r t → t.Flat := by
  have hl : i < orig.length := by rw [h.len]; exact (List.getElem?_eq_some_iff.1 hr).1
  have hd : orig[i]? = some orig[i] := List.getElem?_eq_getElem hl
  exact h.ok i r _ hr hd (hx _ hd)

theorem OrigOK.append {env : List Ref} {orig : List OpDef} (h : OrigOK W env orig) {rs : List Ref} {d : OpDef}
    (hrs : OutsFlat d → ∀ r ∈ rs, ∀ t, RefOK W r t → t.Flat) : OrigOK W (env ++ rs) (orig ++ List.replicate rs.length d) := by
  refine ⟨by simp [h.len], fun i r d' hr hd hf => ?_⟩
  by_cases hi : i < env.length
  · rw [List.getElem?_append_left hi] at hr
    rw [List.getElem?_append_left (by rw [h.len]; exact hi)] at hd
    exact h.ok i r d' hr hd hf
  · rw [List.getElem?_append_right (by omega)] at hr
    rw [List.getElem?_append_right (by rw [h.len]; omega)] at hd
    have := List.eq_of_mem_replicate (List.mem_of_getElem? hd)
    subst this
    exact hrs hf r (List.mem_of_getElem? hr)

mutual
theorem flatExpr_flat (hW : W.Good) {env : List Ref} {penv : List Val} (he : EnvOK W env penv) {orig : List OpDef}
    (hf : OrigOK W env orig) : ∀ (x : PExpr) (ty : Ty) (a : Arg) (t : TVal), FlatExpr penv orig ty x → x.toArg env = some a → ArgT W ty a t → t.Flat
  | .raw v, ty, a, t, hx, ha, ht => by
    cases ha
    exact argT_val_flat ht (by cases ty <;> simpa only [FlatExpr] using hx)
  | .var i, ty, a, t, hx, ha, ht => by
    simp only [PExpr.toArg, Option.map_eq_some_iff] at ha
    obtain ⟨r, hr, rfl⟩ := ha
    have hx : FlatVar orig i := by cases ty <;> simpa only [FlatExpr] using hx
    exact hf.flat hr hx t (argT_ref ht)
  | .list xs, ty, a, t, hx, ha, ht => by
    simp only [PExpr.toArg, Option.map_eq_some_iff] at ha
    obtain ⟨as, has, rfl⟩ := ha
    cases ty with
    | atom => exact absurd ht id
    | unsupported => exact absurd ht id
    | coll k ty =>
      simp only [ArgT] at ht
      obtain ⟨keys, items, ts, hi, rfl, _, hall⟩ := ht
      cases k <;> simp only [plainItems, Option.some.injEq, Prod.mk.injEq, reduceCtorEq] at hi
      obtain ⟨_, rfl⟩ := hi
      simp only [TVal.Flat]
      intro t ht
      obtain ⟨a, ha, h1⟩ := hall.mem_right ht
      obtain ⟨x, hxm, h2⟩ := toArgs_mem has a ha
      simp only [FlatExpr] at hx
      exact atomExpr_atom hW he (hx x hxm) h2 h1
  | .dict ks xs, ty, a, t, hx, ha, ht => by
    simp only [PExpr.toArg, Option.map_eq_some_iff] at ha
    obtain ⟨as, has, rfl⟩ := ha
    cases ty with
    | atom => exact absurd ht id
    | unsupported => exact absurd ht id
    | coll k ty =>
      simp only [ArgT] at ht
      obtain ⟨keys, items, ts, hi, rfl, _, hall⟩ := ht
      cases k <;> simp only [plainItems, Option.some.injEq, Prod.mk.injEq, reduceCtorEq] at hi
      obtain ⟨_, rfl⟩ := hi
      simp only [TVal.Flat]
      simp only [FlatExpr] at hx
      exact TVal.flats_iff.2 (flatExprs_flat hW he hf xs ty as ts hx has hall)
theorem flatExprs_flat (hW : W.Good) {env : List Ref} {penv : List Val} (he : EnvOK W env penv) {orig : List OpDef}
    (hf : OrigOK W env orig) : ∀ (xs : List PExpr) (ty : Ty) (as : List Arg) (ts : List TVal), FlatExprs penv orig ty xs → PExpr.toArgs env xs = some as → All2 (ArgT W ty) as ts →
      ∀ t ∈ ts, t.Flat
  | [], ty, as, ts, _, ha, hall, t, ht => by
    cases ha
    cases hall
    simp at ht
  | x :: xs, ty, as, ts, hx, ha, hall, t, ht => by
    simp only [PExpr.toArgs] at ha
    split at ha
    · cases ha
      cases hall with
      | cons h1 h2 =>
        simp only [FlatExprs] at hx
        rcases List.mem_cons.1 ht with rfl | ht
        · exact flatExpr_flat hW he hf x ty _ t hx.1 ‹_› h1
        · exact flatExprs_flat hW he hf xs ty _ _ hx.2 ‹_› h2 t ht
    · cases ha
end

theorem bindArgs_mem {env : List Ref} : ∀ {args : List PArg} {bs : List BArg}, bindArgs env args = some bs →
    (∀ b ∈ bs, ∃ p ∈ args, p.expr.toArg env = some b.arg ∧ p.ty = b.ty) ∧ ∀ p ∈ args, ∃ b ∈ bs, b.ignored = p.ignored
  | [], bs, h => by cases h; simp
  | p :: ps, bs, h => by
    simp only [bindArgs] at h
    split at h
    · cases h
      obtain ⟨h1, h2⟩ := bindArgs_mem (args := ps) ‹_›
      refine ⟨fun b hb => ?_, fun q hq => ?_⟩
      · rcases List.mem_cons.1 hb with rfl | hb
        · exact ⟨p, by simp, ‹_›, rfl⟩
        · obtain ⟨q, hq, h3⟩ := h1 b hb
          exact ⟨q, List.mem_cons_of_mem _ hq, h3⟩
      · rcases List.mem_cons.1 hq with rfl | hq
        · exact ⟨_, List.mem_cons_self, rfl⟩
        · obtain ⟨b, hb, h3⟩ := h2 q hq
          exact ⟨b, List.mem_cons_of_mem _ hb, h3⟩
    · cases h

/-! ### the outputs of a user op -/

/-- What is known of the outputs of a user op. -/
structure OutsShape (W : World) (d : OpDef) (ins : List (String × Val)) (outs : List (String × TVal)) (ret : Val) : Prop where
  body : d.body ins = .ok ret
  parse : ∃ pouts, parseReturns d.nout d.outNames d.ann ret = .ok pouts ∧ (∀ q ∈ outs, ∃ p ∈ pouts, ValT p.2.2 p.2.1 q.2)
  names : NamesOK d.outNames (plainResults ret).length
  keys : Dict.keys outs = outNamesOf d.outNames (plainResults ret).length
  vals : ∀ q ∈ outs, q.2.erase ∈ plainResults ret

theorem outs_shape (hW : W.Good) {d : OpDef} (hd : OpOK W d) {ins outs : List (String × TVal)} (h : Sem W d.name d.version ins outs) :
    ∃ ret, OutsShape W d (eraseIns ins) outs ret := by
  obtain ⟨ret, pouts, hb, hp, ha⟩ := sem_user_inv hW hd.mem h rfl rfl
  obtain ⟨vs, hvs, hsh⟩ := parseReturns_shape hp
  have hno := hd.names _ ret vs hb hvs
  replace hsh := hsh hno
  have hpv := returnsTuple_plain hvs
  have hl : (outNamesOf d.outNames vs.length).length = vs.length := by simp [outNamesOf]
  refine ⟨ret, hb, ⟨pouts, hp, fun q hq => ?_⟩, hpv ▸ hno, ?_, fun q hq => ?_⟩
  · obtain ⟨p, hpm, h1⟩ := ha.mem_right hq
    exact ⟨p, hpm, h1.2.1⟩
  · have e1 : Dict.keys outs = pouts.map (·.1) := by
      clear hsh hp h
      induction ha with
      | nil => rfl
      | cons h1 _ ih =>
        simp only [Dict.keys, List.map_cons] at ih ⊢
        rw [ih, h1.1]
    have e2 := congrArg (List.map Prod.fst) hsh
    rw [List.map_map, List.map_fst_zip (by omega)] at e2
    rw [e1, ← hpv, ← e2]
    rfl
  · obtain ⟨p, hpm, h1⟩ := ha.mem_right hq
    rw [valT_erase _ _ _ h1.2.1, ← hpv]
    have : (p.1, p.2.1) ∈ (outNamesOf d.outNames vs.length).zip vs := by
      rw [← hsh]; exact List.mem_map.2 ⟨p, hpm, rfl⟩
    exact (List.of_mem_zip this).2

theorem OutsShape.flat {d : OpDef} {ins : List (String × Val)} {outs : List (String × TVal)} {ret : Val} (h : OutsShape W d ins outs ret)
    (hf : OutsFlat d) : ∀ q ∈ outs, q.2.Flat := by
  intro q hq
  obtain ⟨pouts, hp, h1⟩ := h.parse
  obtain ⟨p, hpm, h2⟩ := h1 q hq
  exact valT_flat h2 (hf _ _ _ h.body hp p hpm)

/-! ### statements -/

/-- What holds during a session. -/
structure FSess (W : World) (s : St) (env : List Ref) (orig : List OpDef) : Prop where
  sess : Sess W s env
  full : MemFull W s.calls.cache
  flat : OrigOK W env orig
  firm : ∀ r ∈ env, EFirm W (Has s.shapes) r ∧ Has s.shapes r.hid

theorem EFirm.mono {S S' : String → Prop} (hS : ∀ h, S h → S' h) {r : Ref} (h : EFirm W S r) : EFirm W S' r :=
  fun t ht hf => Firm.mono hS r (h t ht hf)

theorem FSess.base {s : St} {env : List Ref} {orig : List OpDef} (h : FSess W s env orig) : Base W s := ⟨h.sess.inv, h.sess.whole, h.full⟩

theorem FSess.start {s : St} (h : Sess W s []) (hf : MemFull W s.calls.cache) : FSess W s [] [] :=
  ⟨h, hf, ⟨rfl, fun i r d hr => by simp at hr⟩, by simp⟩

mutual
theorem toArg_firm {S : String → Prop} {env : List Ref} (h : ∀ r ∈ env, EFirm W S r) : ∀ (e : PExpr) (a : Arg), e.toArg env = some a → ArgFirm W S a
  | .raw v, a, ha => by cases ha; simp [ArgFirm]
  | .var i, a, ha => by
    simp only [PExpr.toArg, Option.map_eq_some_iff] at ha
    obtain ⟨r, hr, rfl⟩ := ha
    exact h r (List.mem_of_getElem? hr)
  | .list xs, a, ha => by
    simp only [PExpr.toArg, Option.map_eq_some_iff] at ha
    obtain ⟨as, has, rfl⟩ := ha
    simp only [ArgFirm]
    exact toArgs_firm h xs as has
  | .dict ks xs, a, ha => by
    simp only [PExpr.toArg, Option.map_eq_some_iff] at ha
    obtain ⟨as, has, rfl⟩ := ha
    simp only [ArgFirm]
    exact toArgs_firm h xs as has
theorem toArgs_firm {S : String → Prop} {env : List Ref} (h : ∀ r ∈ env, EFirm W S r) : ∀ (xs : List PExpr) (as : List Arg),
    PExpr.toArgs env xs = some as → ArgsFirm W S as
  | [], as, ha => by cases ha; simp [ArgsFirm]
  | x :: xs, as, ha => by
    simp only [PExpr.toArgs] at ha
    split at ha
    · cases ha
      simp only [ArgsFirm]
      exact ⟨toArg_firm h x _ ‹_›, toArgs_firm h xs _ ‹_›⟩
    · cases ha
end

theorem storedIns_nil {args : List BArg} {ins : List In} (h : ArgsOK W args ins) (hn : storedIns args ins = []) : ∀ a ∈ args, a.ignored = true := by
  have := All2.length_eq h.stored
  rw [hn] at this
  have h0 : args.filter (fun a => !a.ignored) = [] := List.length_eq_zero_iff.1 this
  intro a ha
  have := List.filter_eq_nil_iff.1 h0 a ha
  simpa using this

theorem storedIns_mem : ∀ {args : List BArg} {ins : List In}, ∀ i ∈ storedIns args ins, i ∈ ins
  | [], _, i, h => by simp [storedIns] at h
  | _ :: _, [], i, h => by simp [storedIns] at h
  | a :: as, j :: is, i, h => by
    simp only [storedIns] at h
    split at h
    · exact List.mem_cons_of_mem _ (storedIns_mem i h)
    · rcases List.mem_cons.1 h with rfl | h
      · simp
      · exact List.mem_cons_of_mem _ (storedIns_mem i h)

/-- A call within the limits can be answered. -/
theorem lookOK_of (hW : W.Good) {penv : List Val} {d : OpDef} (hd : OpOK W d) {env : List Ref} {args : List PArg} {bargs : List BArg} {ins : List In}
    {vals : List (String × Val)} (h1 : bindArgs env args = some bargs) (h2 : plainArgs penv args = some vals) (h3 : ArgsOK W bargs ins)
    (h5 : eraseIns (insVals ins) = vals) (h6 : d.body (eraseIns (insVals ins)) = d.body (plainIns bargs ins)) (hc : CallSized W.cfg.fuel penv d args) :
    LookOK W d.name d.version d.outNames (storedIns bargs ins) := by
  obtain ⟨m1, m2⟩ := bindArgs_mem h1
  have hfit : ∀ i ∈ ins, i.t.Fits W.cfg.fuel := by
    intro i hi
    refine TVal.fits_of_height _ _ (hc.depth vals h2 (i.name, i.t.erase) ?_)
    rw [← h5]
    simp only [eraseIns, insVals, List.map_map, List.mem_map]
    exact ⟨i, hi, rfl⟩
  have hret : ∀ ret, d.body (plainIns bargs ins) = .ok ret → _ := fun ret hr => hc.returns vals ret h2 (by rw [← h5, h6]; exact hr)
  refine ⟨fun i hi => hfit i (storedIns_mem i hi), fun outs hs => ?_⟩
  obtain ⟨ret, hsh⟩ := outs_shape hW hd hs
  obtain ⟨g1, g2, g3⟩ := hret ret hsh.body
  refine ⟨fun p hp => TVal.fits_of_height _ _ (g2 _ (hsh.vals p hp)), fun hnil ho => ?_, _, hsh.names, hsh.keys⟩
  rcases g3 with ⟨a, ha, hi⟩ | g3
  · obtain ⟨b, hb, hbi⟩ := m2 a ha
    rw [storedIns_nil h3 hnil b hb] at hbi
    rw [hi] at hbi; cases hbi
  · have := hsh.keys
    rw [ho] at this
    have := congrArg List.length this
    simp [Dict.keys, outNamesOf] at this
    exact g3 (List.length_eq_zero_iff.1 this.symm)

theorem callsOK_of (hW : W.Good) {s : St} {env : List Ref} {penv : List Val} (he : EnvOK W env penv) {orig : List OpDef}
    (hfl : OrigOK W env orig) {d : OpDef} (hd : OpOK W d) {args : List PArg} {bargs : List BArg} {ins : List In} {vals : List (String × Val)}
    (h1 : bindArgs env args = some bargs) (h2 : plainArgs penv args = some vals) (h3 : ArgsOK W bargs ins) (h5 : eraseIns (insVals ins) = vals)
    (h6 : d.body (eraseIns (insVals ins)) = d.body (plainIns bargs ins)) (hal : s.allowNew = true) (hc : CallFitsIn W.cfg.fuel penv orig d args) :
    CallsOK W s d bargs ins := by
  obtain ⟨m1, m2⟩ := bindArgs_mem h1
  refine ⟨lookOK_of hW hd h1 h2 h3 h5 h6 hc.toCallSized, fun _ _ _ _ => .inl hal,
    .inr ⟨hal, hc.pos, fun i hi => ?_, fun ret hr => (hc.returns vals ret h2 (by rw [← h5, h6]; exact hr)).1, fun outs hs => ?_⟩⟩
  · obtain ⟨b, hb, _, _, ht⟩ := h3.mem_right hi
    obtain ⟨p, hp, g1, g2⟩ := m1 b hb
    exact flatExpr_flat hW he hfl p.expr p.ty b.arg i.t (hc.flat p hp) g1 (g2 ▸ ht)
  · obtain ⟨ret, hsh⟩ := outs_shape hW hd hs
    exact hsh.flat hc.flatOut

/-- The call can be answered, whatever stands for the results so far. -/
def CallsOKIn (W : World) (s : St) (env : List Ref) (penv : List Val) (d : OpDef) (args : List PArg) : Prop :=
  ∀ bargs ins vals, bindArgs env args = some bargs → plainArgs penv args = some vals → ArgsOK W bargs ins → eraseIns (insVals ins) = vals →
    d.body (eraseIns (insVals ins)) = d.body (plainIns bargs ins) → CallsOK W s d bargs ins

/-! ### whether new calls are allowed -/

/-- new calls are allowed as before -/
def AllowR (s s' : St) : Prop := s'.allowNew = s.allowNew

theorem AllowR.writes : Writes AllowR where
  ord := ⟨fun _ => rfl, fun h1 h2 => h2.trans h1⟩
  shapesGet _ _ := rfl
  atomsGet _ _ := rfl
  opsGet _ _ := rfl
  shapesSet _ _ _ := rfl
  atomsSet _ _ _ := rfl
  opsSet _ _ := rfl
  log _ _ _ := rfl

theorem allow_commit (cfg : Cfg) (s : St) : AllowR s (commit cfg s).2 := by
  obtain ⟨h1, _, _⟩ := commitBody_same cfg s
  unfold commit
  cases hb : commitBody cfg s with
  | mk x s' =>
    rw [hb] at h1
    cases x <;> exact h1

theorem allow_clearCache (b : Bool) (s : St) : AllowR s (clearCache b s).2 := by
  unfold clearCache
  dsimp only
  split
  · exact rfl
  · split
    · exact rfl
    · split
      · exact rfl
      · split <;> exact rfl

theorem allow_dropCached : ∀ (hs : List String) (s : St), AllowR s (dropCached hs s).2
  | [], _ => rfl
  | h :: hs, s => by
    unfold dropCached
    split
    · split
      · exact rfl
      · refine (allow_dropCached hs _).trans ?_
        unfold St.setCallCache; split <;> rfl
    · exact allow_dropCached hs s

theorem allow_dropCalls (hs : List String) (b : Bool) (s : St) : AllowR s (dropCalls hs b s).2 := by
  unfold dropCalls
  generalize (if b = true then _ else hs) = l
  have := allow_dropCached l s
  simp only
  cases hd : dropCached l s with
  | mk x s' =>
    rw [hd] at this
    cases x with
    | error e => exact this
    | ok _ => exact this

theorem allow_cmd {c : Cmd} (hin : c.InSession) (cfg : Cfg) (env : List Ref) (s : St) :
    (c.run cfg env s).2.2.allowNew = c.allowsAfter s.allowNew := by
  have hadm : ∀ (m : M Unit), AllowR s (m s).2 → (Cmd.run.admin env s m).2.2.allowNew = s.allowNew := by
    intro m h; unfold Cmd.run.admin; cases hm : m s with | mk x s' => rw [hm] at h; cases x <;> exact h
  cases c with
  | call d args =>
    simp only [Cmd.run, Cmd.allowsAfter]
    cases bindArgs env args with
    | none => rfl
    | some bs =>
      have h := pres_call AllowR.writes.toUnwraps cfg (fun c => pres_saveCall AllowR.writes c fun _ _ => rfl) d bs s
      simp only
      cases hc : call cfg d bs s with
      | mk x s' => rw [hc] at h; cases x <;> exact h
  | unwrap x =>
    simp only [Cmd.run, Cmd.allowsAfter]
    cases env[x]? with
    | none => rfl
    | some r =>
      have h := pres_unwrapRef AllowR.writes.toUnwraps cfg r s
      simp only
      cases hc : unwrapRef cfg r s with
      | mk x s' => rw [hc] at h; cases x <;> exact h
  | commit => exact hadm _ (allow_commit cfg s)
  | clearCache b => exact hadm _ (allow_clearCache b s)
  | dropCalls hs b => exact hadm _ (allow_dropCalls hs b s)
  | allowNew b => rfl
  | cleanupRefs => exact absurd hin id
  | preload => exact absurd hin id
  | reopen => exact absurd hin id

/-! ### statements -/

theorem fsess_call (hW : W.Good) {s : St} {env : List Ref} {orig : List OpDef} {penv : List Val} (h : FSess W s env orig) (he : EnvOK W env penv)
    {d : OpDef} {args : List PArg} (hok : CmdOK W (.call d args)) :
    FSess W ((Cmd.call d args).run W.cfg env s).2.2 ((Cmd.call d args).run W.cfg env s).2.1
      ((Cmd.call d args).origins orig (((Cmd.call d args).run W.cfg env s).2.1.length - env.length)) ∧
    (CallsOKIn W s env penv d args →
      ((Cmd.call d args).run W.cfg env s).1 = ((Cmd.call d args).plain penv).1 ∧
      EnvOK W ((Cmd.call d args).run W.cfg env s).2.1 ((Cmd.call d args).plain penv).2) := by
  have hs := sess_call hW h.sess he hok
  obtain ⟨_, hstep⟩ := step_ok hW hok he h.sess.inv (o := ((Cmd.call d args).run W.cfg env s).1) (env' := ((Cmd.call d args).run W.cfg env s).2.1)
    (s' := ((Cmd.call d args).run W.cfg env s).2.2) rfl
  simp only [Cmd.run] at hs hstep ⊢
  simp only [Cmd.plain, Cmd.origins] at hstep ⊢
  rcases call_facts hok he with ⟨h1, h1'⟩ | ⟨bargs, ins, vals, h1, h2, h3, h4, h5, h6⟩
  · rw [h1] at hs hstep ⊢
    rw [h1'] at hstep ⊢
    simp only [Nat.sub_self, List.replicate_zero, List.append_nil]
    exact ⟨h, fun _ => ⟨trivial, he⟩⟩
  · rw [h1] at hs hstep ⊢
    rw [h2] at hstep ⊢
    simp only at hs hstep ⊢
    have hcd := firm_call hW h.base hok.1 h3 h4 h6 (fun a ha => ?_)
      (bindArgs_live (fun r hr => (h.sess.env r hr).1) args bargs h1)
    rotate_left
    · obtain ⟨p, _, hp, _⟩ := (bindArgs_mem h1).1 a ha
      exact toArg_firm (fun r hr => (h.firm r hr).1) p.expr _ hp
    have hold : ∀ r ∈ env, EFirm W (Has (call W.cfg d bargs s).2.shapes) r ∧ Has (call W.cfg d bargs s).2.shapes r.hid :=
      fun r hr => ⟨(h.firm r hr).1.mono (fun k hk => hcd.sub.has hk), hcd.sub.has (h.firm r hr).2⟩
    cases hc : call W.cfg d bargs s with
    | mk x s1 =>
      rw [hc] at hs hstep hcd hold
      cases x with
      | ok rs =>
        simp only at hs hstep ⊢
        rw [List.length_append, Nat.add_sub_cancel_left]
        refine ⟨⟨hs, hcd.base.full, h.flat.append (fun hof r hr t' ht' => ?_), fun r hr => ?_⟩, fun _ => ?_⟩
        · obtain ⟨outs, g1, g2⟩ := hcd.outs rs rfl
          obtain ⟨n, t, g3, g4⟩ := g2 r hr
          obtain ⟨ret, g5⟩ := outs_shape hW hok.1 g1
          rw [ht'.prov.det hW g4.prov]
          exact g5.flat hof _ g3
        · rcases List.mem_append.1 hr with hr | hr
          · exact hold r hr
          · exact hcd.firm rs rfl r hr
        · rcases hstep with hstep | ⟨e, hstep, _⟩
          · exact hstep
          · cases hstep
      | error e =>
        simp only at hs hstep ⊢
        rw [Nat.sub_self, List.replicate_zero, List.append_nil]
        refine ⟨⟨hs, hcd.base.full, h.flat, hold⟩, fun hm => ?_⟩
        rcases hcd.err e rfl with g | g
        · exact absurd (hm bargs ins vals h1 h2 h3 h5 h6) g
        · rw [← h5, h6, g]
          exact ⟨rfl, he⟩

theorem fsess_unwrap (hW : W.Good) {s : St} {env : List Ref} {orig : List OpDef} {penv : List Val} (h : FSess W s env orig) (he : EnvOK W env penv) (x : Nat) :
    FSess W ((Cmd.unwrap x).run W.cfg env s).2.2 ((Cmd.unwrap x).run W.cfg env s).2.1 orig ∧
    (MustAnswer W.cfg.fuel s.allowNew penv orig (.unwrap x) → ((Cmd.unwrap x).run W.cfg env s).1 = ((Cmd.unwrap x).plain penv).1 ∧
      EnvOK W ((Cmd.unwrap x).run W.cfg env s).2.1 ((Cmd.unwrap x).plain penv).2) := by
  have hs := sess_unwrap hW h.sess he x
  simp only [Cmd.run, Cmd.plain] at hs ⊢
  rcases he.get? x with ⟨h1, h2⟩ | ⟨r, v, t, h1, h2, h3, h4⟩
  · rw [h1] at hs ⊢
    rw [h2]
    exact ⟨h, fun _ => ⟨rfl, he⟩⟩
  · rw [h1] at hs ⊢
    rw [h2]
    simp only at hs ⊢
    have hx := pres_unwrapRef (Ext.unwraps s) W.cfg r s (.refl s)
    have hfl := pres_unwrapRef (FullR.writes (W := W)).toUnwraps W.cfg r s h.full
    have hu := firm_unwrapRef hW h.base r t h3 s h.base.refl
    have hfi := (h.firm r (List.mem_of_getElem? h1)).1
    cases hc : unwrapRef W.cfg r s with
    | mk y s1 =>
      rw [hc] at hs hx hfl hu
      have hsub := hx.sub
      have hold : ∀ r ∈ env, EFirm W (Has s1.shapes) r ∧ Has s1.shapes r.hid :=
        fun r hr => ⟨(h.firm r hr).1.mono (fun k hk => hsub.has hk), hsub.has (h.firm r hr).2⟩
      cases y with
      | ok w =>
        refine ⟨⟨hs, hfl, h.flat, hold⟩, fun _ => ⟨?_, he⟩⟩
        simp only
        rw [hu.2, h4]
      | error e => exact ⟨⟨hs, hfl, h.flat, hold⟩, fun hf => absurd ⟨hf.1, hfi t h3 (h.flat.flat h1 hf.2 t h3)⟩ hu.2⟩

/-- Nothing that is read changes. -/
theorem FSess.of_reads {s s' : St} {env : List Ref} {orig : List OpDef} (h : FSess W s env orig) (hs : Sess W s' env) (hf : MemFull W s'.calls.cache)
    (hS : ∀ k, Has s.shapes k → Has s'.shapes k) : FSess W s' env orig :=
  ⟨hs, hf, h.flat, fun r hr => ⟨(h.firm r hr).1.mono hS, hS _ (h.firm r hr).2⟩⟩

/-- A statement of a session. -/
theorem fsess_cmd (hW : W.Good) {c : Cmd} (hok : CmdOK W c) (hin : c.InSession) {s : St} {env : List Ref} {orig : List OpDef} {penv : List Val}
    (h : FSess W s env orig) (he : EnvOK W env penv) (hd : c = .commit → (c.run W.cfg env s).1 = .done) :
    FSess W (c.run W.cfg env s).2.2 (c.run W.cfg env s).2.1 (c.origins orig ((c.run W.cfg env s).2.1.length - env.length)) ∧
    (MustAnswer W.cfg.fuel s.allowNew penv orig c →
      (c.run W.cfg env s).1 = (c.plain penv).1 ∧ EnvOK W (c.run W.cfg env s).2.1 (c.plain penv).2) := by
  have hadm : ∀ (m : M Unit), (Cmd.run.admin env s m).2.2 = (m s).2 ∧ (Cmd.run.admin env s m).2.1 = env := by
    intro m; unfold Cmd.run.admin; cases m s with | mk x s' => cases x <;> exact ⟨rfl, rfl⟩
  have hs := (sess_cmd hW hok hin h.sess he).1 hd
  cases c with
  | call d args =>
    obtain ⟨h1, h2⟩ := fsess_call hW h he hok
    exact ⟨h1, fun hm => h2 (fun bargs ins vals g1 g2 g3 g4 g5 => callsOK_of hW he h.flat hok.1 g1 g2 g3 g4 g5 hm.1 hm.2)⟩
  | unwrap x => exact fsess_unwrap hW h he x
  | commit =>
    refine ⟨?_, fun hm => absurd hm id⟩
    simp only [Cmd.run, (hadm _).1, (hadm _).2, Cmd.origins] at hs ⊢
    cases hc : commit W.cfg s with
    | mk x s' =>
      rw [hc] at hs
      cases x with
      | error e =>
        have := hd rfl
        simp [Cmd.run, Cmd.run.admin, hc] at this
      | ok _ =>
        obtain ⟨_, c2, _, c4, _⟩ := commit_parts hc
        have rs := commit_reads (P := fun _ _ => True) h.sess.shapes (.inl h.sess.ovfS) c2
        exact h.of_reads hs (by rw [c4]; exact h.full) (fun k ⟨v, hv⟩ => ⟨v, by rw [(rs k).1]; exact hv⟩)
  | clearCache b =>
    cases hin
    refine ⟨?_, fun hm => absurd hm id⟩
    simp only [Cmd.run, (hadm _).1, (hadm _).2, Cmd.origins] at hs ⊢
    obtain ⟨_, p2, _, p4⟩ := clear_parts (s := s) (b := false)
    obtain ⟨b1, _, _⟩ := clean_step h.sess.shapes p2
    refine h.of_reads hs ?_ (fun k ⟨v, hv⟩ => ⟨v, by rw [b1]; exact hv⟩)
    rcases p4 with p4 | p4
    · rw [p4]; exact h.full
    · rw [p4]
      unfold CachedCalls.clear
      split
      · exact h.full
      · intro k hk; simp [InMem.empty] at hk
  | dropCalls hs' b =>
    refine ⟨?_, fun hm => absurd hm id⟩
    simp only [Cmd.run, (hadm _).1, (hadm _).2, Cmd.origins] at hs ⊢
    obtain ⟨_, h2, _⟩ := dropCalls_sub hs' b s
    exact h.of_reads hs (full_dropCalls hs' b s h.full) (fun k hk => by rw [h2]; exact hk)
  | allowNew b => exact ⟨h.of_reads hs h.full (fun _ h => h), fun _ => ⟨rfl, he⟩⟩
  | cleanupRefs => exact absurd hin id
  | preload => exact absurd hin id
  | reopen => exact absurd hin id

/-- A session: what must be answered is. -/
theorem fsess_prog (hW : W.Good) : ∀ (cs : List Cmd), (∀ c ∈ cs, CmdOK W c ∧ c.InSession) →
    ∀ {env : List Ref} {orig : List OpDef} {penv : List Val}, EnvOK W env penv → ∀ {s : St}, FSess W s env orig → commitsDone cs (runProg W.cfg env s cs).1 →
    (∃ orig', FSess W (runProg W.cfg env s cs).2.2 (runProg W.cfg env s cs).2.1 orig' ∧
      ∀ d ∈ orig', d ∈ orig ∨ ∃ args, Cmd.call d args ∈ cs) ∧
    Answers W.cfg.fuel s.allowNew penv orig cs (runProg W.cfg env s cs).1 ∧
    ∃ penv', EnvOK W (runProg W.cfg env s cs).2.1 penv'
  | [], _, env, orig, penv, he, s, h, _ => ⟨⟨orig, h, fun _ hd => .inl hd⟩, .nil, penv, he⟩
  | c :: cs, hok, env, orig, penv, he, s, h, hg => by
    simp only [runProg] at hg ⊢
    have hcd : (c = .commit → (c.run W.cfg env s).1 = .done) ∧ commitsDone cs (runProg W.cfg (c.run W.cfg env s).2.1 (c.run W.cfg env s).2.2 cs).1 := by
      cases c with
      | commit => exact ⟨fun _ => hg.1, hg.2⟩
      | _ => exact ⟨fun h => (nomatch h), hg⟩
    obtain ⟨h1, h2⟩ := fsess_cmd hW (hok c (by simp)).1 (hok c (by simp)).2 h he hcd.1
    obtain ⟨_, h5⟩ := step_ok hW (hok c (by simp)).1 he h.sess.inv (o := (c.run W.cfg env s).1) (env' := (c.run W.cfg env s).2.1)
      (s' := (c.run W.cfg env s).2.2) rfl
    have hal := allow_cmd (hok c (by simp)).2 W.cfg env s
    have hrec := fun {penv'} (he' : EnvOK W (c.run W.cfg env s).2.1 penv') =>
      fsess_prog hW cs (fun c hc => hok c (List.mem_cons_of_mem _ hc)) he' h1 hcd.2
    have hor : ∀ {n d}, (d ∈ c.origins orig n ∨ ∃ args, Cmd.call d args ∈ cs) → d ∈ orig ∨ ∃ args, Cmd.call d args ∈ c :: cs := by
      rintro n d (hd | ⟨args, hd⟩)
      · cases c with
        | call d' args =>
          simp only [Cmd.origins] at hd
          rcases List.mem_append.1 hd with hd | hd
          · exact .inl hd
          · exact .inr ⟨args, by rw [List.eq_of_mem_replicate hd]; simp⟩
        | _ => exact .inl hd
      · exact .inr ⟨args, List.mem_cons_of_mem _ hd⟩
    have hsame : (c.run W.cfg env s).1 = (c.plain penv).1 ∧ EnvOK W (c.run W.cfg env s).2.1 (c.plain penv).2 →
        (∃ orig', FSess W (runProg W.cfg (c.run W.cfg env s).2.1 (c.run W.cfg env s).2.2 cs).2.2
          (runProg W.cfg (c.run W.cfg env s).2.1 (c.run W.cfg env s).2.2 cs).2.1 orig' ∧ ∀ d ∈ orig', d ∈ orig ∨ ∃ args, Cmd.call d args ∈ c :: cs) ∧
        Answers W.cfg.fuel s.allowNew penv orig (c :: cs) ((c.run W.cfg env s).1 :: (runProg W.cfg (c.run W.cfg env s).2.1 (c.run W.cfg env s).2.2 cs).1) ∧
        ∃ penv', EnvOK W (runProg W.cfg (c.run W.cfg env s).2.1 (c.run W.cfg env s).2.2 cs).2.1 penv' := fun hh => by
      obtain ⟨⟨o1, g1, g1'⟩, g2, g3⟩ := hrec hh.2
      rw [hal, All2.length_eq hh.2, All2.length_eq he] at g2
      exact ⟨⟨o1, g1, fun d hd => hor (g1' d hd)⟩, .same (Prod.ext hh.1.symm rfl) g2, g3⟩
    by_cases hm : MustAnswer W.cfg.fuel s.allowNew penv orig c
    · exact hsame (h2 hm)
    · rcases h5 with h5 | ⟨e, h6, h7, h8⟩
      · exact hsame h5
      · obtain ⟨⟨o1, g1, g1'⟩, g2, g3⟩ := hrec (by rw [h8]; exact he)
        have hl : (c.run W.cfg env s).2.1.length - env.length = 0 := by rw [h8, Nat.sub_self]
        rw [hal, hl] at g2
        have ho : c.origins orig 0 = orig := by cases c <;> simp [Cmd.origins]
        rw [ho] at g2
        rw [h6]
        exact ⟨⟨o1, g1, fun d hd => hor (g1' d hd)⟩, .failed hm h7 g2, g3⟩
end
end Verif
