import Verif.Spec.Meaning
/-!
A history id stands for at most one value; equal content ids mean equal values.
-/
namespace Verif

/-- The op names of the storage itself. -/
def structuralNames : List String := ["__make_list__", "__make_dict__", "__list_getitem__", "__dict_getitem__"]

/-- No hash collisions; a user op is determined by name and version, and does not have the name of a
structural op. -/
structure World.Good (W : World) : Prop where
  inj : ∀ u v, W.H u = W.H v → u = v
  func : ∀ d d', W.D d → W.D d' → d.name = d'.name → d.version = d'.version → d = d'
  user : ∀ d, W.D d → d.name ∉ structuralNames

variable {W : World}

theorem TVal.erases_eq (ts : List TVal) : TVal.erases ts = ts.map TVal.erase := by
  induction ts with
  | nil => rfl
  | cons t ts ih => simp [TVal.erases, ih]

theorem TVal.cids_eq (H : Val → String) (ts : List TVal) : TVal.cids H ts = ts.map (TVal.cid H) := by
  induction ts with
  | nil => rfl
  | cons t ts ih => simp [TVal.cids, ih]

theorem TVal.wfs_iff (ts : List TVal) : TVal.Wfs W ts ↔ ∀ t ∈ ts, t.Wf W := by
  induction ts with
  | nil => simp [TVal.Wfs]
  | cons t ts ih => simp [TVal.Wfs, ih]

theorem refsOK_iff {rs : List Ref} {ts : List TVal} : RefsOK W rs ts ↔ All2 (RefOK W) rs ts := by
  induction rs generalizing ts with
  | nil => cases ts <;> simp [RefsOK]
  | cons r rs ih => cases ts <;> simp [RefsOK, ih]

theorem TVal.cid_range (H : Val → String) (t : TVal) : ∃ u, t.cid H = H u := by
  cases t <;> exact ⟨_, rfl⟩

theorem map_str_inj {a b : List String} (h : a.map Val.str = b.map Val.str) : a = b := by
  have := congrArg (List.map fun v => match v with | .str s => s | _ => "") h
  simpa [Function.comp_def] using this

theorem collPre_inj {k k' : Kind} {ks ks' cs cs' : List String}
    (hk : KeysOK k ks cs.length) (hk' : KeysOK k' ks' cs'.length) (hne : cs ≠ [])
    (h : collPre k ks cs = collPre k' ks' cs') : k = k' ∧ ks = ks' ∧ cs = cs' := by
  cases k <;> cases k' <;> simp only [collPre, KeysOK] at h hk hk'
  · simp only [Val.list.injEq] at h
    exact ⟨rfl, by rw [hk, hk'], map_str_inj h⟩
  · exfalso
    obtain ⟨c, cs, rfl⟩ := List.exists_cons_of_ne_nil hne
    simp only [Val.list.injEq] at h
    cases hz : ks'.zip cs' with
    | nil => rw [hz] at h; simp at h
    | cons p l => rw [hz] at h; simp at h
  · exfalso
    obtain ⟨c, cs, rfl⟩ := List.exists_cons_of_ne_nil hne
    cases ks with
    | nil => simp at hk
    | cons k ks =>
      cases cs' with
      | nil => simp at h
      | cons c' cs' => simp at h
  · simp only [Val.list.injEq] at h
    have := congrArg (List.map fun v => match v with | .tuple [.str a, .str b] => (a, b) | _ => ("", "")) h
    simp only [List.map_map, Function.comp_def, List.map_id'] at this
    have h1 := congrArg (List.map Prod.fst) this
    have h2 := congrArg (List.map Prod.snd) this
    rw [List.map_fst_zip (by omega), List.map_fst_zip (by omega)] at h1
    rw [List.map_snd_zip (by omega), List.map_snd_zip (by omega)] at h2
    exact ⟨rfl, h1, h2⟩

theorem collPre_nil {k : Kind} {ks : List String} (hk : KeysOK k ks 0) : collPre k ks [] = .list [] ∧ ks = [] := by
  cases k
  · exact ⟨rfl, hk⟩
  · simp only [KeysOK] at hk
    simp [collPre, List.length_eq_zero_iff.1 hk.1]

theorem collPre_eq_nil {k : Kind} {ks cs : List String} (hk : KeysOK k ks cs.length)
    (h : collPre k ks cs = .list []) : cs = [] := by
  cases k
  · simpa [collPre] using h
  · simp only [collPre, Val.list.injEq, List.map_eq_nil_iff, List.zip_eq_nil_iff] at h
    rcases h with h | h
    · simp only [KeysOK] at hk
      rw [h] at hk
      exact List.length_eq_zero_iff.1 hk.1.symm
    · exact h

/-- The content id of an atom is that of a collection only for the empty one. -/
theorem atom_coll_cid (hW : W.Good) {v : Val} {k : Kind} {ks : List String} {ts : List TVal}
    (h1 : (TVal.atom v).Wf W) (h2 : (TVal.coll k ks ts).Wf W)
    (h : W.H v = W.H (collPre k ks (TVal.cids W.H ts))) : False := by
  have hv := hW.inj _ _ h
  simp only [TVal.Wf] at h1 h2
  have hlen : (TVal.cids W.H ts).length = ts.length := by simp [TVal.cids_eq]
  cases ts with
  | nil =>
    have hc := (collPre_nil h2.1).1
    simp only [TVal.cids] at hv
    rw [hc] at hv
    have a := h1.2.2 hv
    have b := h2.2.1 rfl
    rw [a] at b
    cases b
  | cons t ts =>
    refine h1.2.1 ?_
    cases k
    · refine ⟨(TVal.cids W.H (t :: ts)).map .str, hv, by simp [TVal.cids], .inl ?_⟩
      intro x hx
      simp only [TVal.cids_eq, List.map_map, List.mem_map, Function.comp_apply] at hx
      obtain ⟨t', _, rfl⟩ := hx
      obtain ⟨u, hu⟩ := TVal.cid_range W.H t'
      exact ⟨u, by rw [hu]⟩
    · refine ⟨_, hv, ?_, .inr ?_⟩
      · simp only [ne_eq, List.map_eq_nil_iff, List.zip_eq_nil_iff, TVal.cids]
        rintro (hks | hcs)
        · simp only [KeysOK, hks] at h2
          simp at h2
        · cases hcs
      · intro x hx
        simp only [List.mem_map] at hx
        obtain ⟨p, hp, rfl⟩ := hx
        have := (List.of_mem_zip hp).2
        simp only [TVal.cids_eq, List.mem_map] at this
        obtain ⟨t', _, ht⟩ := this
        obtain ⟨u, hu⟩ := TVal.cid_range W.H t'
        exact ⟨p.1, u, by rw [← ht, hu]⟩

mutual
theorem TVal.cid_inj (hW : W.Good) : ∀ (t t' : TVal), t.Wf W → t'.Wf W → t.cid W.H = t'.cid W.H → t = t'
  | .atom v, .atom v', _, _, h => by
    simp only [TVal.cid] at h
    rw [hW.inj _ _ h]
  | .atom v, .coll k ks ts, h1, h2, h => (atom_coll_cid hW h1 h2 h).elim
  | .coll k ks ts, .atom v, h1, h2, h => (atom_coll_cid hW h2 h1 h.symm).elim
  | .coll k ks ts, .coll k' ks' ts', h1, h2, h => by
    simp only [TVal.cid] at h
    have hp := hW.inj _ _ h
    simp only [TVal.Wf] at h1 h2
    have hl : (TVal.cids W.H ts).length = ts.length := by simp [TVal.cids_eq]
    have hl' : (TVal.cids W.H ts').length = ts'.length := by simp [TVal.cids_eq]
    by_cases hts : ts = []
    · subst hts
      have a := collPre_nil h1.1
      simp only [TVal.cids] at hp
      rw [a.1] at hp
      have b := collPre_eq_nil (hl' ▸ h2.1) hp.symm
      have b' : ts' = [] := by
        rw [b] at hl'
        exact List.length_eq_zero_iff.1 hl'.symm
      subst b'
      have c := collPre_nil h2.1
      have e1 := h1.2.1 rfl
      have e2 := h2.2.1 rfl
      rw [e1] at e2
      injection e2 with e2
      rw [a.2, c.2, e2]
    · have hne : TVal.cids W.H ts ≠ [] := by
        intro hh
        rw [hh] at hl
        exact hts (List.length_eq_zero_iff.1 hl.symm)
      obtain ⟨rfl, rfl, hc⟩ := collPre_inj (hl ▸ h1.1) (hl' ▸ h2.1) hne hp
      rw [TVal.cids_inj hW ts ts' h1.2.2 h2.2.2 hc]
theorem TVal.cids_inj (hW : W.Good) : ∀ (ts ts' : List TVal), TVal.Wfs W ts → TVal.Wfs W ts' →
    TVal.cids W.H ts = TVal.cids W.H ts' → ts = ts'
  | [], [], _, _, _ => rfl
  | [], _ :: _, _, _, h => by simp [TVal.cids] at h
  | _ :: _, [], _, _, h => by simp [TVal.cids] at h
  | t :: ts, t' :: ts', h1, h2, h => by
    simp only [TVal.Wfs] at h1 h2
    simp only [TVal.cids, List.cons.injEq] at h
    rw [TVal.cid_inj hW t t' h1.1 h2.1 h.1, TVal.cids_inj hW ts ts' h1.2 h2.2 h.2]
end

/-! ### functions -/

theorem valT_functional : ∀ (ty : Ty) (v : Val) (t t' : TVal), ValT ty v t → ValT ty v t' → t = t'
  | .atom, v, t, t', h, h' => by simp only [ValT] at h h'; rw [h, h']
  | .unsupported, v, t, t', h, _ => h.elim
  | .coll k ty, v, t, t', h, h' => by
    simp only [ValT] at h h'
    obtain ⟨ks, vs, ts, rfl, rfl, hk, ha⟩ := h
    obtain ⟨ks', vs', ts', he, rfl, hk', ha'⟩ := h'
    cases k
    · simp only [mkVal, Val.list.injEq] at he
      subst he
      simp only [KeysOK] at hk hk'
      rw [All2.functional (valT_functional ty) ha ha', hk, hk']
    · simp only [mkVal, Val.dict.injEq] at he
      obtain ⟨rfl, rfl⟩ := he
      rw [All2.functional (valT_functional ty) ha ha']

theorem canon_of_sorted {α : Type} {l : List (String × α)} (h : (l.map (·.1)).Pairwise (· ≤ ·)) : canon l = l := by
  induction l with
  | nil => rfl
  | cons p l ih =>
    simp only [List.map_cons, List.pairwise_cons] at h
    rw [canon, ih h.2]
    cases l with
    | nil => rfl
    | cons q l => simp [insKey, h.1 q.1 (by simp)]

theorem zip_keys {α : Type} {names : List String} {ts : List α} (h : names.length = ts.length) :
    Dict.keys (names.zip ts) = names := by
  rw [Dict.keys]; exact List.map_fst_zip (by omega)

theorem map_get?_zip {α : Type} : ∀ {names : List String} {ts : List α}, names.Nodup → names.length = ts.length →
    names.map (fun n => Dict.get? (names.zip ts) n) = ts.map some
  | [], [], _, _ => rfl
  | [], _ :: _, _, h => by simp at h
  | _ :: _, [], _, h => by simp at h
  | n :: names, t :: ts, hn, h => by
    simp only [List.nodup_cons] at hn
    have ih := map_get?_zip (ts := ts) hn.2 (by simpa using h)
    simp only [List.zip_cons_cons, List.map_cons, Dict.get?_cons, if_true, List.cons.injEq, true_and]
    rw [← ih]
    apply List.map_congr_left
    intro m hm
    rw [if_neg]
    rintro rfl
    exact hn.1 hm

theorem zip_canon_inj {α : Type} {names : List String} {ts ts' : List α} (hn : names.Nodup)
    (h1 : names.length = ts.length) (h2 : names.length = ts'.length)
    (h : canon (names.zip ts) = canon (names.zip ts')) : ts = ts' := by
  have a := map_get?_zip hn h1
  have b := map_get?_zip hn h2
  have : ∀ n, Dict.get? (names.zip ts) n = Dict.get? (names.zip ts') n := by
    intro n
    rw [← get?_canon (by rw [zip_keys h1]; exact hn), h, get?_canon (by rw [zip_keys h2]; exact hn)]
  simp only [this] at a
  rw [a] at b
  exact List.map_inj_right (fun _ _ => Option.some.inj) |>.1 b

theorem structNames_length {k : Kind} {ks : List String} {n : Nat} (h : KeysOK k ks n) :
    (structNames k ks n).length = n := by
  cases k
  · simp [structNames]
  · exact h.1

theorem structNames_nodup {k : Kind} {ks : List String} {n : Nat} (h : KeysOK k ks n) :
    (structNames k ks n).Nodup := by
  cases k
  · simp only [structNames]
    rw [List.nodup_iff_pairwise_ne, List.pairwise_map]
    exact List.nodup_range.imp (fun hne heq => hne (idxName_inj heq))
  · exact h.2.2

theorem make_inj {α : Type} {k : Kind} {ks ks' : List String} {ts ts' : List α} (h1 : KeysOK k ks ts.length)
    (h2 : KeysOK k ks' ts'.length)
    (h : canon ((structNames k ks ts.length).zip ts) = canon ((structNames k ks' ts'.length).zip ts')) :
    ks = ks' ∧ ts = ts' := by
  have hlen : ts.length = ts'.length := by
    have := congrArg List.length h
    simp only [canon_length, List.length_zip, structNames_length h1, structNames_length h2] at this
    omega
  have key : ks = ks' := by
    cases k
    · simp only [KeysOK] at h1 h2
      rw [h1, h2]
    · simp only [KeysOK] at h1 h2
      simp only [structNames] at h
      rw [canon_of_sorted, canon_of_sorted] at h
      · have := congrArg (List.map Prod.fst) h
        rwa [List.map_fst_zip (by omega), List.map_fst_zip (by omega)] at this
      · rw [List.map_fst_zip (by omega)]; exact h2.2.1
      · rw [List.map_fst_zip (by omega)]; exact h1.2.1
  subst key
  refine ⟨rfl, ?_⟩
  rw [← hlen] at h
  exact zip_canon_inj (structNames_nodup h1) (by rw [structNames_length h1]) (by rw [structNames_length h1, hlen]) h

theorem getitem_names (k : Kind) : getitemArg k ≠ getitemIdx k := by cases k <;> decide

theorem getitem_inj {α : Type} {k : Kind} {a a' b b' : α}
    (h : canon [(getitemArg k, a), (getitemIdx k, b)] = canon [(getitemArg k, a'), (getitemIdx k, b')]) :
    a = a' ∧ b = b' := by
  have hn : ([getitemArg k, getitemIdx k] : List String).Nodup := by cases k <;> decide
  have := zip_canon_inj (names := [getitemArg k, getitemIdx k]) (ts := [a, b]) (ts' := [a', b']) hn rfl rfl h
  simpa using this

theorem builderName_inj {k k' : Kind} (h : builderName k = builderName k') : k = k' := by
  cases k <;> cases k' <;> first | rfl | (exact absurd h (by decide))
theorem getitemName_inj {k k' : Kind} (h : getitemName k = getitemName k') : k = k' := by
  cases k <;> cases k' <;> first | rfl | (exact absurd h (by decide))
theorem builder_ne_getitem (k k' : Kind) : builderName k ≠ getitemName k' := by
  cases k <;> cases k' <;> decide
theorem builderName_structural (k : Kind) : builderName k ∈ structuralNames := by cases k <;> decide
theorem getitemName_structural (k : Kind) : getitemName k ∈ structuralNames := by cases k <;> decide

theorem sem_functional (hW : W.Good) {n n' : String} {v v' : Int} {ins ins' outs outs' : List (String × TVal)}
    (h : Sem W n v ins outs) (h' : Sem W n' v' ins' outs') (hn : n = n') (hv : v = v') (hi : ins = ins') :
    outs = outs' := by
  cases h with
  | user hd hb hp ha =>
    cases h' with
    | user hd' hb' hp' ha' =>
      have := hW.func _ _ hd hd' hn hv
      subst this
      subst hi
      rw [hb] at hb'
      cases hb'
      rw [hp] at hp'
      cases hp'
      refine All2.functional (fun a b b' h1 h2 => ?_) ha ha'
      have := valT_functional _ _ _ _ h1.2.1 h2.2.1
      exact Prod.ext (h1.1 ▸ h2.1) this
    | make hw => exact absurd (hn ▸ builderName_structural _) (hW.user _ hd)
    | getitem he => exact absurd (hn ▸ getitemName_structural _) (hW.user _ hd)
  | make hw =>
    cases h' with
    | user hd' hb' hp' ha' => exact absurd (hn ▸ builderName_structural _) (hW.user _ hd')
    | make hw' =>
      have := builderName_inj hn
      subst this
      simp only [TVal.Wf] at hw hw'
      obtain ⟨rfl, rfl⟩ := make_inj hw.1 hw'.1 hi
      rfl
    | getitem he => exact absurd hn (builder_ne_getitem _ _)
  | getitem he =>
    cases h' with
    | user hd' hb' hp' ha' => exact absurd (hn ▸ getitemName_structural _) (hW.user _ hd')
    | make hw => exact absurd hn.symm (builder_ne_getitem _ _)
    | getitem he' =>
      have := getitemName_inj hn
      subst this
      obtain ⟨h1, h2⟩ := getitem_inj hi
      injection h1 with _ h1 h1'
      injection h2 with h2
      subst h1; subst h1'; subst h2
      rw [he] at he'
      cases he'
      rfl

/-! ### identifiers -/

theorem outHid_inj (hW : W.Good) {c c' n n' : String} (h : outHid W.H c n = outHid W.H c' n') : c = c' ∧ n = n' := by
  have := hW.inj _ _ h
  simpa using this

theorem rawHid_ne_outHid (hW : W.Good) {v : Val} {c n : String} : rawHid W.H v ≠ outHid W.H c n := by
  intro h
  have := hW.inj _ _ h
  cases this

theorem rawHid_inj (hW : W.Good) {v v' : Val} (h : rawHid W.H v = rawHid W.H v') : v = v' := by
  have := hW.inj _ _ h
  simp only [Val.str.injEq] at this
  exact hW.inj _ _ this

theorem callId_inj (hW : W.Good) {op op' : String} {v v' : Int} {i i' : List (String × String)}
    (h : callId W.H op v i = callId W.H op' v' i') : op = op' ∧ v = v' ∧ canon i = canon i' := by
  have := hW.inj _ _ h
  simp only [Val.tuple.injEq, List.cons.injEq, Val.dict.injEq, Val.str.injEq, Val.int.injEq, and_true] at this
  obtain ⟨⟨h1, h2⟩, h3, h4⟩ := this
  refine ⟨h3, h4, ?_⟩
  have h2' : (canon i).map (·.2) = (canon i').map (·.2) := by
    apply map_str_inj
    simpa [Function.comp_def] using h2
  have e : ∀ l : List (String × String), l = (l.map (·.1)).zip (l.map (·.2)) := by
    intro l; induction l with
    | nil => rfl
    | cons p l ih => simp only [List.map_cons, List.zip_cons_cons, ← ih]
  rw [e (canon i), e (canon i'), h1, h2']

/-- inputs keyed by name -/
def insPairs (ins : List In) : List (String × In) := ins.map fun p => (p.name, p)

theorem canon_insHids (ins : List In) : canon (insHids ins) = (canon (insPairs ins)).map fun q => (q.1, q.2.hid) := by
  have := canon_map (fun _ (p : In) => p.hid) (insPairs ins)
  rw [← this]
  simp [insPairs, insHids, Function.comp_def]
theorem canon_insVals (ins : List In) : canon (insVals ins) = (canon (insPairs ins)).map fun q => (q.1, q.2.t) := by
  have := canon_map (fun _ (p : In) => p.t) (insPairs ins)
  rw [← this]
  simp [insPairs, insVals, Function.comp_def]
theorem canon_insCids (ins : List In) :
    canon (insCids W ins) = (canon (insPairs ins)).map fun q => (q.1, q.2.t.cid W.H) := by
  have := canon_map (fun _ (p : In) => p.t.cid W.H) (insPairs ins)
  rw [← this]
  simp [insPairs, insCids, Function.comp_def]

theorem map_eq_of_rel {α β γ δ : Type} {f : α → γ} {f' : β → γ} {g : α → δ} {g' : β → δ} : ∀ {l : List α} {l' : List β},
    (∀ a ∈ l, ∀ b ∈ l', f a = f' b → g a = g' b) → l.map f = l'.map f' → l.map g = l'.map g'
  | [], [], _, _ => rfl
  | [], _ :: _, _, h => by simp at h
  | _ :: _, [], _, h => by simp at h
  | a :: l, b :: l', hh, h => by
    simp only [List.map_cons, List.cons.injEq] at h ⊢
    exact ⟨hh a (by simp) b (by simp) h.1, map_eq_of_rel (fun a' ha b' hb => hh a' (List.mem_cons_of_mem _ ha) b'
      (List.mem_cons_of_mem _ hb)) h.2⟩

theorem mem_canon_insPairs {ins : List In} {q : String × In} (h : q ∈ canon (insPairs ins)) : q.2 ∈ ins ∧ q.1 = q.2.name := by
  rw [mem_canon] at h
  simp only [insPairs, List.mem_map] at h
  obtain ⟨p, hp, rfl⟩ := h
  exact ⟨hp, rfl⟩

/-- A history id stands for at most one value. -/
theorem prov_det (hW : W.Good) {h : String} {t : TVal} (hp : Prov W h t) : ∀ {h' t'}, Prov W h' t' → h = h' → t = t' := by
  induction hp with
  | raw hw =>
    intro h' t' hp' he
    cases hp' with
    | raw hw' => rw [rawHid_inj hW he]
    | out _ _ _ _ => exact absurd he (rawHid_ne_outHid hW)
  | @out op ver ins outs name t hins hsem hget hwf ih =>
    intro h' t' hp' he
    cases hp' with
    | raw hw' => exact absurd he.symm (rawHid_ne_outHid hW)
    | @out op' ver' ins' outs' name' _ hins' hsem' hget' hwf' =>
      obtain ⟨hc, hn⟩ := outHid_inj hW he
      obtain ⟨ho, hv, hi⟩ := callId_inj hW hc
      have hvals : canon (insVals ins) = canon (insVals ins') := by
        rw [canon_insVals, canon_insVals]
        rw [canon_insHids, canon_insHids] at hi
        refine map_eq_of_rel (fun a ha b hb hab => ?_) hi
        simp only [Prod.mk.injEq] at hab ⊢
        exact ⟨hab.1, ih a.2 (mem_canon_insPairs ha).1 (hins' _ (mem_canon_insPairs hb).1) hab.2⟩
      have := sem_functional hW hsem hsem' ho hv hvals
      subst this; subst hn
      rw [hget] at hget'
      exact Option.some.inj hget'

theorem Prov.det (hW : W.Good) {h : String} {t t' : TVal} (hp : Prov W h t) (hp' : Prov W h t') : t = t' :=
  prov_det hW hp hp' rfl

theorem Prov.wf {h : String} {t : TVal} (hp : Prov W h t) : t.Wf W := by
  cases hp with
  | raw hw => exact hw
  | out _ _ _ hw => exact hw

theorem RefOK.prov {r : Ref} {t : TVal} (h : RefOK W r t) : Prov W r.hid t := by
  cases r <;> simp only [RefOK] at h <;> exact h.1

theorem RefOK.cid {r : Ref} {t : TVal} (h : RefOK W r t) : r.cid = t.cid W.H := by
  cases r <;> simp only [RefOK] at h
  · obtain ⟨_, v, rfl, rfl, _⟩ := h; rfl
  · obtain ⟨_, ks, ts, rfl, rfl, _⟩ := h; rfl

/-- The history id of a call determines its op, content id, inputs and outputs. -/
theorem callSem_functional (hW : W.Good) {op op' h c c' : String} {cins cins' outs outs' : List (String × TVal)}
    (h1 : CallSem W op h c cins outs) (h2 : CallSem W op' h c' cins' outs') :
    op = op' ∧ c = c' ∧ cins = cins' ∧ outs = outs' := by
  obtain ⟨ver, ins, hp, hh, hc, hci, _, hs⟩ := h1
  obtain ⟨ver', ins', hp', hh', hc', hci', _, hs'⟩ := h2
  obtain ⟨ho, hv, hi⟩ := callId_inj hW (hh ▸ hh')
  rw [canon_insHids, canon_insHids] at hi
  have hvals : canon (insVals ins) = canon (insVals ins') := by
    rw [canon_insVals, canon_insVals]
    refine map_eq_of_rel (fun a ha b hb hab => ?_) hi
    simp only [Prod.mk.injEq] at hab ⊢
    exact ⟨hab.1, prov_det hW (hp _ (mem_canon_insPairs ha).1) (hp' _ (mem_canon_insPairs hb).1) hab.2⟩
  have hcids : canon (insCids W ins) = canon (insCids W ins') := by
    rw [canon_insCids, canon_insCids]
    refine map_eq_of_rel (fun a ha b hb hab => ?_) hi
    simp only [Prod.mk.injEq] at hab ⊢
    exact ⟨hab.1, by rw [prov_det hW (hp _ (mem_canon_insPairs ha).1) (hp' _ (mem_canon_insPairs hb).1) hab.2]⟩
  subst hci; subst hci'
  refine ⟨ho, ?_, hvals, sem_functional hW hs hs' ho hv hvals⟩
  rw [hc, hc', ho, hv, callId, callId, hcids]

/-- A recorded call with the content id of the call at hand has the same op, inputs and outputs. -/
theorem callSem_transfer (hW : W.Good) {op op' h c : String} {cins outs : List (String × TVal)} {ver : Int}
    {ins : List In} (h1 : CallSem W op' h c cins outs) (hp : ∀ p ∈ ins, Prov W p.hid p.t)
    (hc : c = callId W.H op ver (insCids W ins)) :
    op' = op ∧ cins = canon (insVals ins) ∧ CallSem W op (callId W.H op ver (insHids ins)) c cins outs := by
  obtain ⟨ver', ins', hp', hh', hc', hci', hnd, hs'⟩ := h1
  obtain ⟨ho, hv, hi⟩ := callId_inj hW (hc' ▸ hc)
  rw [canon_insCids, canon_insCids] at hi
  have hvals : canon (insVals ins') = canon (insVals ins) := by
    rw [canon_insVals, canon_insVals]
    refine map_eq_of_rel (fun a ha b hb hab => ?_) hi
    simp only [Prod.mk.injEq] at hab ⊢
    exact ⟨hab.1, TVal.cid_inj hW _ _ (hp' _ (mem_canon_insPairs ha).1).wf (hp _ (mem_canon_insPairs hb).1).wf hab.2⟩
  refine ⟨ho, hci'.trans hvals, ver, ins, hp, rfl, hc, hci'.trans hvals, hnd, ?_⟩
  rw [← ho, ← hv]; exact hs'

theorem eltAt_mem {k : Kind} {ks : List String} {ts : List TVal} {idx : Val} {t : TVal}
    (h : eltAt k ks ts idx = some t) : t ∈ ts := by
  unfold eltAt at h
  split at h
  · exact List.mem_of_getElem? h
  · exact (List.of_mem_zip (Dict.mem_of_get? h)).2
  · cases h

theorem sem_wf {n : String} {v : Int} {ins outs : List (String × TVal)} (h : Sem W n v ins outs)
    (hi : ∀ p ∈ ins, p.2.Wf W) : ∀ p ∈ outs, p.2.Wf W := by
  cases h with
  | user hd hb hp ha =>
    intro p hp'
    obtain ⟨_, _, h⟩ := ha.mem_right hp'
    exact h.2.2
  | make hw =>
    intro p hp
    simp only [List.mem_singleton] at hp
    rw [hp]; exact hw
  | @getitem k ks ts idx t he =>
    intro p hp
    simp only [List.mem_singleton] at hp
    rw [hp]
    have := hi (getitemArg k, .coll k ks ts) (mem_canon.2 (by simp))
    simp only [TVal.Wf] at this
    exact (TVal.wfs_iff _).1 this.2.2 _ (eltAt_mem he)

theorem callSem_prov {op h c n : String} {cins outs : List (String × TVal)} {t : TVal} (hs : CallSem W op h c cins outs)
    (hg : Dict.get? outs n = some t) : Prov W (outHid W.H h n) t := by
  obtain ⟨ver, ins, hp, hh, hc, hci, _, hs⟩ := hs
  subst hci
  rw [hh]
  refine Prov.out hp hs hg (sem_wf hs ?_ _ (Dict.mem_of_get? hg))
  intro p hpm
  rw [mem_canon] at hpm
  simp only [insVals, List.mem_map] at hpm
  obtain ⟨q, hq, rfl⟩ := hpm
  exact (hp q hq).wf

end Verif
