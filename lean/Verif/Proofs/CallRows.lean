import Verif.Spec.CallSpec
import Verif.Basic.ListRel
/-!
Saving a call and reading its rows back.
-/
namespace Verif

/-- `(call, name)` key of a row. -/
def Row.key (r : Row) : String × String := (r.callHid, r.name)

theorem setRow_of_new {rows : List Row} {r : Row} (h : ∀ r' ∈ rows, r'.key ≠ r.key) :
    setRow rows r = rows ++ [r] := by
  induction rows with
  | nil => rfl
  | cons a rows ih =>
    have ha := h a (by simp)
    simp only [Row.key, ne_eq, Prod.mk.injEq] at ha
    simp only [setRow, ha, if_false, List.cons_append]
    rw [ih (fun r' hr' => h r' (List.mem_cons_of_mem _ hr'))]

theorem foldl_setRow_of_new : ∀ {rs rows : List Row}, (rs.map Row.key).Nodup →
    (∀ r' ∈ rows, ∀ r ∈ rs, r'.key ≠ r.key) → rs.foldl setRow rows = rows ++ rs := by
  intro rs
  induction rs with
  | nil => intro rows _ _; simp
  | cons a rs ih =>
    intro rows hn hd
    simp only [List.map_cons, List.nodup_cons] at hn
    simp only [List.foldl_cons]
    rw [setRow_of_new (fun r' hr' => hd r' hr' a (by simp)), ih hn.2]
    · simp
    · intro r' hr' r hr
      rcases List.mem_append.1 hr' with h | h
      · exact hd r' h r (List.mem_cons_of_mem _ hr)
      · simp at h; subst h
        intro heq
        exact hn.1 (heq ▸ List.mem_map_of_mem hr)

theorem CallRec.rows_callHid {c : CallRec} {r : Row} (h : r ∈ c.rows) : r.callHid = c.hid := by
  simp only [CallRec.rows, List.mem_append, List.mem_map] at h
  rcases h with ⟨p, _, rfl⟩ | ⟨p, _, rfl⟩ <;> rfl

theorem CallRec.rows_keys (c : CallRec) :
    c.rows.map Row.key = (Dict.keys c.inputs ++ Dict.keys c.outputs).map (fun n => (c.hid, n)) := by
  simp [CallRec.rows, Dict.keys, Row.key, CallRec.inRow, CallRec.outRow, Function.comp_def]

theorem nodup_map_pair {α β : Type} (a : α) {l : List β} (h : l.Nodup) : (l.map (fun b => (a, b))).Nodup := by
  induction l with
  | nil => simp
  | cons b l ih =>
    rw [List.nodup_cons] at h
    rw [List.map_cons, List.nodup_cons]
    refine ⟨?_, ih h.2⟩
    simp only [List.mem_map, Prod.mk.injEq, true_and, exists_eq_right]
    exact h.1

theorem save_df_of_new {m : InMem} {c : CallRec} (hn : c.NamesDistinct) (hnew : ∀ r ∈ m.df, r.callHid ≠ c.hid)
    (hid : c.hid ∉ m.callHids) : (m.save c).df = m.df ++ c.rows ∧ (m.save c).callHids = m.callHids ++ [c.hid] := by
  simp only [InMem.save, hid, if_false, ← List.foldl_append, and_true]
  have : c.inputs.map c.inRow ++ c.outputs.map c.outRow = c.rows := rfl
  rw [this]
  apply foldl_setRow_of_new
  · rw [c.rows_keys]; exact nodup_map_pair _ hn
  · intro r' hr' r hr heq
    have h1 : r'.callHid = r.callHid := congrArg Prod.fst heq
    exact hnew r' hr' (h1.trans (c.rows_callHid hr))

theorem rowsOf_append (a b : List Row) (h : String) : rowsOf (a ++ b) h = rowsOf a h ++ rowsOf b h := by
  simp [rowsOf]

theorem rowsOf_eq_nil {rows : List Row} {h : String} : rowsOf rows h = [] ↔ ∀ r ∈ rows, r.callHid ≠ h := by
  simp [rowsOf]

theorem rowsOf_self {rows : List Row} {h : String} (hr : ∀ r ∈ rows, r.callHid = h) : rowsOf rows h = rows := by
  simpa [rowsOf] using hr

theorem Dict.set_of_new {V : Type} {d : Dict String V} {k : String} {v : V} (h : k ∉ Dict.keys d) :
    Dict.set d k v = d ++ [(k, v)] := by
  induction d with
  | nil => rfl
  | cons p d ih =>
    obtain ⟨k', v'⟩ := p
    simp only [Dict.keys, List.map_cons, List.mem_cons, not_or] at h
    simp only [Dict.set]
    rw [if_neg (fun e => h.1 e.symm), ih h.2]
    rfl

theorem foldl_addRow_in (c : CallRec) : ∀ (ps : Dict String IO) (d : CallData),
    (Dict.keys d.inputHids ++ Dict.keys ps).Nodup → Dict.keys d.inputCids = Dict.keys d.inputHids →
    (ps.map c.inRow).foldl CallData.addRow d =
      { d with inputHids := d.inputHids ++ ps.map (fun p => (p.1, p.2.hid)),
               inputCids := d.inputCids ++ ps.map (fun p => (p.1, p.2.cid)) } := by
  intro ps
  induction ps with
  | nil => intro d _ _; simp
  | cons p ps ih =>
    intro d hn hk
    have hp : p.1 ∉ Dict.keys d.inputHids := by
      intro h
      have := (List.nodup_append.1 hn).2.2 p.1 h p.1 (by simp [Dict.keys])
      exact this rfl
    simp only [List.map_cons, List.foldl_cons]
    have h1 : d.addRow (c.inRow p) =
        { d with inputHids := d.inputHids ++ [(p.1, p.2.hid)], inputCids := d.inputCids ++ [(p.1, p.2.cid)] } := by
      simp only [CallData.addRow, CallRec.inRow]
      rw [Dict.set_of_new hp, Dict.set_of_new (hk ▸ hp)]
    rw [h1, ih]
    · simp
    · simpa [Dict.keys] using hn
    · simp only [Dict.keys, List.map_append, List.map_cons, List.map_nil] at hk ⊢; rw [hk]

theorem foldl_addRow_out (c : CallRec) : ∀ (ps : Dict String IO) (d : CallData),
    (Dict.keys d.outputHids ++ Dict.keys ps).Nodup → Dict.keys d.outputCids = Dict.keys d.outputHids →
    (ps.map c.outRow).foldl CallData.addRow d =
      { d with outputHids := d.outputHids ++ ps.map (fun p => (p.1, p.2.hid)),
               outputCids := d.outputCids ++ ps.map (fun p => (p.1, p.2.cid)) } := by
  intro ps
  induction ps with
  | nil => intro d _ _; simp
  | cons p ps ih =>
    intro d hn hk
    have hp : p.1 ∉ Dict.keys d.outputHids := by
      intro h
      have := (List.nodup_append.1 hn).2.2 p.1 h p.1 (by simp [Dict.keys])
      exact this rfl
    simp only [List.map_cons, List.foldl_cons]
    have h1 : d.addRow (c.outRow p) =
        { d with outputHids := d.outputHids ++ [(p.1, p.2.hid)], outputCids := d.outputCids ++ [(p.1, p.2.cid)] } := by
      simp only [CallData.addRow, CallRec.outRow]
      rw [Dict.set_of_new hp, Dict.set_of_new (hk ▸ hp)]
    rw [h1, ih]
    · simp
    · simpa [Dict.keys] using hn
    · simp only [Dict.keys, List.map_append, List.map_cons, List.map_nil] at hk ⊢; rw [hk]

theorem dataOfRows_rows {c : CallRec} (hn : c.NamesDistinct) (hne : c.rows ≠ []) :
    dataOfRows c.rows = some c.data := by
  obtain ⟨hi, ho, _⟩ := List.nodup_append.1 hn
  cases hr : c.rows with
  | nil => exact absurd hr hne
  | cons r rs =>
    have hmem : r ∈ c.rows := by rw [hr]; simp
    have hhead : r.op = c.op ∧ r.callCid = c.cid ∧ r.callHid = c.hid ∧ r.semVer = c.semVer ∧ r.contVer = c.contVer := by
      simp only [CallRec.rows, List.mem_append, List.mem_map] at hmem
      rcases hmem with ⟨p, _, rfl⟩ | ⟨p, _, rfl⟩ <;> simp [CallRec.inRow, CallRec.outRow]
    obtain ⟨h1, h2, h3, h4, h5⟩ := hhead
    simp only [dataOfRows]
    rw [← hr, CallRec.rows, List.foldl_append, foldl_addRow_in, foldl_addRow_out]
    · simp [CallRec.data, h1, h2, h3, h4, h5]
    · simpa [Dict.keys] using ho
    · rfl
    · simpa [Dict.keys] using hi
    · rfl

theorem toRows_data {c : CallRec} (hn : c.NamesDistinct) : c.data.toRows = c.rows := by
  obtain ⟨hi, ho, _⟩ := List.nodup_append.1 hn
  have key : ∀ (ps : Dict String IO), (Dict.keys ps).Nodup → ∀ p ∈ ps,
      (Dict.get? (ps.map (fun p => (p.1, p.2.cid))) p.1).getD "" = p.2.cid := by
    intro ps
    induction ps with
    | nil => intro _ p hp; simp at hp
    | cons a ps ih =>
      intro hn p hp
      simp only [Dict.keys, List.map_cons, List.nodup_cons] at hn
      rcases List.mem_cons.1 hp with rfl | hp
      · simp [Dict.get?]
      · have hne : a.1 ≠ p.1 := by
          intro h
          exact hn.1 (h ▸ List.mem_map_of_mem hp)
        simp only [List.map_cons, Dict.get?, hne, if_false]
        exact ih hn.2 p hp
  simp only [CallData.toRows, CallRec.rows, CallRec.data, List.map_map]
  congr 1
  · apply List.map_congr_left
    intro p hp
    simp only [Function.comp_apply, CallRec.inRow, key _ hi p hp]
  · apply List.map_congr_left
    intro p hp
    simp only [Function.comp_apply, CallRec.outRow, key _ ho p hp]

theorem insertRows_of_new : ∀ {rs rows : List Row}, (rs.map Row.key).Nodup →
    (∀ r' ∈ rows, ∀ r ∈ rs, r'.key ≠ r.key) → insertRows rows rs = (.ok (), rows ++ rs) := by
  intro rs
  induction rs with
  | nil => intro rows _ _; simp [insertRows]
  | cons a rs ih =>
    intro rows hn hd
    simp only [List.map_cons, List.nodup_cons] at hn
    have h1 : insertRow rows a = .ok (rows ++ [a]) := by
      simp only [insertRow]
      rw [if_neg]
      simp only [List.any_eq_true, decide_eq_true_eq, not_exists, not_and]
      intro r' hr' h1 h2
      exact hd r' hr' a (by simp) (by simp [Row.key, h1, h2])
    simp only [insertRows, h1]
    rw [ih hn.2]
    · simp
    · intro r' hr' r hr
      rcases List.mem_append.1 hr' with h | h
      · exact hd r' h r (List.mem_cons_of_mem _ hr)
      · simp at h; subst h
        intro heq
        exact hn.1 (heq ▸ List.mem_map_of_mem hr)

theorem insertRows_clash {rows : List Row} {r : Row} {rs : List Row} (h : ∃ r' ∈ rows, r'.key = r.key) :
    insertRows rows (r :: rs) = (.error .integrityError, rows) := by
  obtain ⟨r', hr', hk⟩ := h
  simp only [Row.key, Prod.mk.injEq] at hk
  simp only [insertRows, insertRow]
  rw [if_pos]
  simp only [List.any_eq_true, decide_eq_true_eq]
  exact ⟨r', hr', hk⟩

end Verif
