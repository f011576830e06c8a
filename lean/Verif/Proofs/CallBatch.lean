import Verif.Model.CallStorage
import Verif.Basic.ListRel
/-!
Batch lookup of calls.
-/
namespace Verif

theorem mgetData_ok {rows : List Row} : ∀ {hids ds}, mgetData rows hids = .ok ds ↔
    All2 (fun h d => dataOfRows (rowsOf rows h) = some d) hids ds := by
  intro hids
  induction hids with
  | nil => intro ds; simp [mgetData, eq_comm]
  | cons a hs ih =>
    intro ds
    simp only [mgetData]
    cases hd : dataOfRows (rowsOf rows a) with
    | none =>
      simp only [reduceCtorEq, false_iff]
      intro h; cases h with | cons h1 _ => simp [hd] at h1
    | some d =>
      simp only []
      cases hm : mgetData rows hs with
      | error e =>
        simp only [reduceCtorEq, false_iff]
        intro h; cases h with | cons _ h2 => rw [ih.2 h2] at hm; cases hm
      | ok ds' =>
        have h' := ih.1 hm
        simp only [Except.ok.injEq]
        constructor
        · rintro rfl; exact .cons hd h'
        · intro h
          cases h with
          | cons h1 h2 =>
            rw [hd] at h1; cases h1
            rw [ih.2 h2] at hm; cases hm; rfl

/-- The data of one call: from the cache if it is known there, from the database otherwise. -/
def singleData (callCache : InMem) (pers : List Row) (h : String) : Option CallData :=
  if callCache.exists_ h then dataOfRows (rowsOf callCache.df h) else dataOfRows (rowsOf pers h)

theorem splitList_cons_true {α : Type} (x : α) (xs : List α) (m : List Bool) :
    splitList (x :: xs) (true :: m) = (x :: (splitList xs m).1, (splitList xs m).2) := by
  simp [splitList]

theorem splitList_cons_false {α : Type} (x : α) (xs : List α) (m : List Bool) :
    splitList (x :: xs) (false :: m) = ((splitList xs m).1, x :: (splitList xs m).2) := by
  simp [splitList]

theorem mgetCallData_cons_true (cc : InMem) (pers : List Row) (h : String) (hs : List String)
    (hc : cc.exists_ h = true) :
    mgetCallData cc pers (h :: hs) =
      match dataOfRows (rowsOf cc.df h) with
      | none => .error .keyError
      | some d => match mgetCallData cc pers hs with
        | .ok ds => .ok (d :: ds)
        | .error e => .error e := by
  simp only [mgetCallData, List.map_cons, hc, splitList_cons_true, mgetData]
  cases dataOfRows (rowsOf cc.df h) with
  | none => simp
  | some d =>
    simp only []
    cases mgetData cc.df (splitList hs (List.map cc.exists_ hs)).1 with
    | error e => simp
    | ok ds =>
      simp only []
      cases mgetData pers (splitList hs (List.map cc.exists_ hs)).2 with
      | error e => simp
      | ok ds2 => simp only [mergeLists]; cases mergeLists ds ds2 (List.map cc.exists_ hs) <;> rfl

theorem mgetCallData_ok (cc : InMem) (pers : List Row) : ∀ (hs : List String) (ds : List CallData),
    mgetCallData cc pers hs = .ok ds ↔ All2 (fun h d => singleData cc pers h = some d) hs ds := by
  intro hs
  induction hs with
  | nil => intro ds; simp [mgetCallData, splitList, mgetData, mergeLists, eq_comm]
  | cons h hs ih =>
    intro ds
    cases hc : cc.exists_ h with
    | true =>
      rw [mgetCallData_cons_true cc pers h hs hc]
      have hs1 : singleData cc pers h = dataOfRows (rowsOf cc.df h) := by simp [singleData, hc]
      cases hd : dataOfRows (rowsOf cc.df h) with
      | none =>
        simp only [reduceCtorEq, false_iff]
        intro h'; cases h' with | cons h1 _ => rw [hs1, hd] at h1; cases h1
      | some d =>
        simp only []
        cases hm : mgetCallData cc pers hs with
        | error e =>
          simp only [reduceCtorEq, false_iff]
          intro h'; cases h' with | cons _ h2 => rw [(ih _).2 h2] at hm; cases hm
        | ok ds' =>
          simp only [Except.ok.injEq]
          constructor
          · rintro rfl; exact .cons (by rw [hs1, hd]) ((ih _).1 hm)
          · intro h'; cases h' with
            | cons h1 h2 =>
              rw [hs1, hd] at h1; cases h1
              rw [(ih _).2 h2] at hm; cases hm; rfl
    | false =>
      have hs1 : singleData cc pers h = dataOfRows (rowsOf pers h) := by simp [singleData, hc]
      simp only [mgetCallData, List.map_cons, hc, splitList_cons_false, mgetData]
      have ih' := ih
      simp only [mgetCallData] at ih'
      cases hm1 : mgetData cc.df (splitList hs (List.map cc.exists_ hs)).1 with
      | error e =>
        rw [hm1] at ih'
        simp only [reduceCtorEq, false_iff] at ih' ⊢
        intro h'; cases h' with | cons _ h2 => exact ih' _ h2
      | ok ds1 =>
        rw [hm1] at ih'
        simp only [] at ih' ⊢
        cases hd : dataOfRows (rowsOf pers h) with
        | none =>
          simp only [reduceCtorEq, false_iff]
          intro h'; cases h' with | cons h1 _ => rw [hs1, hd] at h1; cases h1
        | some d =>
          cases hm2 : mgetData pers (splitList hs (List.map cc.exists_ hs)).2 with
          | error e =>
            rw [hm2] at ih'
            simp only [reduceCtorEq, false_iff] at ih' ⊢
            intro h'; cases h' with | cons _ h2 => exact ih' _ h2
          | ok ds2 =>
            rw [hm2] at ih'
            simp only [mergeLists] at ih' ⊢
            cases hm3 : mergeLists ds1 ds2 (List.map cc.exists_ hs) with
            | error e =>
              rw [hm3] at ih'
              simp only [reduceCtorEq, false_iff] at ih' ⊢
              intro h'; cases h' with | cons _ h2 => exact ih' _ h2
            | ok ds3 =>
              rw [hm3] at ih'
              simp only [Except.ok.injEq] at ih' ⊢
              constructor
              · rintro rfl; exact .cons (by rw [hs1, hd]) ((ih' _).1 rfl)
              · intro h'; cases h' with
                | cons h1 h2 => rw [hs1, hd] at h1; cases h1; rw [(ih' _).2 h2]

end Verif
