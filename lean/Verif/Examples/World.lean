import Verif.Basic.Encode
import Verif.Proofs.Program
/-!
A concrete world for examples: an injective hash and a few ops.
-/
namespace Verif.Ex

/-- the argument with this name, if it is an integer -/
def intArg (vals : List (String × Val)) (k : String) : Option Int :=
  match Dict.get? vals k with
  | some (.int n) => some n
  | _ => none

/-- `def inc(x): if x < 0: raise ...; return x + 1` -/
def inc : OpDef where
  name := "inc"
  version := 0
  nout := .auto
  outNames := none
  ann := .none
  body := fun vals => match intArg vals "x" with
    | some n => if n < 0 then .error (.userError 1) else .ok (.int (n + 1))
    | none => .error (.userError 0)

/-- `@op(output_names=["down", "up"]) def both(x): return x - 1, x + 1` with an argument `verbose` that is ignored -/
def both : OpDef where
  name := "both"
  version := 2
  nout := .exactly 2
  outNames := some ["down", "up"]
  ann := .none
  body := fun vals => match intArg vals "x" with
    | some n => .ok (.tuple [.int (n - 1), .int (n + 1)])
    | none => .error (.userError 0)

/-- the integers of a list -/
def ints : List Val → List Int
  | .int n :: vs => n :: ints vs
  | _ :: vs => ints vs
  | [] => []

/-- `def upto(x) -> MList[int]: return list(range(x))` -/
def upto : OpDef where
  name := "upto"
  version := 0
  nout := .auto
  outNames := none
  ann := .single (.coll .list .atom)
  body := fun vals => match intArg vals "x" with
    | some n => .ok (.list ((List.range n.toNat).map fun (i : Nat) => .int i))
    | none => .error (.userError 0)

/-- `def total(xs: MList[int]): return sum(xs)` -/
def total : OpDef where
  name := "total"
  version := 0
  nout := .auto
  outNames := none
  ann := .none
  body := fun vals => match Dict.get? vals "xs" with
    | some (.list vs) => .ok (.int ((ints vs).sum))
    | _ => .error (.userError 0)

/-- The world of these ops. -/
def W : World where
  cfg := { H := encH, fuel := 10, sizeA := fun _ => 1, sizeS := fun _ => 1, sizeO := fun _ => 1 }
  D := fun d => d = inc ∨ d = both ∨ d = upto ∨ d = total
  emp := .coll .list [] []

theorem good : W.Good where
  inj := encH_inj
  func := by
    rintro d d' (rfl | rfl | rfl | rfl) (rfl | rfl | rfl | rfl) hn _ <;> first | rfl | exact absurd hn (by decide)
  user := by rintro d (rfl | rfl | rfl | rfl) <;> decide

theorem wf_int (n : Int) : (TVal.atom (.int n)).Wf W := by
  simp only [TVal.Wf]
  refine ⟨nofun, ?_, nofun⟩
  rintro ⟨xs, h, _⟩
  cases h

/-- ops that return one integer -/
theorem okInt {d : OpDef} (hm : W.D d) (h1 : d.nout = .auto) (h2 : d.outNames = none) (h3 : d.ann = .none)
    (h4 : ∀ vals ret, d.body vals = .ok ret → ∃ n, ret = .int n) : OpOK W d where
  mem := hm
  conforms := by
    intro ins ret outs _ hb hp
    obtain ⟨n, rfl⟩ := h4 _ _ hb
    rw [h1, h2, h3] at hp
    cases hp
    exact ⟨[("output_0", .atom (.int n))], .cons ⟨rfl, rfl, wf_int n⟩ .nil⟩
  names := by intro ins ret vs _ _; rw [h2]; trivial

theorem inc_ok : OpOK W inc := okInt (.inl rfl) rfl rfl rfl (by
  intro vals ret h
  simp only [inc] at h
  split at h
  · split at h
    · cases h
    · cases h; exact ⟨_, rfl⟩
  · cases h)

theorem total_ok : OpOK W total := okInt (.inr (.inr (.inr rfl))) rfl rfl rfl (by
  intro vals ret h
  simp only [total] at h
  split at h
  · cases h; exact ⟨_, rfl⟩
  · cases h)

theorem both_ok : OpOK W both where
  mem := .inr (.inl rfl)
  conforms := by
    intro ins ret outs _ hb hp
    simp only [both] at hb
    split at hb <;> cases hb
    cases hp
    exact ⟨[("down", .atom (.int _)), ("up", .atom (.int _))], .cons ⟨rfl, rfl, wf_int _⟩ (.cons ⟨rfl, rfl, wf_int _⟩ .nil)⟩
  names := by
    intro ins ret vs hb hr
    simp only [both] at hb hr
    split at hb <;> cases hb
    cases hr
    exact ⟨by decide, rfl⟩

theorem upto_ok : OpOK W upto where
  mem := .inr (.inr (.inl rfl))
  conforms := by
    intro ins ret outs _ hb hp
    simp only [upto] at hb
    split at hb <;> cases hb
    cases hp
    rename_i n _
    refine ⟨[("output_0", .coll .list [] ((List.range n.toNat).map fun (i : Nat) => .atom (.int i)))], .cons ⟨rfl, ?_, ?_⟩ .nil⟩
    · simp only [ValT]
      refine ⟨[], _, _, rfl, rfl, rfl, ?_⟩
      rw [All2.map_left, All2.map_right]
      generalize List.range n.toNat = l
      induction l with
      | nil => exact .nil
      | cons a l ih => exact .cons rfl ih
    · simp only [TVal.Wf, KeysOK, true_and]
      refine ⟨fun _ => rfl, ?_⟩
      rw [TVal.wfs_iff]
      intro t ht
      simp only [List.mem_map] at ht
      obtain ⟨i, _, rfl⟩ := ht
      exact wf_int _
  names := by intro ins ret vs _ _; trivial

/-- `f(x=e)` -/
def arg1 (e : PExpr) : List PArg := [⟨"x", .atom, false, e⟩]

theorem wf_raw_int (n : Int) : PExprOK W .atom (.raw (.int n)) := by
  simp only [PExprOK]
  exact ⟨_, rfl, wf_int n⟩

/-- calls `f(x=3)` and `f(x=result)` conform -/
theorem call1_ok {d : OpDef} (h : OpOK W d) {e : PExpr} (he : PExprOK W .atom e) : CmdOK W (.call d (arg1 e)) := by
  refine ⟨h, by simp [arg1], ?_, ?_⟩
  · intro vs hvs
    match vs, hvs with
    | [v], _ => rfl
  · intro a ha
    simp only [arg1, List.mem_singleton] at ha
    subst ha
    exact he

/-- `both(x=e, verbose=raw)`, `verbose` ignored -/
def bothArgs (e : PExpr) (b : Int) : List PArg := [⟨"x", .atom, false, e⟩, ⟨"verbose", .atom, true, .raw (.int b)⟩]

theorem both_call_ok {e : PExpr} {b : Int} (he : PExprOK W .atom e) : CmdOK W (.call both (bothArgs e b)) := by
  refine ⟨both_ok, by simp [bothArgs], ?_, ?_⟩
  · intro vs hvs
    match vs, hvs with
    | [v, w], _ => rfl
  · intro a ha
    simp only [bothArgs, List.mem_cons, List.not_mem_nil, or_false] at ha
    rcases ha with rfl | rfl
    · exact he
    · exact wf_raw_int b

/-- `total(xs=[e1, ..., en])` -/
def totalArgs (es : List PExpr) : List PArg := [⟨"xs", .coll .list .atom, false, .list es⟩]

theorem total_call_ok {es : List PExpr} (he : ∀ e ∈ es, PExprOK W .atom e) : CmdOK W (.call total (totalArgs es)) := by
  refine ⟨total_ok, by simp [totalArgs], ?_, ?_⟩
  · intro vs hvs
    match vs, hvs with
    | [v], _ => rfl
  · intro a ha
    simp only [totalArgs, List.mem_singleton] at ha
    subst ha
    simp only [PExprOK]
    refine ⟨.atom, rfl, fun _ => rfl, ?_⟩
    induction es with
    | nil => trivial
    | cons e es ih => exact ⟨he e (by simp), ih (fun e' h' => he e' (List.mem_cons_of_mem _ h'))⟩

/-- a fresh storage without overflow directory -/
def s0 : St := .fresh none 100

/-- Calls, memoized calls, a list parameter, maintenance, a user exception:
```
a = inc(5); b = inc(a); a2 = inc(5)
lo, hi = both(b, verbose=1)
storage.commit(); storage reopened
lo2, hi2 = both(b, verbose=0)
t = total([a, hi2, 10])
inc(-1)           # raises
xs = upto(3)
print(...)
``` -/
def prog : List Cmd :=
  [.call inc (arg1 (.raw (.int 5))), .call inc (arg1 (.var 0)), .call inc (arg1 (.raw (.int 5))),
   .call both (bothArgs (.var 1) 1), .commit, .reopen, .call both (bothArgs (.var 1) 0),
   .call total (totalArgs [.var 0, .var 6, .raw (.int 10)]), .call inc (arg1 (.raw (.int (-1)))),
   .call upto (arg1 (.raw (.int 3))), .unwrap 1, .unwrap 5, .unwrap 7, .unwrap 8]

theorem prog_ok : ∀ c ∈ prog, CmdOK W c := by
  intro c hc
  simp only [prog, List.mem_cons, List.not_mem_nil, or_false] at hc
  have hv : ∀ i, PExprOK W .atom (.var i) := fun i => by simp only [PExprOK]
  rcases hc with rfl | rfl | rfl | rfl | rfl | rfl | rfl | rfl | rfl | rfl | rfl | rfl | rfl | rfl
  · exact call1_ok inc_ok (wf_raw_int _)
  · exact call1_ok inc_ok (hv _)
  · exact call1_ok inc_ok (wf_raw_int _)
  · exact both_call_ok (hv _)
  · trivial
  · trivial
  · exact both_call_ok (hv _)
  · refine total_call_ok (fun e he => ?_)
    simp only [List.mem_cons, List.not_mem_nil, or_false] at he
    rcases he with rfl | rfl | rfl
    · exact hv _
    · exact hv _
    · exact wf_raw_int _
  · exact call1_ok inc_ok (wf_raw_int _)
  · exact call1_ok upto_ok (wf_raw_int _)
  all_goals trivial

end Verif.Ex
