import Verif.Spec.Mixed
import Verif.Proofs.Program
import Verif.Proofs.Frame
/-!
Calls in "noop" mode.
-/
namespace Verif

variable {W : World}

/-- Unwrapping the arguments of a call. -/
theorem keeps_noopArgs (hW : W.Good) {args : List BArg} {ins : List In} (h : ArgsOK W args ins) :
    Keeps (Inv W) (M.mapM' (fun (a : BArg) => do
      let v ← unwrapArg W.cfg a.arg
      M.pure (a.name, v)) args) (fun vals => vals = eraseIns (insVals ins)) SErr := by
  refine (Keeps.mapM' (R := fun (a : BArg) (p : String × Val) => p.1 = a.name ∧ ∀ t, ArgT W a.ty a.arg t → p.2 = t.erase)
    args (fun a ha => ?_)).mono (fun vals hv => ?_) (fun _ h => h)
  · obtain ⟨i, _, _, _, ht⟩ := h.mem_left ha
    exact Keeps.bind (Keeps.forall_ ⟨i.t, ht⟩ (fun t ht => keeps_unwrapArg hW _ _ _ ht)) (fun v hv => Keeps.pure ⟨rfl, hv⟩)
  · have key : ∀ {as : List BArg} {is : List In} {vals : List (String × Val)}, ArgsOK W as is →
        All2 (fun (a : BArg) (p : String × Val) => p.1 = a.name ∧ ∀ t, ArgT W a.ty a.arg t → p.2 = t.erase) as vals →
        vals = eraseIns (insVals is) := by
      intro as is vals h1 h2
      induction h2 generalizing is with
      | nil => unfold ArgsOK at h1; simp only [All2.nil_left] at h1; subst h1; rfl
      | @cons a p as vals g1 g2 ih =>
        cases h1 with
        | cons f1 f2 =>
          rw [ih f2]
          simp only [eraseIns, insVals, List.map_cons]
          rw [f1.1, ← g1.1, ← g1.2 _ f1.2.2]
    exact key h hv

/-- A call in "noop" mode touches neither calls nor tables nor the log of the bodies run by the storage. -/
theorem quiet_callNoop (cfg : Cfg) (d : OpDef) (args : List BArg) : Pres Quiet (callNoop cfg d args) :=
  Pres.bind Quiet.ord (Pres.mapM' Quiet.ord _ (fun a _ => Pres.bind Quiet.ord (quiet_unwrapArg cfg _) (fun _ => Pres.pure Quiet.ord _)))
    (fun _ => Pres.lift Quiet.ord _)

/-- It returns what the function returns, or raises what the function raises, or raises an exception of the storage. -/
theorem keeps_callNoop (hW : W.Good) (d : OpDef) {args : List BArg} {ins : List In} (h : ArgsOK W args ins) :
    Keeps (Inv W) (callNoop W.cfg d args) (fun v => d.body (eraseIns (insVals ins)) = .ok v)
      (fun e => SErr e ∨ d.body (eraseIns (insVals ins)) = .error e) := by
  refine Keeps.bind ((keeps_noopArgs hW h).mono (fun _ h => h) (fun _ h => .inl h)) (fun vals hv => ?_)
  subst hv
  exact Keeps.lift (fun a ha => ha) (fun e he => .inr he)

theorem mstep_ok (hW : W.Good) {c : MCmd} (hok : MCmdOK W c) {env : List Ref} {penv : List Val} (henv : EnvOK W env penv)
    {s : St} (hs : Inv W s) {o : Obs} {env' : List Ref} {s' : St} (hrun : c.run' W.cfg env s = (o, env', s')) :
    Inv W s' ∧ ((o = (c.plain penv).1 ∧ EnvOK W env' (c.plain penv).2) ∨ ∃ e, o = .raised e ∧ StorageErr e ∧ env' = env) := by
  cases c with
  | run c => exact step_ok hW hok henv hs hrun
  | noop d args =>
    simp only [MCmd.run'] at hrun
    simp only [MCmd.plain]
    rcases bindArgs_ok henv args hok with ⟨h1, h2⟩ | ⟨bargs, ins, vs, h1, h2, h3, h4, h5, h6, h7⟩
    · rw [h1] at hrun
      simp only [Prod.mk.injEq] at hrun
      obtain ⟨rfl, rfl, rfl⟩ := hrun
      rw [h2]
      exact ⟨hs, .inl ⟨rfl, henv⟩⟩
    · rw [h1] at hrun
      rw [h2]
      have hk := keeps_callNoop hW d h4 s hs
      rw [h6] at hk
      simp only at hrun ⊢
      cases hc : callNoop W.cfg d bargs s with
      | mk x s1 =>
        rw [hc] at hrun hk
        cases x with
        | ok v =>
          simp only [Prod.mk.injEq] at hrun
          obtain ⟨rfl, rfl, rfl⟩ := hrun
          rw [hk.2]
          exact ⟨hk.1, .inl ⟨rfl, henv⟩⟩
        | error e =>
          simp only [Prod.mk.injEq] at hrun
          obtain ⟨rfl, rfl, rfl⟩ := hrun
          refine ⟨hk.1, ?_⟩
          rcases hk.2 with h | h
          · exact .inr ⟨e, rfl, storageErr_of_SErr h, rfl⟩
          · rw [h]; exact .inl ⟨rfl, henv⟩

theorem mixed_ok (hW : W.Good) : ∀ (cs : List MCmd), (∀ c ∈ cs, MCmdOK W c) → ∀ {env : List Ref} {penv : List Val}, EnvOK W env penv →
    ∀ {s : St}, Inv W s → MAgrees penv cs (runMixed W.cfg env s cs).1
  | [], _, _, _, _, _, _ => .nil
  | c :: cs, hok, env, penv, henv, s, hs => by
    simp only [runMixed]
    rcases hr : c.run' W.cfg env s with ⟨o, env', s'⟩
    obtain ⟨h1, h2⟩ := mstep_ok hW (hok c (by simp)) henv hs hr
    simp only
    rcases h2 with ⟨rfl, h⟩ | ⟨e, rfl, he, rfl⟩
    · exact .same rfl (mixed_ok hW cs (fun c hc => hok c (by simp [hc])) h h1)
    · exact .failed he (mixed_ok hW cs (fun c hc => hok c (by simp [hc])) henv h1)

end Verif
