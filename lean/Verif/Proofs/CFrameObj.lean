import Verif.Model.CFrameObj
/-!
Which objects the operations on frames change.
-/
namespace Verif

namespace CFrame

/-- The objects outside `S` that exist before are the same afterwards, whether or not the operation raises. -/
def Only {α : Type} (S : Nat → Prop) (m : OM α) : Prop :=
  ∀ h : Heap, h.length ≤ (m h).2.length ∧ ∀ j, j < h.length → ¬ S j → (m h).2[j]? = h[j]?

variable {α β : Type} {S T : Nat → Prop}

theorem Only.mono {m : OM α} (hm : Only S m) (h : ∀ j, S j → T j) : Only T m :=
  fun s => ⟨(hm s).1, fun j hj hn => (hm s).2 j hj fun hs => hn (h j hs)⟩

theorem only_pure (a : α) : Only S (pure a : OM α) := fun _ => ⟨Nat.le_refl _, fun _ _ _ => rfl⟩

theorem only_throw (e : Err) : Only S (throw e : OM α) := fun _ => ⟨Nat.le_refl _, fun _ _ _ => rfl⟩

theorem om_bind (m : OM α) (k : α → OM β) (h : Heap) :
    (m >>= k) h = match m h with
      | (.ok a, h') => k a h'
      | (.error e, h') => (.error e, h') := by
  simp only [bind, ExceptT.bind, ExceptT.mk, StateT.bind]
  rcases m h with ⟨x | x, h'⟩ <;> rfl

theorem only_bind {m : OM α} {k : α → OM β} (hm : Only S m) (hk : ∀ a, Only S (k a)) : Only S (m >>= k) := by
  intro h
  rw [om_bind]
  have h1 := hm h
  rcases e : m h with ⟨x, h'⟩
  rw [e] at h1
  cases x with
  | error er => exact h1
  | ok a =>
    have h2 := hk a h'
    refine ⟨Nat.le_trans h1.1 h2.1, fun j hj hn => ?_⟩
    exact (h2.2 j (Nat.lt_of_lt_of_le hj h1.1) hn).trans (h1.2 j hj hn)

theorem only_frame (i : Nat) : Only S (frame i) := by
  intro h
  unfold frame
  split <;> exact ⟨Nat.le_refl _, fun _ _ _ => rfl⟩

theorem only_onFrame {i : Nat} (hi : S i) (op : CFrame → Except Err CFrame) : Only S (onFrame i op) := by
  intro h
  unfold onFrame
  split
  · exact ⟨Nat.le_refl _, fun _ _ _ => rfl⟩
  · split
    · refine ⟨by simp, fun j hj hn => ?_⟩
      have : i ≠ j := fun e => hn (e ▸ hi)
      simp [this]
    · exact ⟨Nat.le_refl _, fun _ _ _ => rfl⟩

theorem only_copy (i : Nat) : Only S (copyObj i) := by
  intro h
  unfold copyObj
  split
  · refine ⟨by simp, fun j hj _ => ?_⟩
    simp [List.getElem?_append_left hj]
  · exact ⟨Nat.le_refl _, fun _ _ _ => rfl⟩

/-- What is done to a new copy is not done to any object there was. -/
theorem only_copy_bind {i : Nat} {k : Nat → OM β} (hk : ∀ r, Only (fun j => S j ∨ j = r) (k r)) : Only S (copyObj i >>= k) := by
  intro h
  rw [om_bind]
  unfold copyObj
  split
  · rename_i hc
    split at hc
    · cases hc
      have h2 := hk h.length
      refine ⟨?_, fun j hj hn => ?_⟩
      · refine Nat.le_trans ?_ (h2 _).1
        simp
      · refine ((h2 _).2 j (by simp; omega) ?_).trans ?_
        · rintro (h | h)
          · exact hn h
          · omega
        · simp [List.getElem?_append_left hj]
    · cases hc
  · rename_i hc
    split at hc
    · cases hc
    · cases hc; exact ⟨Nat.le_refl _, fun _ _ _ => rfl⟩

theorem only_forM {l : List β} {k : β → OM PUnit} (hk : ∀ b ∈ l, Only S (k b)) : Only S (l.forM k) := by
  induction l with
  | nil => exact only_pure _
  | cons b l ih => exact only_bind (hk b (by simp)) fun _ => ih fun c hc => hk c (by simp [hc])

theorem only_answer (r : Nat) (b : Bool) : Only S (answer r b) := only_pure _

/-- The shape of all operations: `res = self if inplace else self.copy()`, then work on `res`. -/
theorem only_target {i : Nat} {inplace : Bool} {k : Nat → OM β} (hk : ∀ r, Only (fun j => j = r) (k r)) :
    Only (fun j => inplace = true ∧ j = i) (target i inplace >>= k) := by
  cases inplace with
  | true =>
    have e : (target i true >>= k : OM β) = k i := by
      funext h; rw [om_bind]; rfl
    rw [e]
    exact (hk i).mono fun j hj => ⟨rfl, hj⟩
  | false =>
    refine only_copy_bind fun r => (hk r).mono fun j hj => .inr hj

variable (i : Nat) (inplace : Bool)

theorem only_dropVarO (v : String) : Only (fun j => inplace = true ∧ j = i) (dropVarO i v inplace) :=
  only_target fun _ => only_bind (only_onFrame (by rfl) _) fun _ => only_answer _ _

theorem only_dropFuncO (v : String) : Only (fun j => inplace = true ∧ j = i) (dropFuncO i v inplace) :=
  only_target fun _ => only_bind (only_onFrame (by rfl) _) fun _ => only_answer _ _

theorem only_dropNodeO (n : String) : Only (fun j => inplace = true ∧ j = i) (dropNodeO i n inplace) := by
  refine only_target fun r => only_bind (only_frame r) fun f => ?_
  have h1 : ∀ j, (true = true ∧ j = r) → j = r := fun j h => h.2
  dsimp only
  split
  · exact only_bind ((only_dropVarO r true n).mono h1) fun _ => only_answer _ _
  · split
    · exact only_bind ((only_dropFuncO r true n).mono h1) fun _ => only_answer _ _
    · exact only_bind (only_throw _) fun _ => only_answer _ _

theorem only_dropO (ns : List String) : Only (fun j => inplace = true ∧ j = i) (dropO i ns inplace) := by
  refine only_target fun r => only_bind (only_forM fun n _ => ?_) fun _ => only_answer _ _
  exact only_bind ((only_dropNodeO r true n).mono fun j h => h.2) fun _ => only_pure _

theorem only_renameVarO (v w : String) : Only (fun j => inplace = true ∧ j = i) (renameVarO i v w inplace) :=
  only_target fun _ => only_bind (only_onFrame (by rfl) _) fun _ => only_answer _ _

theorem only_renameO (vars : Dict String String) : Only (fun j => inplace = true ∧ j = i) (renameO i vars inplace) := by
  refine only_target fun r => only_bind (only_forM fun p _ => ?_) fun _ => only_answer _ _
  exact only_bind ((only_renameVarO r true p.1 p.2).mono fun j h => h.2) fun _ => only_pure _

theorem target_true {k : Nat → OM β} : (target i true >>= k : OM β) = k i := by
  funext h; rw [om_bind]; rfl

theorem only_moveRefO_true (a b h : String) : Only (fun j => j = i) (moveRefO i a b h true) := by
  unfold moveRefO
  rw [target_true]
  exact only_bind (only_onFrame (by rfl) _) fun _ => only_bind (only_onFrame (by rfl) _) fun _ => only_answer _ _

theorem only_lift (e : Except Err α) : Only S (mergeIntoO.liftExcept e) := fun _ => ⟨Nat.le_refl _, fun _ _ _ => rfl⟩

theorem only_mergeIntoO_true (a b : String) : Only (fun j => j = i) (mergeIntoO i a b true) := by
  unfold mergeIntoO
  rw [target_true]
  refine only_bind (only_frame i) fun f => only_bind (only_lift _) fun sa => only_bind (only_lift _) fun sb => ?_
  refine only_bind (only_forM fun h _ => only_bind (only_moveRefO_true i a b h) fun _ => only_pure _) fun _ => ?_
  exact only_bind (only_onFrame (by rfl) _) fun _ => only_bind ((only_dropNodeO i true a).mono fun j h => h.2) fun _ => only_answer _ _

theorem only_mergeVarsLoopO (r : Nat) : ∀ k, Only (fun j => j = r) (mergeVarsLoopO r k) := by
  intro k
  induction k with
  | zero => exact only_throw _
  | succ k ih =>
    refine only_bind (only_frame r) fun f => ?_
    split
    · exact only_pure _
    · refine only_bind (only_mergeIntoO_true r _ _) fun _ => only_bind (only_frame r) fun g => ?_
      split
      · exact only_pure _
      · exact ih

theorem only_mergeVarsO : Only (fun j => inplace = true ∧ j = i) (mergeVarsO i inplace) :=
  only_target fun r => only_bind (only_frame r) fun _ => only_bind (only_mergeVarsLoopO r _) fun _ => only_answer _ _

theorem only_dropEmptyO (r : Nat) : Only S (dropEmptyO r) := by
  refine only_bind (only_frame r) fun f => only_forM fun n _ => only_bind (only_frame r) fun f => ?_
  split
  · refine only_bind ((only_dropNodeO r false n).mono fun j h => ?_) fun _ => only_pure _
    cases h.1
  · exact only_pure _

theorem only_cleanupO : Only S (cleanupO i inplace) := by
  cases inplace with
  | true =>
    unfold cleanupO
    rw [target_true]
    exact only_bind (only_dropEmptyO i) fun _ => only_answer _ _
  | false => exact only_bind (only_copy i) fun r => only_bind (only_dropEmptyO r) fun _ => only_answer _ _

/-! ### what happens to the object -/

/-- On the object `r`, `m` does what `op` does, and nothing else if it does not raise. -/
def Does (r : Nat) (op : CFrame → Except Err CFrame) (m : OM α) : Prop :=
  ∀ (h : Heap) f, h[r]? = some f →
    (∀ g, op f = .ok g → ∃ a, m h = (.ok a, h.set r g)) ∧ ∀ e, op f = .error e → ∃ h', m h = (.error e, h')

theorem does_onFrame (r : Nat) (op : CFrame → Except Err CFrame) : Does r op (onFrame r op) := by
  intro h f hf
  unfold onFrame
  rw [hf]
  dsimp only
  cases op f with
  | ok g => exact ⟨fun g h => by cases h; exact ⟨(), rfl⟩, nofun⟩
  | error e => exact ⟨nofun, fun e h => by cases h; exact ⟨_, rfl⟩⟩

theorem set_get {h : Heap} {r : Nat} {f : CFrame} (hf : h[r]? = some f) (g : CFrame) : (h.set r g)[r]? = some g := by
  rw [List.getElem?_set_self]
  exact (List.getElem?_eq_some_iff.1 hf).1

theorem set_same {h : Heap} {r : Nat} {f : CFrame} (hf : h[r]? = some f) : h.set r f = h := by
  obtain ⟨h1, rfl⟩ := List.getElem?_eq_some_iff.1 hf
  simp

theorem does_pure (r : Nat) (a : α) : Does r .ok (pure a : OM α) := by
  intro h f hf
  refine ⟨fun g hg => ⟨a, ?_⟩, nofun⟩
  cases hg
  rw [set_same hf]
  rfl

theorem does_throw (r : Nat) (e : Err) : Does r (fun _ => .error e) (throw e : OM α) :=
  fun h _ _ => ⟨nofun, fun e' he => by cases he; exact ⟨h, rfl⟩⟩

theorem does_bind {r : Nat} {op op' : CFrame → Except Err CFrame} {m : OM α} {k : α → OM β} (hm : Does r op m) (hk : ∀ a, Does r op' (k a)) :
    Does r (fun f => op f >>= op') (m >>= k) := by
  intro h f hf
  obtain ⟨h1, h1'⟩ := hm h f hf
  cases e : op f with
  | error er =>
    refine ⟨fun g hg => (by simp only [e] at hg; cases hg), fun e' he => ?_⟩
    simp only [e] at he
    cases he
    obtain ⟨h', h1⟩ := h1' er e
    exact ⟨h', by rw [om_bind, h1]⟩
  | ok g =>
    obtain ⟨a, h1⟩ := h1 g e
    obtain ⟨h2, h2'⟩ := hk a (h.set r g) g (set_get hf g)
    refine ⟨fun g' hg => ?_, fun e' he => ?_⟩
    · simp only [e] at hg
      obtain ⟨b, h2⟩ := h2 g' hg
      exact ⟨b, by rw [om_bind, h1]; dsimp only; rw [h2, List.set_set]⟩
    · simp only [e] at he
      obtain ⟨h', h2'⟩ := h2' e' he
      exact ⟨h', by rw [om_bind, h1]; exact h2'⟩

/-- reading the object first -/
theorem does_frame {r : Nat} {op : CFrame → CFrame → Except Err CFrame} {k : CFrame → OM β} (hk : ∀ f, Does r (op f) (k f)) :
    Does r (fun f => op f f) (frame r >>= k) := by
  intro h f hf
  have e : (frame r >>= k : OM β) h = k f h := by
    rw [om_bind]; unfold frame; rw [hf]
  rw [e]
  exact hk f h f hf

theorem does_lift {r : Nat} {x : Except Err α} {op : α → CFrame → Except Err CFrame} {k : α → OM β} (hk : ∀ a, Does r (op a) (k a)) :
    Does r (fun f => x >>= fun a => op a f) (mergeIntoO.liftExcept x >>= k) := by
  intro h f hf
  cases x with
  | error e => exact ⟨nofun, fun e' he => by cases he; exact ⟨h, rfl⟩⟩
  | ok a => exact hk a h f hf

theorem does_forM {r : Nat} {op : β → CFrame → Except Err CFrame} {k : β → OM PUnit} (hk : ∀ b, Does r (op b) (k b)) (l : List β) :
    Does r (fun f => l.foldlM (fun f b => op b f) f) (l.forM k) := by
  induction l with
  | nil => exact does_pure r _
  | cons b l ih => exact does_bind (hk b) fun _ => ih

theorem Does.post {r : Nat} {op : CFrame → Except Err CFrame} {m : OM α} {k : α → OM β} (hm : Does r op m) (hk : ∀ a, Does r .ok (k a)) :
    Does r op (m >>= k) := by
  have := does_bind hm hk
  intro h f hf
  obtain ⟨h1, h2⟩ := this h f hf
  refine ⟨fun g hg => h1 g ?_, fun e he => h2 e ?_⟩
  · simp only [hg]; rfl
  · simp only [he]; rfl

theorem Does.answer {r : Nat} {op : CFrame → Except Err CFrame} {m : OM α} (hm : Does r op m) (b : Bool) : Does r op (m >>= fun _ => answer r b) :=
  hm.post fun _ => does_pure r _

theorem does_dropVarO (r : Nat) (v : String) : Does r (·.dropVar v) (dropVarO r v true) := by
  unfold dropVarO
  rw [target_true]
  exact (does_onFrame r _).answer _

theorem does_dropFuncO (r : Nat) (v : String) : Does r (·.dropFunc v) (dropFuncO r v true) := by
  unfold dropFuncO
  rw [target_true]
  exact (does_onFrame r _).answer _

theorem does_renameVarO (r : Nat) (v w : String) : Does r (·.renameVar v w) (renameVarO r v w true) := by
  unfold renameVarO
  rw [target_true]
  exact (does_onFrame r _).answer _

/-- The same, knowing what is answered. -/
def Gives (r : Nat) (op : CFrame → Except Err CFrame) (m : OM α) (a : α) : Prop :=
  ∀ (h : Heap) f, h[r]? = some f →
    (∀ g, op f = .ok g → m h = (.ok a, h.set r g)) ∧ ∀ e, op f = .error e → ∃ h', m h = (.error e, h')

theorem Gives.does {r : Nat} {op : CFrame → Except Err CFrame} {m : OM α} {a : α} (hm : Gives r op m a) : Does r op m :=
  fun h f hf => ⟨fun g hg => ⟨a, (hm h f hf).1 g hg⟩, (hm h f hf).2⟩

theorem Does.gives {r : Nat} {op : CFrame → Except Err CFrame} {m : OM α} (hm : Does r op m) (b : Bool) :
    Gives r op (m >>= fun _ => CFrame.answer r b) (if b then none else some r) := by
  intro h f hf
  obtain ⟨h1, h2⟩ := hm h f hf
  refine ⟨fun g hg => ?_, fun e he => ?_⟩
  · obtain ⟨a, h1⟩ := h1 g hg
    rw [om_bind, h1]
    rfl
  · obtain ⟨h', h2⟩ := h2 e he
    exact ⟨h', by rw [om_bind, h2]⟩

theorem gives_frame {r : Nat} {op : CFrame → CFrame → Except Err CFrame} {k : CFrame → OM β} {a : β} (hk : ∀ f, Gives r (op f) (k f) a) :
    Gives r (fun f => op f f) (frame r >>= k) a := by
  intro h f hf
  have e : (frame r >>= k : OM β) h = k f h := by
    rw [om_bind]; unfold frame; rw [hf]
  rw [e]
  exact hk f h f hf

theorem gives_dropNodeBody (r : Nat) (n : String) (b : Bool) : Gives r (·.dropNode n) (do
    let f ← frame r
    if f.vs.has n then
      let _ ← dropVarO r n true
    else if f.fs.has n then
      let _ ← dropFuncO r n true
    else throw .valueError
    answer r b) (if b then none else some r) := by
  refine gives_frame (op := fun f g => if f.vs.has n then g.dropVar n else if f.fs.has n then g.dropFunc n else .error .valueError) fun f => ?_
  dsimp only
  split
  · exact (does_dropVarO r n).gives _
  · split
    · exact (does_dropFuncO r n).gives _
    · exact (does_throw (α := PUnit) r .valueError).gives _

theorem does_dropNodeO (r : Nat) (n : String) : Does r (·.dropNode n) (dropNodeO r n true) := by
  unfold dropNodeO
  rw [target_true]
  exact (gives_dropNodeBody r n true).does

theorem gives_dropBody (r : Nat) (ns : List String) (b : Bool) : Gives r (·.drop ns) (do
    ns.forM fun n => do
      let _ ← dropNodeO r n true
    answer r b) (if b then none else some r) :=
  (does_forM (op := fun n f => f.dropNode n) (fun n => (does_dropNodeO r n).post fun _ => does_pure r _) ns).gives _

theorem gives_renameBody (r : Nat) (vars : Dict String String) (b : Bool) : Gives r (·.rename vars) (do
    vars.forM fun p => do
      let _ ← renameVarO r p.1 p.2 true
    answer r b) (if b then none else some r) :=
  (does_forM (op := fun p f => f.renameVar p.1 p.2) (fun p => (does_renameVarO r p.1 p.2).post fun _ => does_pure r _) vars).gives _

theorem does_moveRefO (r : Nat) (a b h : String) : Does r (moveRef a b h) (moveRefO r a b h true) := by
  unfold moveRefO
  rw [target_true]
  have := does_bind (does_onFrame r (moveRefVs a b h)) fun _ => (does_onFrame r (moveRefInv a b h)).answer true
  exact this

theorem does_mergeIntoO (r : Nat) (a b : String) : Does r (mergeInto a b) (mergeIntoO r a b true) := by
  unfold mergeIntoO
  rw [target_true]
  refine does_frame (op := fun f g => do
    let sa ← f.setE a
    let sb ← f.setE b
    let f ← (PySet.diff (PySet.ofList sa) sb).foldlM (fun f h => moveRef a b h f) g
    let f ← redirect a b f
    f.dropNode a) fun f => ?_
  refine does_lift (op := fun sa g => do
    let sb ← f.setE b
    let f ← (PySet.diff (PySet.ofList sa) sb).foldlM (fun f h => moveRef a b h f) g
    let f ← redirect a b f
    f.dropNode a) fun sa => ?_
  refine does_lift (op := fun sb g => do
    let f ← (PySet.diff (PySet.ofList sa) sb).foldlM (fun f h => moveRef a b h f) g
    let f ← redirect a b f
    f.dropNode a) fun sb => ?_
  refine does_bind (op := fun g => (PySet.diff (PySet.ofList sa) sb).foldlM (fun f h => moveRef a b h f) g)
    (does_forM (fun h => (does_moveRefO r a b h).post fun _ => does_pure r _) _) fun _ => ?_
  exact does_bind (does_onFrame r (redirect a b)) fun _ => (does_dropNodeO r a).answer _

theorem does_mergeVarsLoopO (r : Nat) : ∀ k, Does r (mergeVarsLoop k) (mergeVarsLoopO r k) := by
  intro k
  induction k with
  | zero => exact does_throw r _
  | succ k ih =>
    refine does_frame (op := fun f g => match f.mergePair with
      | none => .ok g
      | some (v, w) => do
        let g ← mergeInto v w g
        if setLen g.vs.keys = setLen f.vs.keys then .ok g else mergeVarsLoop k g) fun f => ?_
    cases f.mergePair with
    | none => exact does_pure r _
    | some p =>
      refine does_bind (does_mergeIntoO r p.1 p.2) fun _ => ?_
      refine does_frame (op := fun g g' => if setLen g.vs.keys = setLen f.vs.keys then .ok g' else mergeVarsLoop k g') fun g => ?_
      split
      · exact does_pure r _
      · exact ih

theorem gives_mergeVarsBody (r : Nat) (b : Bool) : Gives r mergeVars (do
    let f ← frame r
    mergeVarsLoopO r (setLen f.vs.keys + 1)
    answer r b) (if b then none else some r) := by
  refine gives_frame (op := fun f g => mergeVarsLoop (setLen f.vs.keys + 1) g) fun f => ?_
  exact (does_mergeVarsLoopO r _).gives _

end CFrame
end Verif
