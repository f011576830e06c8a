import Verif.Proofs.CFrameExpandLoop
import Verif.Props.FrameStream
import Mathlib.Data.List.Perm.Subperm
/-!
Expanding a frame without reusing nodes: every group gets a new function, and the frame stays well-formed.
-/
namespace Verif

open Props

namespace CFrame

variable {R S : FCall → Prop} {f g : CFrame} {F V : String → Prop}

theorem isElt_nameProj (x : String) : isElt (nameProj makeListName x) = false := by
  unfold nameProj
  split
  · decide +kernel
  · rename_i h
    simpa using h

theorem flip_flip (dir : Side) : dir.flip.flip = dir := by cases dir <;> rfl

/-- A frame in which the function `n` is being built for calls of `op`. -/
structure Building (R : FCall → Prop) (F V : String → Prop) (op n : String) (f : CFrame) : Prop where
  wf : Wf R f
  names : NamesApart R F V f
  labels : LabelsOk f
  func : f.IsFunc n
  ins : ∀ l, HasLabel f.inp n l → ∃ v, InAdj f.inp n l v
  outs : ∀ l, HasLabel f.out n l → ∃ v, InAdj f.out n l v
  lab : op = makeListName → ∀ s l, f.HasEdge s n l → isElt l = false

theorem Wf.base (H : Wf R f) : Base R f := ⟨H.graph, H.ref, H.call⟩

theorem Building.ready {op n : String} (B : Building R F V op n f) : Ready R F V f := ⟨B.wf.base, B.names⟩

theorem hasLabel_set {d : Adj} {n m l : String} {i : SetDict} : HasLabel (d.set m i) n l ↔ if m = n then l ∈ Dict.keys i else HasLabel d n l := by
  unfold HasLabel
  rw [Dict.get?_set]
  split <;> simp

theorem hasLabel_add {d : Adj} {s l m n l' : String} : HasLabel (adjAdd d s l m) n l' ↔ HasLabel d n l' ∨ (s = n ∧ l = l') := by
  unfold adjAdd
  rw [hasLabel_set]
  split
  · rename_i e
    subst e
    rw [Dict.mem_keys_set]
    unfold HasLabel getOr
    cases h : d.get? s with
    | none => simp [Dict.keys, eq_comm]
    | some i => simp [or_comm, eq_comm]
  · rename_i e
    simp [e]

theorem Building.start (H : Wf R f) (N : NamesApart R F V f) (L : LabelsOk f) {op n : String} (hn : n ∉ f.nodes) (hF : F n) :
    Building R F V op n (f.addFunc n) := by
  have W := wf_addFunc H hn
  have E := (Ready.addFunc ⟨H.base, N⟩ hn hF : Ready R F V (f.addFunc n))
  have hn' : ¬ f.IsVar n ∧ ¬ f.IsFunc n := by rw [mem_nodes] at hn; exact not_or.1 hn
  have ho : ∀ {a l m}, InAdj (f.out.set n []) a l m ↔ InAdj f.out a l m := inAdj_set_nil fun _ _ => H.not_node_out hn
  have hs : ∀ {a m}, InSet (f.fs.set n []) a m ↔ InSet f.fs a m := inSet_set_nil fun _ => not_inSet_of_key hn'.2
  refine ⟨W, E.names, ?_, Dict.mem_keys_set.2 (.inl rfl), ?_, ?_, ?_⟩
  · intro s m l h c he hm hc hop
    exact L s m l h c (ho.1 he) (hs.1 hm) hc hop
  · intro l h
    unfold addFunc at h
    rw [hasLabel_set, if_pos rfl] at h
    cases h
  · intro l h
    unfold addFunc at h
    rw [hasLabel_set, if_pos rfl] at h
    cases h
  · intro _ s l h
    exact absurd ((H.graph.sym s n l).1 (ho.1 h)) (H.not_node_inp hn)

theorem Building.addVar {op n v : String} (B : Building R F V op n f) (hv : v ∉ f.nodes) (hV : V v) : Building R F V op n (f.addVar v) := by
  have hne : v ≠ n := by rintro rfl; exact hv (mem_nodes.2 (.inr B.func))
  have W := wf_addVar B.wf hv
  refine ⟨W, (B.ready.addVar hv hV).names, ?_, B.func, ?_, ?_, ?_⟩
  · intro s m l h c he hm hc hop
    exact B.labels s m l h c ((hasEdge_addVar B.wf hv).1 he) hm hc hop
  · intro l h
    unfold CFrame.addVar at h ⊢
    rw [hasLabel_set, if_neg hne] at h
    obtain ⟨w, hw⟩ := B.ins l h
    exact ⟨w, (inAdj_set_nil fun _ _ => B.wf.not_node_inp hv).2 hw⟩
  · intro l h
    unfold CFrame.addVar at h ⊢
    rw [hasLabel_set, if_neg hne] at h
    obtain ⟨w, hw⟩ := B.outs l h
    exact ⟨w, (inAdj_set_nil fun _ _ => B.wf.not_node_out hv).2 hw⟩
  · intro ho s l h
    exact B.lab ho s l ((hasEdge_addVar B.wf hv).1 h)

theorem Building.edge {op n s d l : String} (B : Building R F V op n f) (hb : (f.IsVar s ∧ d = n) ∨ (s = n ∧ f.IsVar d)) (hn : ∀ h, ¬ f.HasCall n h)
    (he : ¬ f.HasEdge s d l) (hl : op = makeListName → isElt l = false) (allow : Bool) :
    ∃ g, f.addEdge s d l allow = .ok g ∧ Building R F V op n g ∧ g.vs = f.vs ∧ g.fs = f.fs ∧
      ∀ a b k, g.HasEdge a b k ↔ f.HasEdge a b k ∨ (a = s ∧ b = d ∧ k = l) := by
  have G := B.wf.graph
  have hs : s ∈ f.out.keys := (G.outKey s).2 (hb.elim (fun h => .inl h.1) fun h => .inr (h.1 ▸ B.func))
  have hd : d ∈ f.inp.keys := (G.inpKey d).2 (hb.elim (fun h => .inr (h.2 ▸ B.func)) fun h => .inl h.2)
  have hadd := addEdge_new (allow := allow) hs hd he
  have ed : ∀ a b k, HasEdge { f with out := adjAdd f.out s l d, inp := adjAdd f.inp d l s } a b k ↔ f.HasEdge a b k ∨ (a = s ∧ b = d ∧ k = l) := by
    intro a b k
    rw [HasEdge, inAdj_add]
    simp only [eq_comm]
    constructor
    · rintro (h | ⟨h1, h2, h3⟩)
      · exact .inl h
      · exact .inr ⟨h1, h3, h2⟩
    · rintro (h | ⟨h1, h2, h3⟩)
      · exact .inl h
      · exact .inr ⟨h1, h3, h2⟩
  have ev : ∀ m, f.IsVar m → m ≠ n := fun m hm e => G.disj m hm (e ▸ B.func)
  refine ⟨_, hadd, ⟨?_, ?_, ?_, B.func, ?_, ?_, ?_⟩, rfl, rfl, ed⟩
  · refine wf_addEdge B.wf hadd ?_
    rcases hb with ⟨h1, rfl⟩ | ⟨rfl, h2⟩
    · exact .inl ⟨h1, B.func, hn⟩
    · exact .inr ⟨B.func, h2, hn⟩
  · exact ⟨B.names.apart, B.names.op, B.names.arg, B.names.func, B.names.var⟩
  · intro a m k h c hE hm hc hop
    rcases (ed a m k).1 hE with hE | ⟨rfl, rfl, rfl⟩
    · exact B.labels a m k h c hE hm hc hop
    · rcases hb with ⟨_, e⟩ | ⟨_, hm'⟩
      · exact absurd (show f.HasCall n h from e ▸ hm) (hn h)
      · exact absurd (InSet.key hm) (G.disj _ hm')
  · intro k hk
    rcases hasLabel_add.1 hk with hk | ⟨rfl, rfl⟩
    · obtain ⟨w, hw⟩ := B.ins k hk
      exact ⟨w, inAdj_add.2 (.inl hw)⟩
    · exact ⟨s, inAdj_add.2 (.inr ⟨rfl, rfl, rfl⟩)⟩
  · intro k hk
    rcases hasLabel_add.1 hk with hk | ⟨rfl, rfl⟩
    · obtain ⟨w, hw⟩ := B.outs k hk
      exact ⟨w, inAdj_add.2 (.inl hw)⟩
    · exact ⟨d, inAdj_add.2 (.inr ⟨rfl, rfl, rfl⟩)⟩
  · intro ho a k hE
    rcases (ed a n k).1 hE with hE | ⟨rfl, rfl, rfl⟩
    · exact B.lab ho a k hE
    · exact hl ho

/-- A new edge at a function without calls. -/
theorem Building.join {op n v l : String} (B : Building R F V op n f) (hv : f.IsVar v) (hn : ∀ h, ¬ f.HasCall n h) {dir : Side}
    (he : ¬ Joined f dir v n l) (hl : op = makeListName → isElt l = false) (allow : Bool) :
    ∃ g, f.joinEdge dir v n l allow = .ok g ∧ Building R F V op n g ∧ g.vs = f.vs ∧ g.fs = f.fs ∧
      (∀ w l', Joined g dir w n l' ↔ Joined f dir w n l' ∨ (w = v ∧ l' = l)) ∧ ∀ w l', Joined g dir.flip w n l' ↔ Joined f dir.flip w n l' := by
  have hne : n ≠ v := by rintro rfl; exact B.wf.graph.disj _ hv B.func
  cases dir with
  | back =>
    obtain ⟨g, h1, h2, h3, h4, h5⟩ := B.edge (.inr ⟨rfl, hv⟩) hn he hl allow
    exact ⟨g, h1, h2, h3, h4, fun w l' => by unfold Joined; simp only [h5]; simp, fun w l' => by unfold Joined Side.flip; simp only [h5]; simp [hne]⟩
  | forward =>
    obtain ⟨g, h1, h2, h3, h4, h5⟩ := B.edge (.inl ⟨hv, rfl⟩) hn he hl allow
    exact ⟨g, h1, h2, h3, h4, fun w l' => by unfold Joined; simp only [h5]; simp, fun w l' => by unfold Joined Side.flip; simp only [h5]; simp [hne]⟩

/-- The edges on the side to glue. -/
theorem Building.glue {op n : String} {dir : Side} {allow : Bool} : ∀ {xs done : List (String × String)} {f : CFrame}, Building R F V op n f → (∀ h, ¬ f.HasCall n h) →
    (done ++ xs).Nodup → (∀ lv ∈ xs, f.IsVar lv.2 ∧ (op = makeListName → isElt lv.1 = false)) → (∀ v l, Joined f dir v n l → (l, v) ∈ done) →
    ∃ g, xs.foldlM (fun f lv => f.joinEdge dir lv.2 n lv.1 allow) f = .ok g ∧ Building R F V op n g ∧ (∀ h, ¬ g.HasCall n h) ∧ g.vs = f.vs ∧
      ∀ v l, Joined g dir v n l → (l, v) ∈ done ++ xs := by
  intro xs
  induction xs with
  | nil => intro done f B hn _ _ hj; exact ⟨f, rfl, B, hn, rfl, by simpa using hj⟩
  | cons x xs ih =>
    intro done f B hn hd hv hj
    have hx : ¬ Joined f dir x.2 n x.1 := by
      intro h
      rw [List.nodup_append] at hd
      exact hd.2.2 x (hj _ _ h) x (by simp) rfl
    obtain ⟨g, h1, h2, h3, h4, h5, -⟩ := B.join (hv x (by simp)).1 hn hx (hv x (by simp)).2 allow
    obtain ⟨k, k1, k2, k3, k4, k5⟩ := ih (done := done ++ [x]) h2 (by unfold HasCall; rw [h4]; exact hn) (by simpa using hd)
      (fun lv hlv => by unfold IsVar; rw [h3]; exact hv lv (by simp [hlv])) (fun v l h => by
        rcases (h5 v l).1 h with h | ⟨rfl, rfl⟩
        · exact List.mem_append_left _ (hj v l h)
        · simp)
    refine ⟨k, ?_, k2, k3, k4.trans h3, by simpa using k5⟩
    rw [List.foldlM_cons, h1]
    exact k1

/-- The variables on the other side. -/
theorem Building.dual {op n : String} {dir : Side} {cs : List FCall} {existing : List String} : ∀ {ls : List String} {f : CFrame}, Building R F V op n f →
    (∀ h, ¬ f.HasCall n h) → (∀ l ∈ ls, ∃ c p, R c ∧ c.op = op ∧ (p ∈ c.inputs ∨ p ∈ c.outputs) ∧ l = nameProj c.op p.1) →
    ∃ g, ls.foldlM (dualVar dir false n cs existing) f = .ok g ∧ Building R F V op n g ∧ (∀ h, ¬ g.HasCall n h) ∧ (∀ v h, g.HasRef v h ↔ f.HasRef v h) ∧
      (∀ v l, Joined g dir v n l ↔ Joined f dir v n l) ∧ (∀ v l, Joined f dir.flip v n l → Joined g dir.flip v n l) ∧
      ∀ l ∈ ls, l ∈ existing ∨ ∃ v, Joined g dir.flip v n l := by
  intro ls
  induction ls with
  | nil => intro f B hn _; exact ⟨f, rfl, B, hn, fun _ _ => Iff.rfl, fun _ _ => Iff.rfl, fun _ _ h => h, by simp⟩
  | cons l ls ih =>
    intro f B hn hl
    have step : ∃ g, dualVar dir false n cs existing f l = .ok g ∧ Building R F V op n g ∧ (∀ h, ¬ g.HasCall n h) ∧ (∀ v h, g.HasRef v h ↔ f.HasRef v h) ∧
        (∀ v l, Joined g dir v n l ↔ Joined f dir v n l) ∧ (∀ v l, Joined f dir.flip v n l → Joined g dir.flip v n l) ∧ (l ∈ existing ∨ ∃ v, Joined g dir.flip v n l) := by
      unfold dualVar
      split
      · rename_i hle
        exact ⟨f, rfl, B, hn, fun _ _ => Iff.rfl, fun _ _ => Iff.rfl, fun _ _ h => h, .inl hle⟩
      · obtain ⟨c, p, hc, ho, hp, rfl⟩ := hl l (by simp)
        obtain ⟨v, h1, h2, h3⟩ := B.ready.fresh_var hc hp
        have B' := B.addVar h2 h3
        have hv : (f.addVar v).IsVar v := Dict.mem_keys_set.2 (.inl rfl)
        have he : ¬ Joined (f.addVar v) dir.flip v n (nameProj c.op p.1) := by
          cases dir
          · exact fun h => B.wf.not_node_out h2 ((hasEdge_addVar B.wf h2).1 h)
          · exact fun h => B.wf.not_node_inp h2 ((B.wf.graph.sym _ _ _).1 ((hasEdge_addVar B.wf h2).1 h))
        obtain ⟨g, g1, g2, g3, g4, g5, g6⟩ := B'.join hv hn he (fun e => by rw [ho, e]; exact isElt_nameProj _) false
        refine ⟨g, ?_, g2, by unfold HasCall; rw [g4]; exact hn, fun w h => by unfold HasRef; rw [g3]; exact hasRef_addVar h2, fun w l => ?_,
          fun w l h => (g5 w l).2 (.inl (by cases dir <;> exact (hasEdge_addVar B.wf h2).2 h)), .inr ⟨v, (g5 _ _).2 (.inr ⟨rfl, rfl⟩)⟩⟩
        rotate_left
        · rw [flip_flip] at g6
          rw [g6]
          cases dir <;> exact hasEdge_addVar B.wf h2
        simp only [h1, ended, bind, Except.bind]
        exact g1
    obtain ⟨g, g1, g2, g3, g4, g5, g6, g7⟩ := step
    obtain ⟨k, k1, k2, k3, k4, k5, k6, k7⟩ := ih g2 g3 (fun l' h' => hl l' (by simp [h']))
    refine ⟨k, ?_, k2, k3, fun v h => (k4 v h).trans (g4 v h), fun v l => (k5 v l).trans (g5 v l), fun v l h => k6 v l (g6 v l h), fun l' h' => ?_⟩
    · rw [List.foldlM_cons, g1]
      exact k1
    · rcases List.mem_cons.1 h' with rfl | h'
      · exact g7.imp_right fun ⟨v, hv⟩ => ⟨v, k6 v _ hv⟩
      · exact k7 l' h'

theorem Building.call (hR : RecOk R) {op n : String} {c : FCall} (B : Building R F V op n f) (hc : R c) (ho : c.op = op) (hn : ¬ f.HasCall n c.hid) (allow : Bool) :
    ∃ g, f.addCall n c true allow = .ok g ∧ Building R F V op n g ∧ (∀ h, g.HasCall n h ↔ f.HasCall n h ∨ h = c.hid) ∧
      (∀ dir v l, Joined g dir v n l ↔ Joined f dir v n l) ∧
      ∀ v h, g.HasRef v h → f.HasRef v h ∨ ∃ dir, ∃ p ∈ ioRefs dir c, Joined f dir v n (nameProj c.op p.1) ∧ p.2.hid = h := by
  obtain ⟨s, hs⟩ := Dict.mem_keys.1 B.func
  have hn' : c.hid ∉ s := fun h => hn ⟨s, hs, h⟩
  obtain ⟨g, hg⟩ := addCall_total B.wf hs hn' allow
  have h' : f.addCall n c true true = .ok g ∨ f.addCall n c true false = .ok g := by
    cases allow
    · exact .inr hg
    · exact .inl hg
  have A := (addCall_spec B.wf hc hs hn' h').1
  have W := wf_addCall hR B.wf hc hg (fun p _ h => B.ins _ h) (fun p _ h => B.outs _ h)
  refine ⟨g, hg, ⟨W, ?_, ?_, (A.fkeys n).2 B.func, ?_, ?_, ?_⟩, fun h => by rw [A.fs]; simp, ?_, ?_⟩
  · exact (B.ready.congr W.base (fun w hw => (A.vkeys w).1 hw) (fun w hw => (A.fkeys w).1 hw)).names
  · intro s m l h c' hE hm hc' hop
    unfold HasEdge at hE
    rw [A.out] at hE
    rw [A.calls] at hc'
    by_cases e : c.hid = h
    · rw [if_pos e] at hc'
      cases hc'
      subst e
      rcases (A.fs m c.hid).1 hm with hm | ⟨rfl, _⟩
      · obtain ⟨c2, h1, h2, h3⟩ := B.wf.get_call hm
        exact B.labels s m l _ c2 hE hm h1 (by rw [hR.hid c2 c h3 hc h2]; exact hop)
      · exact B.lab (ho ▸ hop) s l hE
    · rw [if_neg e] at hc'
      rcases (A.fs m h).1 hm with hm | ⟨_, e'⟩
      · exact B.labels s m l h c' hE hm hc' hop
      · exact absurd e'.symm e
  · rw [A.inp]; exact B.ins
  · rw [A.out]; exact B.outs
  · unfold HasEdge; rw [A.out]; exact B.lab
  · intro dir v l
    cases dir <;> (unfold Joined HasEdge; simp only [A.out])
  · intro v h hh
    rcases (A.vs v h).1 hh with hh | ⟨p, hp, hE, rfl⟩ | ⟨p, hp, hE, rfl⟩
    · exact .inl hh
    · exact .inr ⟨.forward, p, hp, (B.wf.graph.sym _ _ _).2 hE, rfl⟩
    · exact .inr ⟨.back, p, hp, hE, rfl⟩

theorem Building.calls (hR : RecOk R) {op n : String} {allow : Bool} : ∀ {cs : List FCall} {f : CFrame}, Building R F V op n f → (∀ c ∈ cs, R c ∧ c.op = op) →
    (∀ c ∈ cs, ¬ f.HasCall n c.hid) → (cs.map (·.hid)).Nodup →
    ∃ g, cs.foldlM (fun f c => f.addCall n c true allow) f = .ok g ∧ Building R F V op n g ∧ (∀ dir v l, Joined g dir v n l ↔ Joined f dir v n l) ∧
      (∀ c ∈ cs, g.HasCall n c.hid) ∧ (∀ h, f.HasCall n h → g.HasCall n h) ∧
      ∀ v h, g.HasRef v h → f.HasRef v h ∨ ∃ c ∈ cs, ∃ dir, ∃ p ∈ ioRefs dir c, Joined f dir v n (nameProj c.op p.1) ∧ p.2.hid = h := by
  intro cs
  induction cs with
  | nil => intro f B _ _ _; exact ⟨f, rfl, B, fun _ _ _ => Iff.rfl, by simp, fun _ h => h, fun _ _ h => .inl h⟩
  | cons c cs ih =>
    intro f B hc hn hd
    rw [List.map_cons, List.nodup_cons] at hd
    obtain ⟨g, g1, g2, g3, g4, g5⟩ := B.call hR (hc c (by simp)).1 (hc c (by simp)).2 (hn c (by simp)) allow
    obtain ⟨k, k1, k2, k3, k4, k5, k6⟩ := ih g2 (fun c' h => hc c' (by simp [h])) (fun c' h hh => by
      rcases (g3 _).1 hh with hh | e
      · exact hn c' (by simp [h]) hh
      · exact hd.1 (List.mem_map.2 ⟨c', h, e⟩)) hd.2
    refine ⟨k, ?_, k2, fun dir v l => (k3 dir v l).trans (g4 dir v l), ?_, fun h hh => k5 h ((g3 h).2 (.inl hh)), ?_⟩
    · rw [List.foldlM_cons, g1]
      exact k1
    · intro c' hc'
      rcases List.mem_cons.1 hc' with rfl | hc'
      · exact k5 _ ((g3 _).2 (.inr rfl))
      · exact k4 c' hc'
    · intro v h hh
      rcases k6 v h hh with hh | ⟨c', hc', dir, p, hp, hj, e⟩
      · rcases g5 v h hh with hh | ⟨dir, p, hp, hj, e⟩
        · exact .inl hh
        · exact .inr ⟨c, by simp, dir, p, hp, hj, e⟩
      · exact .inr ⟨c', by simp [hc'], dir, p, hp, (g4 _ _ _).1 hj, e⟩

/-- The conditions under which expanding without reuse works. -/
structure Sound (R : FCall → Prop) (F V : String → Prop) (f : CFrame) : Prop where
  wf : Wf R f
  names : NamesApart R F V f
  labels : LabelsOk f

theorem Sound.ready (H : Sound R F V f) : Ready R F V f := ⟨H.wf.base, H.names⟩

theorem expandGroup_fresh (hR : RecOk R) (H : Sound R F V f) {dir : Side} {k : GroupId × List FCall} (hne : k.2 ≠ []) (hc : ∀ c ∈ k.2, R c ∧ c.op = k.1.1)
    (hd : (k.2.map (·.hid)).Nodup) (hp : (k.1.2.flatMap fun lv => lv.2.map fun v => (lv.1, v)).Nodup)
    (hv : ∀ lv ∈ k.1.2, ∀ v ∈ lv.2, f.IsVar v ∧ ∃ x, lv.1 = nameProj k.1.1 x)
    (hfound : ∀ c ∈ k.2, ∀ p ∈ ioRefs dir c, ∀ lv ∈ k.1.2, lv.1 = nameProj c.op p.1 → ∀ v ∈ lv.2, f.HasRef v p.2.hid) :
    ∃ g, expandGroup dir false f k = .ok g ∧ Sound R F V g ∧ (∀ v h, g.HasRef v h → f.HasRef v h ∨ ∃ n, ∃ c ∈ k.2, Attached g dir.flip v h n c) ∧
      ∀ c ∈ k.2, ∀ p ∈ ioRefs dir.flip c, ∃ n v, Attached g dir.flip v p.2.hid n c ∧ g.HasRef v p.2.hid := by
  obtain ⟨c0, hc0⟩ := List.exists_mem_of_ne_nil _ hne
  obtain ⟨n, n1, n2, n3⟩ := H.ready.fresh_func (hc c0 hc0).1
  rw [(hc c0 hc0).2] at n1
  have hn' : ¬ f.IsVar n ∧ ¬ f.IsFunc n := by rw [mem_nodes] at n2; exact not_or.1 n2
  have B0 : Building R F V k.1.1 n (f.addFunc n) := .start H.wf H.names H.labels n2 n3
  have hs : ∀ {a m}, InSet (f.fs.set n []) a m ↔ InSet f.fs a m := inSet_set_nil fun _ => not_inSet_of_key hn'.2
  have ho : ∀ {a l m}, InAdj (f.out.set n []) a l m ↔ InAdj f.out a l m := inAdj_set_nil fun _ _ => H.wf.not_node_out n2
  have nc0 : ∀ h, ¬ (f.addFunc n).HasCall n h := fun h hh => hn'.2 (hs.1 hh).key
  have nj : ∀ v l, ¬ Joined (f.addFunc n) dir v n l := by
    intro v l h
    cases dir with
    | back => exact H.wf.not_node_out n2 (ho.1 h)
    | forward => exact H.wf.not_node_inp n2 ((H.wf.graph.sym _ _ _).1 (ho.1 h))
  obtain ⟨f1, a1, a2, a3, a4, a5⟩ := B0.glue (allow := false) (dir := dir) (done := []) nc0 (by simpa using hp) (by
    intro lv hlv
    obtain ⟨lvs, hlvs, hlv⟩ := List.mem_flatMap.1 hlv
    obtain ⟨v, hv', rfl⟩ := List.mem_map.1 hlv
    obtain ⟨b1, x, b2⟩ := hv lvs hlvs v hv'
    exact ⟨b1, fun e => by simp only; rw [b2, e]; exact isElt_nameProj _⟩) (fun v l h => absurd h (nj v l))
  have hside : ∃ side, getE (f1.sideOf dir.flip) n = .ok side := by
    cases dir
    · obtain ⟨i, hi⟩ := Dict.mem_keys.1 ((a2.wf.graph.inpKey n).2 (.inr a2.func))
      exact ⟨i, getE_ok.2 hi⟩
    · obtain ⟨i, hi⟩ := Dict.mem_keys.1 ((a2.wf.graph.outKey n).2 (.inr a2.func))
      exact ⟨i, getE_ok.2 hi⟩
  obtain ⟨side, hside⟩ := hside
  obtain ⟨f2, b1, b2, b3, b4, b5, b6, b7⟩ := a2.dual (dir := dir) (cs := k.2) (existing := Dict.keys side) a3 (ls := sideLabels dir.flip k.2) (by
    intro l hl
    obtain ⟨c, p, ⟨h1, h2⟩, h3, h4⟩ := sideLabels_spec (R := fun c => R c ∧ c.op = k.1.1) hc hl
    exact ⟨c, p, h1, h2, h3, h4⟩)
  obtain ⟨g, g1, g2, g3, g4, -, g6⟩ := b2.calls hR (allow := false) hc (fun c _ => b3 c.hid) hd
  have hobj : ∀ c ∈ k.2, g.calls.get? c.hid = some c := by
    intro c hcs
    obtain ⟨c2, h1, h2, h3⟩ := g2.wf.get_call (g4 c hcs)
    rw [hR.hid c2 c h3 (hc c hcs).1 h2] at h1
    exact h1
  have hlab : ∀ l ∈ sideLabels dir.flip k.2, ∃ v, Joined f2 dir.flip v n l := by
    intro l hl
    rcases b7 l hl with h | h
    · cases dir with
      | back =>
        obtain ⟨v, hv⟩ := a2.ins l ⟨side, getE_ok.1 hside, h⟩
        exact ⟨v, b6 v l ((a2.wf.graph.sym _ _ _).2 hv)⟩
      | forward =>
        obtain ⟨v, hv⟩ := a2.outs l ⟨side, getE_ok.1 hside, h⟩
        exact ⟨v, b6 v l hv⟩
    · exact h
  refine ⟨g, ?_, ⟨g2.wf, g2.names, g2.labels⟩, ?_, ?_⟩
  · unfold expandGroup groupFunc lookFunc
    simp only [n1, ended, bind, Except.bind, a1, hside, b1, g1, Bool.false_eq_true, if_false]
  · have old : ∀ v h, f2.HasRef v h → f.HasRef v h := by
      intro v h hh
      have := (b4 v h).1 hh
      unfold HasRef at this
      rw [a4] at this
      exact this
    intro v h hh
    rcases g6 v h hh with hh | ⟨c, hcs, dir', p, hp, hj, e⟩
    · exact .inl (old v h hh)
    · by_cases ed : dir' = dir
      · subst ed
        have := a5 v _ ((b5 v _).1 hj)
        rw [List.nil_append] at this
        obtain ⟨lv, hlv, this⟩ := List.mem_flatMap.1 this
        obtain ⟨w, hw, e'⟩ := List.mem_map.1 this
        obtain ⟨e1, rfl⟩ := Prod.mk.inj e'
        exact .inl (e ▸ hfound c hcs p hp lv hlv e1 w hw)
      · have ed' : dir' = dir.flip := by cases dir <;> cases dir' <;> first | rfl | exact absurd rfl ed
        subst ed'
        have hn := g4 c hcs
        obtain ⟨c2, h1, h2, h3⟩ := g2.wf.get_call hn
        rw [hR.hid c2 c h3 (hc c hcs).1 h2] at h1
        exact .inr ⟨n, c, hcs, hn, h1, p, hp, e, (g3 _ _ _).2 hj⟩
  · intro c hcs p hp
    obtain ⟨v, hv⟩ := hlab (nameProj c.op p.1) (mem_sideLabels.2 ⟨c, hcs, p, hp, rfl⟩)
    have hv' := (g3 dir.flip v _).2 hv
    refine ⟨n, v, ⟨g4 c hcs, hobj c hcs, p, hp, rfl, hv'⟩, ?_⟩
    cases dir with
    | back => exact (g2.wf.ins n c p v hp ⟨g4 c hcs, hobj c hcs, (g2.wf.graph.sym _ _ _).1 hv'⟩).1
    | forward => exact (g2.wf.outs n c p v hp ⟨g4 c hcs, hobj c hcs, hv'⟩).1

/-! ### one round -/

theorem apart_unique {dir : Side} {c : FCall} (h : Apart dir c) {p q : String × FRef} (hp : p ∈ ioRefs dir c) (hq : q ∈ ioRefs dir c)
    (e : nameProj c.op p.1 = nameProj c.op q.1) : p = q := List.inj_on_of_nodup_map h hp hq e

theorem Grows.attached (hR : RecOk R) (hg : Wf R g) (hf : Wf R f) (h : Grows S f g) {dir : Side} {v x n : String} {c : FCall} (ha : Attached f dir v x n c) :
    Attached g dir v x n c := by
  obtain ⟨h1, h2, p, h3, h4, h5⟩ := ha
  have hn := h.call _ _ h1
  obtain ⟨c2, b1, b2, b3⟩ := hg.get_call hn
  rw [hR.hid c2 c b3 (hf.call.callOk _ _ h2).2 b2] at b1
  exact ⟨hn, b1, p, h3, h4, h.joined h5⟩

theorem Unattached.of_grows (hR : RecOk R) (hg : Wf R g) (hf : Wf R f) (h : Grows S f g) {dir : Side} {v x : String} (ho : Unattached g dir v x)
    (hr : f.HasRef v x) : Unattached f dir v x := ⟨hr, fun n c ha => ho.2 n c (h.attached hR hg hf ha)⟩

/-- What `get_source_elts` and `get_sink_elts` find in a variable. -/
theorem endElts_unattached (hR : RecOk R) (H : Wf R f) (L : LabelsOk f) (dir : Side) :
    ∃ ends, f.endElts dir.flip = .ok ends ∧ (∀ n, n ∈ ends.keys ↔ n ∈ f.nodes) ∧ ∀ v x, f.IsVar v → (InSet ends v x ↔ Unattached f dir v x) := by
  obtain ⟨ends, h1, h2, h3⟩ := endElts_spec hR H L dir.flip
  refine ⟨ends, h1, h2, fun v x hv => ?_⟩
  rw [h3]
  have hnc : ∀ x, ¬ f.HasCall v x := fun x h => H.graph.disj v hv h.key
  constructor
  · rintro ⟨hr, hno⟩
    have hr : f.HasRef v x := hr.resolve_right (hnc x)
    refine ⟨hr, fun n c ⟨a1, a2, p, a3, a4, a5⟩ => hno ⟨n, c.hid, .inr a1, nameProj c.op p.1, ?_⟩⟩
    cases dir
    · exact ⟨a5, .inr ⟨a1.key, hr, c, a2, p, a3, rfl, a4⟩⟩
    · exact ⟨a5, .inr ⟨a1.key, hr, c, a2, p, a3, rfl, a4⟩⟩
  · rintro ⟨hr, hno⟩
    refine ⟨.inl hr, ?_⟩
    rintro ⟨a, y, hay, l, hj, hl⟩
    cases dir
    · rcases hl with ⟨_, h, _⟩ | ⟨h1, _, c, h2, p, h3, rfl, h4⟩
      · exact hnc _ h
      · have hc := (H.call.callOk _ _ h2).1
        subst hc
        have ha : f.HasCall a c.hid := hay.resolve_left fun h => H.graph.disj a h.key h1
        exact hno a c ⟨ha, h2, p, h3, h4, hj⟩
    · rcases hl with ⟨_, h, _⟩ | ⟨h1, _, c, h2, p, h3, rfl, h4⟩
      · exact hnc _ h
      · have hc := (H.call.callOk _ _ h2).1
        subst hc
        have ha : f.HasCall a c.hid := hay.resolve_left fun h => H.graph.disj a h.key h1
        exact hno a c ⟨ha, h2, p, h3, h4, hj⟩

theorem hids_nodup (hR : RecOk R) {cs : List FCall} (hc : ∀ c ∈ cs, R c) (h : cs.Nodup) : (cs.map (·.hid)).Nodup :=
  List.Nodup.map_on (fun _ hx _ hy e => hR.hid _ _ (hc _ hx) (hc _ hy) e) h

theorem expandGroups_fresh (hR : RecOk R) {dir : Side} {varnames : List String} {calls : List FCall} {f0 : CFrame}
    (hrec : ∀ c ∈ calls, R c) (hap : ∀ c ∈ calls, Apart dir c) (hd : calls.Nodup) (hv : ∀ v ∈ varnames, f0.IsVar v)
    {gs0 : List (GroupId × List FCall)} (G : Groups f0 dir varnames calls gs0) :
    ∀ {gs : List (GroupId × List FCall)} {f : CFrame}, (∀ k ∈ gs, k ∈ gs0) → Sound R F V f → Grows (· ∈ calls) f0 f →
      (∀ v h, f.HasRef v h → f0.HasRef v h ∨ ∃ n, ∃ c ∈ calls, Attached f dir.flip v h n c) →
      ∃ g, gs.foldlM (expandGroup dir false) f = .ok g ∧ Sound R F V g ∧ Grows (· ∈ calls) f g ∧
        (∀ v h, g.HasRef v h → f0.HasRef v h ∨ ∃ n, ∃ c ∈ calls, Attached g dir.flip v h n c) ∧
        ∀ k ∈ gs, ∀ c ∈ k.2, ∀ p ∈ ioRefs dir.flip c, ∃ n v, Attached g dir.flip v p.2.hid n c ∧ g.HasRef v p.2.hid := by
  intro gs
  induction gs with
  | nil => intro f _ H _ hr; exact ⟨f, rfl, H, .refl, hr, by simp⟩
  | cons k gs ih =>
    intro f hgs H hG hr
    have hk := hgs k (by simp)
    have hsub := G.sub k hk
    have hvar : ∀ lv ∈ k.1.2, ∀ v ∈ lv.2, f.IsVar v := fun lv hlv v hv' => hG.var v (hv v (G.var k hk lv hlv v hv').1)
    obtain ⟨c0, hc0, ho0⟩ := G.op k hk
    obtain ⟨g, g1, g2, g3, g4⟩ := expandGroup_fresh hR H (dir := dir) (k := k) (List.ne_nil_of_mem hc0)
      (fun c hc => ⟨hrec c (hsub.subset hc), (G.same k hk c hc).symm⟩) (hids_nodup hR (fun c hc => hrec c (hsub.subset hc)) (hd.sublist hsub)) (G.pairs k hk)
      (fun lv hlv v hv' => by
        obtain ⟨p, _, e, _⟩ := (G.var k hk lv hlv v hv').2 c0 hc0
        exact ⟨hvar lv hlv v hv', p.1, by rw [e, ho0]⟩)
      (fun c hc p hp lv hlv e v hv' => by
        obtain ⟨q, hq, e', h⟩ := (G.var k hk lv hlv v hv').2 c hc
        rw [apart_unique (hap c (hsub.subset hc)) hp hq (e.symm.trans e')]
        exact hG.ref _ _ h)
    obtain ⟨-, hG', -⟩ := expandGroup_ok (S := (· ∈ calls)) H.ready (G.op k hk) (fun c hc => hrec c (hsub.subset hc)) (fun c hc => hsub.subset hc) hvar g1
    obtain ⟨g', h1, h2, h5, h3, h4⟩ := ih (fun k' h => hgs k' (by simp [h])) g2 (hG.trans hG') (fun v h hh => by
      rcases g3 v h hh with hh | ⟨n, c, hc, ha⟩
      · rcases hr v h hh with hh | ⟨n, c, hc, ha⟩
        · exact .inl hh
        · exact .inr ⟨n, c, hc, hG'.attached hR g2.wf H.wf ha⟩
      · exact .inr ⟨n, c, hsub.subset hc, ha⟩)
    refine ⟨g', ?_, h2, hG'.trans h5, h3, fun k' hk' c hc p hp => ?_⟩
    · rw [List.foldlM_cons, g1]
      exact h1
    · rcases List.mem_cons.1 hk' with rfl | hk'
      · obtain ⟨n, v, b1, b2⟩ := g4 c hc p hp
        exact ⟨n, v, h5.attached hR h2.wf g2.wf b1, h5.ref _ _ b2⟩
      · exact h4 k' hk' c hc p hp

/-- What one round without reuse does, with all calls considered. -/
structure Round (rec : List FCall) (dir : Side) (varnames : List String) (f g : CFrame) : Prop where
  grows : Grows (· ∈ rec) f g
  attached : ∀ v ∈ varnames, ∀ x, Unattached f dir v x → ∀ c ∈ rec, Touches dir c x → ∃ n, n ∉ f.nodes ∧ Attached g dir v x n c
  newRef : ∀ v x, g.HasRef v x → f.HasRef v x ∨ ∃ n, ∃ c ∈ rec, Attached g dir.flip v x n c ∧ ∃ w ∈ varnames, ∃ y, Unattached f dir w y ∧ Touches dir c y
  idle : (∀ v ∈ varnames, ∀ x, Unattached f dir v x → ∀ c ∈ rec, ¬ Touches dir c x) → g = f
  newCall : ∀ n h, g.HasCall n h → f.HasCall n h ∨ ∃ c ∈ rec, c.hid = h ∧ ∃ w ∈ varnames, ∃ y, Unattached f dir w y ∧ Touches dir c y
  dual : ∀ c ∈ rec, (∃ w ∈ varnames, ∃ y, Unattached f dir w y ∧ Touches dir c y) → ∀ p ∈ ioRefs dir.flip c,
    ∃ n v, Attached g dir.flip v p.2.hid n c ∧ g.HasRef v p.2.hid

theorem expandOnce_fresh (hR : RecOk R) (H : Sound R F V f) {rec : List FCall} (hrec : ∀ c ∈ rec, R c) (hd : rec.Nodup) {dir : Side} (hap : ∀ c ∈ rec, Apart dir c)
    {varnames : List String} (hv : ∀ v ∈ varnames, f.IsVar v) (hne : varnames ≠ []) :
    ∃ g, f.expandOnce rec dir false false varnames = .ok g ∧ Sound R F V g ∧ Round rec dir varnames f g := by
  obtain ⟨ends, h1, h2, h3⟩ := endElts_unattached hR H.wf H.labels dir
  have hel : ends.filter (fun p => p.1 ∈ varnames) ≠ [] := by
    obtain ⟨v, hv'⟩ := List.exists_mem_of_ne_nil _ hne
    obtain ⟨s, hs⟩ := Dict.mem_keys.1 ((h2 v).2 (mem_nodes.2 (.inl (hv v hv'))))
    exact List.ne_nil_of_mem (List.mem_filter.2 ⟨Dict.mem_of_get? hs, by simpa using hv'⟩)
  have hsel : ∀ c, c ∈ selected rec dir false f (ends.filter fun p => p.1 ∈ varnames) ↔
      c ∈ rec ∧ ∃ v ∈ varnames, ∃ x, Unattached f dir v x ∧ Touches dir c x := by
    intro c
    rw [mem_selected]
    simp only [inSet_filter]
    constructor
    · rintro ⟨hc, ⟨p, hp, v, hv', hin⟩, _⟩
      exact ⟨hc, v, hv', _, (h3 v _ (hv v hv')).1 hin, p, hp, rfl⟩
    · rintro ⟨hc, v, hv', x, hin, p, hp, rfl⟩
      exact ⟨hc, ⟨p, hp, v, hv', (h3 v _ (hv v hv')).2 hin⟩, by simp⟩
  obtain ⟨d, d1, G⟩ := groups_ok H.wf.ref dir varnames (selected rec dir false f (ends.filter fun p => p.1 ∈ varnames))
  have hsub : ∀ c ∈ selected rec dir false f (ends.filter fun p => p.1 ∈ varnames), c ∈ rec := fun c hc => ((hsel c).1 hc).1
  have hrec' : ∀ c ∈ selected rec dir false f (ends.filter fun p => p.1 ∈ varnames), R c := fun c hc => hrec c (hsub c hc)
  obtain ⟨g, g1, g2, g4, g3, g5⟩ := expandGroups_fresh hR hrec' (fun c hc => hap c (hsub c hc))
    (by unfold selected recordedAt; exact hd.sublist List.filter_sublist) hv G (gs := sortGroups d) (fun k h => h) H .refl (fun v h hh => .inl hh)
  obtain ⟨-, a2, a3⟩ := expandGroups_ok (S := (· ∈ rec)) H.ready G hrec' hsub hv g1
  refine ⟨g, ?_, g2, a2, ?_, ?_, ?_, ?_, ?_⟩
  · unfold expandOnce
    unfold selected at d1
    simp only [h1, bind, Except.bind, hel, if_false, Bool.false_eq_true] at d1 ⊢
    simp only [d1, g1]
  · intro v hv' x hx c hc ⟨p, hp, e⟩
    obtain ⟨n, b1, b2, b3⟩ := a3 c ((hsel c).2 ⟨hc, v, hv', x, hx, p, hp, e⟩)
    have hj := b3 (hap c hc) p hp v hv' (e ▸ hx.1)
    obtain ⟨c2, k1, k2, k3⟩ := g2.wf.get_call b1
    rw [hR.hid c2 c k3 (hrec c hc) k2] at k1
    exact ⟨n, b2 rfl, b1, k1, p, hp, e, hj⟩
  · intro v x hx
    rcases g3 v x hx with hx | ⟨n, c, hc, ha⟩
    · exact .inl hx
    · obtain ⟨e1, w, e2, y, e3, e4⟩ := (hsel c).1 hc
      exact .inr ⟨n, c, e1, ha, w, e2, y, e3, e4⟩
  · intro hno
    have : sortGroups d = [] := by
      cases hs : sortGroups d with
      | nil => rfl
      | cons k gs =>
        obtain ⟨c, hc, _⟩ := G.op k (by rw [hs]; simp)
        obtain ⟨e1, w, e2, y, e3, e4⟩ := (hsel c).1 ((G.sub k (by rw [hs]; simp)).subset hc)
        exact absurd e4 (hno w e2 y e3 c e1)
    rw [this] at g1
    cases g1
    rfl
  · intro n h hh
    rcases g4.newCall n h hh with hh | ⟨c, hc, e⟩
    · exact .inl hh
    · obtain ⟨e1, w, e2, y, e3, e4⟩ := (hsel c).1 hc
      exact .inr ⟨c, e1, e, w, e2, y, e3, e4⟩
  · intro c hc hu p hp
    obtain ⟨k, hk, hck⟩ := G.all c ((hsel c).2 ⟨hc, hu⟩)
    exact g5 k hk c hck p hp

/-! ### the loops -/

/-- Every value is attached to a call that created (uses) it, unless none is recorded. -/
def Complete (rec : List FCall) (dir : Side) (f : CFrame) : Prop := ∀ v x, Unattached f dir v x → ∀ c ∈ rec, ¬ Touches dir c x

theorem nodes_lt (h : Grows S f g) {n : String} (hn : n ∉ f.nodes) (hn' : n ∈ g.nodes) : setLen f.nodes < setLen g.nodes := by
  have hd : (n :: PySet.ofList f.nodes).Nodup := List.nodup_cons.2 ⟨fun h' => hn (PySet.mem_ofList.1 h'), PySet.nodup_ofList _⟩
  have := (List.Nodup.subperm hd (l₂ := PySet.ofList g.nodes) (by
    intro x hx
    rcases List.mem_cons.1 hx with rfl | hx
    · exact PySet.mem_ofList.2 hn'
    · exact PySet.mem_ofList.2 (h.node (PySet.mem_ofList.1 hx)))).length_le
  rw [List.length_cons] at this
  exact this

theorem vars_ne (h : Grows S f g) (hne : f.vs.keys ≠ []) : g.vs.keys ≠ [] := by
  obtain ⟨v, hv⟩ := List.exists_mem_of_ne_nil _ hne
  exact List.ne_nil_of_mem (h.var v hv)

theorem Round.complete {rec : List FCall} {dir : Side} (hR : RecOk R) (hf : Wf R f) (hg : Wf R g) (h : Round rec dir f.vs.keys f g) (hc : Complete rec dir.flip f) :
    Complete rec dir.flip g := by
  intro v x hu c hc' ht
  rcases h.newRef v x hu.1 with hr | ⟨n, c2, _, ha, _⟩
  · exact hc v x (hu.of_grows hR hg hf h.grows hr) c hc' ht
  · exact hu.2 n c2 ha

theorem expandAllVars_idle (hR : RecOk R) (H : Sound R F V f) {rec : List FCall} (hrec : ∀ c ∈ rec, R c) (hd : rec.Nodup) {dir : Side} (hap : ∀ c ∈ rec, Apart dir c)
    (hne : f.vs.keys ≠ []) (hc : Complete rec dir f) (recursive : Bool) (k : Nat) : f.expandAllVars rec dir false false recursive (k + 1) = .ok f := by
  obtain ⟨g, g1, g2, g3⟩ := expandOnce_fresh hR H hrec hd hap (fun v hv => hv) hne
  have := g3.idle fun v _ x hu c hc' => hc v x hu c hc'
  subst this
  unfold expandAllVars
  simp only [g1, bind, Except.bind, true_or, if_true]

theorem expandAllVars_fresh (hR : RecOk R) {rec : List FCall} (hrec : ∀ c ∈ rec, R c) (hd : rec.Nodup) {dir : Side} (hap : ∀ c ∈ rec, Apart dir c)
    {ht : String → Nat} (hht : ∀ c ∈ rec, ∀ x y, Touches dir c x → Touches dir.flip c y → ht y < ht x) : ∀ {k : Nat} {f : CFrame}, Sound R F V f →
    f.vs.keys ≠ [] → (∀ v x, Unattached f dir v x → ∀ c ∈ rec, Touches dir c x → ht x < k) →
    ∃ g, (∀ j, k + 1 ≤ j → f.expandAllVars rec dir false false true j = .ok g) ∧ Sound R F V g ∧ Grows (· ∈ rec) f g ∧ Complete rec dir g ∧
      (Complete rec dir.flip f → Complete rec dir.flip g) ∧
      ∀ v x, Unattached f dir v x → ∀ c ∈ rec, Touches dir c x → ∃ n, Attached g dir v x n c := by
  intro k
  induction k with
  | zero =>
    intro f H hne hb
    have hc : Complete rec dir f := fun v x hu c hc ht' => by have := hb v x hu c hc ht'; omega
    refine ⟨f, ?_, H, .refl, hc, id, fun v x hu c hc' ht' => absurd ht' (hc v x hu c hc')⟩
    intro j hj
    obtain ⟨j, rfl⟩ := Nat.exists_eq_add_of_le' hj
    exact expandAllVars_idle hR H hrec hd hap hne hc true j
  | succ k ih =>
    intro f H hne hb
    by_cases hc : Complete rec dir f
    · refine ⟨f, ?_, H, .refl, hc, id, fun v x hu c hc' ht' => absurd ht' (hc v x hu c hc')⟩
      intro j hj
      obtain ⟨j, rfl⟩ := Nat.exists_eq_add_of_le' (show 1 ≤ j by omega)
      exact expandAllVars_idle hR H hrec hd hap hne hc true j
    · obtain ⟨g, g1, g2, g3⟩ := expandOnce_fresh hR H hrec hd hap (fun v hv => hv) hne
      have hlt : setLen f.nodes < setLen g.nodes := by
        simp only [Complete, Classical.not_forall] at hc
        obtain ⟨v, x, hu, c, hc, ht'⟩ := hc
        obtain ⟨n, n1, n2⟩ := g3.attached v hu.1.key x hu c hc (Classical.not_not.1 ht')
        exact nodes_lt g3.grows n1 (mem_nodes.2 (.inr n2.1.key))
      obtain ⟨g', a1, a2, a3, a4, a5, -⟩ := ih g2 (vars_ne g3.grows hne) (by
        intro v x hu c hc ht'
        rcases g3.newRef v x hu.1 with hr | ⟨n, c2, hc2, ha, w, hw, y, hy, hty⟩
        · obtain ⟨n, _, ha⟩ := g3.attached v hr.key x (hu.of_grows hR g2.wf H.wf g3.grows hr) c hc ht'
          exact absurd ha (hu.2 n c)
        · obtain ⟨_, _, p, hp, e, _⟩ := ha
          have h1 := hht c2 hc2 y x hty ⟨p, hp, e⟩
          have h2 := hb w y hy c2 hc2 hty
          omega)
      refine ⟨g', ?_, a2, g3.grows.trans a3, a4, fun h => a5 (g3.complete hR H.wf g2.wf h), fun v x hu c hc' ht' => ?_⟩
      rotate_left
      · obtain ⟨n, _, ha⟩ := g3.attached v hu.1.key x hu c hc' ht'
        exact ⟨n, a3.attached hR a2.wf g2.wf ha⟩
      intro j hj
      obtain ⟨j, rfl⟩ := Nat.exists_eq_add_of_le' (show 1 ≤ j by omega)
      unfold expandAllVars
      have hne' : ¬ (setLen g.nodes = setLen f.nodes ∨ true = false) := by
        rintro (h | h)
        · omega
        · cases h
      simp only [g1, bind, Except.bind, if_neg hne']
      exact a1 j (by omega)

theorem expandAll_fresh (hR : RecOk R) {rec : List FCall} (hrec : ∀ c ∈ rec, R c) (hd : rec.Nodup) (hap : ∀ dir, ∀ c ∈ rec, Apart dir c)
    {hb hf : String → Nat} (hhb : ∀ c ∈ rec, ∀ x y, Touches .back c x → Touches .forward c y → hb y < hb x)
    (hhf : ∀ c ∈ rec, ∀ x y, Touches .forward c x → Touches .back c y → hf y < hf x) {K : Nat}
    (hbb : ∀ c ∈ rec, ∀ x, Touches .back c x → hb x < K) (hfb : ∀ c ∈ rec, ∀ x, Touches .forward c x → hf x < K) (H : Sound R F V f)
    (hne : f.vs.keys ≠ []) : ∃ g, (∀ rounds k size, K + 1 ≤ rounds → 2 ≤ k → f.expandAll rec false false rounds k size = .ok g) ∧ Sound R F V g ∧ Grows (· ∈ rec) f g ∧
      Complete rec .back g ∧ Complete rec .forward g := by
  obtain ⟨f1, a1, a2, a3, a4, -, -⟩ := expandAllVars_fresh hR hrec hd (hap .back) (ht := hb) hhb (k := K) H hne (fun v x _ c hc ht => hbb c hc x ht)
  obtain ⟨f2, b1, b2, b3, b4, b5, -⟩ := expandAllVars_fresh hR hrec hd (hap .forward) (ht := hf) hhf (k := K) a2 (vars_ne a3 hne) (fun v x _ c hc ht => hfb c hc x ht)
  have hc2 : Complete rec .back f2 := b5 a4
  refine ⟨f2, ?_, b2, a3.trans b3, hc2, b4⟩
  intro rounds k size hr hk
  obtain ⟨k, rfl⟩ := Nat.exists_eq_add_of_le' hk
  obtain ⟨r, rfl⟩ := Nat.exists_eq_add_of_le' (show 1 ≤ rounds by omega)
  have hne2 := vars_ne (a3.trans b3) hne
  have i1 := expandAllVars_idle hR b2 hrec hd (hap .back) hne2 hc2 true r
  have i2 := expandAllVars_idle hR b2 hrec hd (hap .forward) hne2 b4 true r
  unfold expandAll
  simp only [a1 _ hr, b1 _ hr, bind, Except.bind]
  split
  · rfl
  · unfold expandAll
    simp only [i1, i2, bind, Except.bind, if_true]

end CFrame
end Verif
