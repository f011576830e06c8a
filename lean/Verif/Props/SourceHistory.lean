import Verif.Proofs.SourceHistory
import Verif.Props.Inspect
/-!
C87: the printed source history is the history.
-/
namespace Verif.Props

open Verif Dag Versioner

section

variable {K C : Type} [DecidableEq K] {hash : C → K}

theorem eq_of_once {α β : Type} {f : α → β} {l : List α} (h : (l.map f).Nodup) {x y : α} (hx : x ∈ l) (hy : y ∈ l) (he : f x = f y) : x = y := by
  induction l with
  | nil => cases hx
  | cons a l ih =>
    rw [List.map_cons, List.nodup_cons] at h
    rcases List.mem_cons.1 hx with hx | hx <;> rcases List.mem_cons.1 hy with hy | hy
    · rw [hx, hy]
    · exact absurd (List.mem_map.2 ⟨y, hy, by rw [← he, hx]⟩) h.1
    · exact absurd (List.mem_map.2 ⟨x, hx, by rw [he, hy]⟩) h.1
    · exact ih h.2 hx hy

/-- The entry shows code with the hash it goes by, and in the compact form a difference to the code of the parent. -/
def ShowsCode (hash : C → K) (d : Dag K C) (compact : Bool) (e : ShownCommit K C) : Prop :=
  match e.body with
  | .code c => hash c = e.commit ∧ (compact = true → d.initialCommit = some e.commit)
  | .diff old new => compact = true ∧ hash new = e.commit ∧ d.Parent e.commit (hash old)

/-- Any history with a current commit. -/
theorem showAll_ok {d : Dag K C} (hd : OK hash d) (hne : d.head ≠ none) {ord : List K → List K} (hord : ∀ l, (ord l).Perm l) (compact ids : Bool) :
    ∃ out, d.showAll ord compact ids = .ok out ∧ (out.map (·.commit)).Perm d.commits.keys ∧ d.IsOutline out ∧
      (∀ e ∈ out, d.Tells compact ids e ∧ ShowsCode hash d compact e) ∧ ∃ e ∈ out, e.head = true ∧ ∀ e' ∈ out, e'.head = true → e' = e := by
  rcases hd with rfl | ⟨h, r, hh, hhk, hi, hg⟩
  · exact absurd rfl hne
  obtain ⟨idx, hidx, hlt⟩ := hg.index
  obtain ⟨e, he, hec, hed, het⟩ := presentation_ok hg hi hh compact ids hg.entries.1 0
  obtain ⟨rest, cs, hr, hcs, hl⟩ := showUnder_ok hg hi hh hord compact ids (fun a b hab => hidx a b ((parent_iff hg).1 hab)) hlt
    (d.commits.length + 1) r 0 hg.entries.1 (by omega)
  have hstar : ∀ x ∈ d.commits.keys, Star d.Parent x r := fun x hx => by
    have hs := hg.toRoot x hx
    revert hs
    generalize r = y
    intro hs
    induction hs with
    | refl => exact .refl
    | tail _ h ih => exact .tail ih ((parent_iff hg).2 h)
  have hroot : ∀ p, ¬ d.Parent r p := fun p hp => by
    obtain ⟨o, h1, h2⟩ := hp
    rcases (hg.entries.2 r o h1).shape with h | ⟨hne, _⟩
    · rw [h.2.1] at h2; cases h2
    · exact hne rfl
  have hall : ∀ x, x ∈ (e :: rest).map (·.commit) ↔ x ∈ d.commits.keys := fun x => by
    rw [List.map_cons, List.mem_cons, hl.all, hec]
    constructor
    · rintro (rfl | ⟨c, hc, hs⟩)
      · exact hg.entries.1
      · rcases hs.head_cases with rfl | ⟨b, h1, _⟩
        · exact ((hcs _).1 hc).key
        · exact h1.key
    · intro hx
      have hs := hstar x hx
      cases hs with
      | refl => exact .inl rfl
      | tail hs h => exact .inr ⟨_, (hcs _).2 h, hs⟩
  have hnd : ((e :: rest).map (·.commit)).Nodup := by
    rw [List.map_cons, List.nodup_cons]
    refine ⟨fun hm => ?_, hl.once⟩
    obtain ⟨c, hc, hs⟩ := (hl.all _).1 hm
    rw [hec] at hs
    rcases hs.head_cases with rfl | ⟨b, h1, _⟩
    · exact hroot _ ((hcs _).1 hc)
    · exact hroot _ h1
  have htell : ∀ x ∈ e :: rest, d.Tells compact ids x := fun x hx => by
    rcases List.mem_cons.1 hx with rfl | hx
    · exact het
    · exact (hl.tells x hx).1
  have hperm : ((e :: rest).map (·.commit)).Perm d.commits.keys := (List.perm_ext_iff_of_nodup hnd hg.nodup).2 hall
  refine ⟨e :: rest, ?_, hperm, ?_, fun x hx => ⟨htell x hx, ?_⟩, ?_⟩
  · unfold showAll
    rw [if_neg hne, hi]
    dsimp only
    rw [he]
    show (d.showUnder ord compact ids (d.commits.length + 1) r 0 >>= fun rest => pure (e :: rest)) = _
    rw [hr]
    rfl
  · intro pre x post hs
    rw [← hed] at hl
    rcases hl.below (fun c hc => hec ▸ (hcs c).1 hc) hs with ⟨h1, rfl⟩ | h1
    · exact .inl ⟨h1, hec ▸ hi, hed⟩
    · exact .inr h1
  · obtain ⟨c, hc, hb⟩ := (htell x hx).body
    have hx' : x.commit ∈ d.commits.keys := (hall _).1 (List.mem_map_of_mem hx)
    have hof : ∀ {k : K} {c : C}, k ∈ d.commits.keys → d.getContent (d.commits.length + 1) k = .ok c → hash c = k := fun {k c} hk hc => by
      obtain ⟨o, ho⟩ := Dict.mem_keys.1 hk
      obtain ⟨c', -, h1, h2⟩ := hg.content d rfl (d.commits.length + 1) (by omega) k o ho
      rw [hc] at h2
      cases h2
      exact h1
    unfold ShowsCode
    rcases hb with ⟨hb, hi'⟩ | ⟨hco, p, pc, hp, hpc, hb⟩
    · rw [hb]
      refine ⟨hof hx' hc, fun ht => ?_⟩
      rcases hi' with h | h
      · rw [ht] at h; cases h
      · exact h
    · rw [hb]
      have hpk : p ∈ d.commits.keys := by
        obtain ⟨o, h1, h2⟩ := hp
        rcases (hg.entries.2 _ o h1).shape with h | ⟨_, q, po, _, h, _, h', _⟩
        · rw [h.2.1] at h2; cases h2
        · rw [h] at h2
          cases h2
          exact Dict.mem_keys.2 ⟨po, h'⟩
      exact ⟨hco, hof hx' hc, (hof hpk hpc).symm ▸ hp⟩
  · have hm := (hall h).2 hhk
    obtain ⟨x, hx, hxh⟩ := List.mem_map.1 hm
    refine ⟨x, hx, (htell x hx).head.2 (hxh ▸ hh), fun y hy hyh => ?_⟩
    have := (htell y hy).head.1 hyh
    rw [hh] at this
    exact eq_of_once hnd hy hx ((Option.some.inj this).symm.trans hxh.symm)

/-- C87: whatever was committed, checked out and synchronised, every commit is printed exactly once, as the outline of the tree of commits, with its own code (in the compact
form: how it differs from the code of its parent), and exactly the current commit is marked. -/
theorem C87_every_commit_printed (hash : C → K) (ops : List (Dag.Step K C)) (hne : (run hash new ops).head ≠ none) {ord : List K → List K} (hord : ∀ l, (ord l).Perm l)
    (compact ids : Bool) :
    ∃ out, (run hash new ops).showAll ord compact ids = .ok out ∧ (out.map (·.commit)).Perm (run hash new ops).commits.keys ∧ (run hash new ops).IsOutline out ∧
      (∀ e ∈ out, (run hash new ops).Tells compact ids e ∧ ShowsCode hash (run hash new ops) compact e) ∧
      ∃ e ∈ out, e.head = true ∧ ∀ e' ∈ out, e'.head = true → e' = e :=
  showAll_ok (reachable_ok hash ops) hne hord compact ids

end

variable {H : Val → String} {compOf : String → DepKey} {ord : List String → List String}

/-- C87: `storage.source_history(f)` prints, for every function executed so far (as an op or as a dependency), all the code it ever had, once each, and rejects any other. -/
theorem C87_source_history (hH : Function.Injective H) (strict : Bool) {evs : List VEvent} (hev : ∀ ev ∈ evs, ev.Legal compOf) (k : DepKey)
    (hord : ∀ l, (ord l).Perm l) (compact ids : Bool) :
    (k ∉ (after H strict evs).versioner.nodes.keys → (after H strict evs).versioner.sourceHistory k ord compact ids = .error .keyError) ∧
    (k ∈ (after H strict evs).versioner.nodes.keys → ∃ d out, (after H strict evs).versioner.dags.get? k = some d ∧
      (after H strict evs).versioner.sourceHistory k ord compact ids = .ok out ∧ (out.map (·.commit)).Perm d.commits.keys ∧ d.IsOutline out ∧
      (∀ e ∈ out, d.Tells compact ids e ∧ ShowsCode (Content.hash H) d compact e) ∧ ∃ e ∈ out, e.head = true ∧ ∀ e' ∈ out, e'.head = true → e' = e) := by
  have hI := (after_inv hH strict hev).inv
  generalize (after H strict evs).versioner = s at *
  unfold sourceHistory
  constructor
  · intro hk
    rw [Dict.get?_eq_none.2 fun h => hk ((hI.keysD k).1 h)]
  · intro hk
    obtain ⟨d, hd⟩ := Dict.mem_keys.1 ((hI.keysD k).2 hk)
    rw [hd]
    obtain ⟨out, h⟩ := showAll_ok (hI.dagOK k d hd) (hI.dagHead k d hd) hord compact ids
    exact ⟨d, out, rfl, h⟩

/-- What is printed of a commit depends only on what is stored of it. -/
theorem told_same {K C : Type} [DecidableEq K] {hash : C → K} {d d' : Dag K C} (hd : OK hash d) (hd' : OK hash d') (hsub : ∀ h o, d.commits.get? h = some o → d'.commits.get? h = some o)
    {compact ids : Bool} {e e' : ShownCommit K C} (he : e'.commit = e.commit) (h : d.Tells compact ids e) (h' : d'.Tells compact ids e') : e'.ids = e.ids ∧ e'.body = e.body := by
  have known : ∀ {d : Dag K C}, OK hash d → ∀ {k o}, d.commits.get? k = some o → ∃ c, contentOf o = some c ∧ d.getContent (d.commits.length + 1) k = .ok c ∧
      (d.initialCommit = some k ↔ o.parents = []) := fun {d} hd {k o} ho => by
    obtain ⟨_, r, _, _, hi, hg⟩ := hd.grown (Dict.mem_keys.2 ⟨o, ho⟩)
    obtain ⟨c, h1, _, h2⟩ := hg.content d rfl (d.commits.length + 1) (by omega) k o ho
    refine ⟨c, h1, h2, ?_⟩
    rw [hi]
    rcases (hg.entries.2 k o ho).shape with ⟨rfl, h, _⟩ | ⟨hne, p, _, _, h, _⟩
    · exact ⟨fun _ => h, fun _ => rfl⟩
    · exact ⟨fun hs => absurd (Option.some.inj hs).symm hne, fun hs => by rw [h] at hs; cases hs⟩
  have same : ∀ {k o}, d.commits.get? k = some o → d'.getContent (d'.commits.length + 1) k = d.getContent (d.commits.length + 1) k := fun ho => by
    obtain ⟨c, h1, h2, _⟩ := known hd ho
    obtain ⟨c', h3, h4, _⟩ := known hd' (hsub _ _ ho)
    rw [h1] at h3
    cases h3
    rw [h2, h4]
  obtain ⟨o, ho, hi⟩ := h.ids
  obtain ⟨o', ho', hi'⟩ := h'.ids
  rw [he, hsub _ _ ho] at ho'
  cases ho'
  refine ⟨by rw [hi, hi', he], ?_⟩
  obtain ⟨c, hc, hb⟩ := h.body
  obtain ⟨c', hc', hb'⟩ := h'.body
  rw [he, same ho, hc] at hc'
  cases hc'
  obtain ⟨_, _, _, hini⟩ := known hd ho
  obtain ⟨_, _, _, hini'⟩ := known hd' (hsub _ _ ho)
  rcases hb with ⟨hb, hw⟩ | ⟨ht, p, pc, ⟨o1, ho1, hp⟩, hpc, hb⟩ <;> rcases hb' with ⟨hb', hw'⟩ | ⟨ht', p', pc', ⟨o2, ho2, hp'⟩, hpc', hb'⟩
  · rw [hb, hb']
  · rw [he, hsub _ _ ho] at ho2
    cases ho2
    rcases hw with h | h
    · rw [ht'] at h; cases h
    · rw [hini.1 h] at hp'; cases hp'
  · rw [ho] at ho1
    cases ho1
    rcases hw' with h | h
    · rw [ht] at h; cases h
    · rw [he] at h
      rw [hini'.1 h] at hp; cases hp
  · rw [ho] at ho1
    cases ho1
    rw [he, hsub _ _ ho] at ho2
    cases ho2
    rw [hp] at hp'
    cases hp'
    obtain ⟨_, r, _, _, _, hg⟩ := hd.grown (Dict.mem_keys.2 ⟨o, ho⟩)
    rcases (hg.entries.2 _ o ho).shape with ⟨_, h, _⟩ | ⟨_, q, po, _, h, _, hq, _⟩
    · rw [h] at hp; cases hp
    · rw [h] at hp
      cases hp
      rw [same hq, hpc] at hpc'
      cases hpc'
      rw [hb, hb']

/-- C87: on entering a context whose code is accepted, the one entry marked as current goes by the hash of the code the function has now, and all entries printed before are
still printed. -/
theorem C87_marked_is_current (hH : Function.Injective H) (strict : Bool) {evs : List VEvent} (hev : ∀ ev ∈ evs, ev.Legal compOf) {cs : CodeState} (hcs : cs.keys.Nodup)
    {answer : DepKey → Answer} {s' : Versioner} (h : (after H strict evs).versioner.syncCodebase H cs answer = (.ok (), s')) {k : DepKey}
    (hk : k ∈ (after H strict evs).versioner.nodes.keys) (hord : ∀ l, (ord l).Perm l) (compact ids : Bool) :
    ∃ n c out0 out, cs.get? k = some n ∧ n.content = some c ∧ (after H strict evs).versioner.sourceHistory k ord compact ids = .ok out0 ∧
      s'.sourceHistory k ord compact ids = .ok out ∧ (∀ e ∈ out, e.head = true ↔ e.commit = c.hash H) ∧ (∃ e ∈ out, e.commit = c.hash H) ∧
      ∀ e ∈ out0, ∃ e' ∈ out, e'.commit = e.commit ∧ e'.ids = e.ids ∧ e'.body = e.body := by
  have hev' : ∀ ev ∈ evs ++ [.enter cs answer], ev.Legal compOf := fun ev hm => by
    rcases List.mem_append.1 hm with hm | hm
    · exact hev ev hm
    · rw [List.mem_singleton.1 hm]; exact hcs
  have hafter : (after H strict (evs ++ [.enter cs answer])).versioner = s' := by
    rw [after, VSt.run_append, VSt.run_one]
    show (VSt.step H (after H strict evs) _).versioner = _
    unfold VSt.step
    dsimp only
    rw [h]
  have hI := (after_inv hH strict hev).inv
  have hI' := (after_inv hH strict hev').inv
  obtain ⟨d, out0, hd, h0, hp0, -, ht0, -⟩ := (C87_source_history hH strict hev k hord compact ids).2 hk
  obtain ⟨-, hkeys, hs⟩ := (C35_sync_all_or_nothing hH strict hev cs answer).2 s' h
  obtain ⟨n, c, d', hn, hc, hd', hhead, ⟨o, ho⟩, hold⟩ := hs k d hd
  have hk' : k ∈ (after H strict (evs ++ [.enter cs answer])).versioner.nodes.keys := by
    rw [← hI'.keysD, hafter, hkeys, hI.keysD]
    exact hk
  obtain ⟨d2, out, hd2, h1, hp1, -, ht1, -⟩ := (C87_source_history hH strict hev' k hord compact ids).2 hk'
  have hok' := hI'.dagOK k
  rw [hafter] at hd2 h1 hok'
  rw [hd'] at hd2
  cases hd2
  refine ⟨n, c, out0, out, hn, hc, h0, h1, fun e he => ?_, ?_, fun e he => ?_⟩
  · rw [(ht1 e he).1.head, hhead]
    exact ⟨fun h => (Option.some.inj h).symm, fun h => by rw [h]⟩
  · obtain ⟨e, he, h2⟩ := List.mem_map.1 (hp1.symm.subset (Dict.mem_keys.2 ⟨o, ho⟩))
    exact ⟨e, he, h2⟩
  · have hm := hp0.subset (List.mem_map_of_mem (f := (·.commit)) he)
    obtain ⟨o1, ho1⟩ := Dict.mem_keys.1 hm
    obtain ⟨e', he', h2⟩ := List.mem_map.1 (hp1.symm.subset (Dict.mem_keys.2 ⟨o1, hold _ _ ho1⟩))
    exact ⟨e', he', h2, told_same (hI.dagOK k d hd) (hok' d' hd') hold h2 (ht0 e he).1 (ht1 e' he').1⟩

/-! ### a concrete history -/

/-- Run `f(1)`, change a comment of `g`, go back, change `g`, run again. -/
def branchSession : List VEvent :=
  [.enter (codeOf "def g" "0") (fun _ => .yes), fCall ["f"], .enter (codeOf "def g # same" "0") (fun _ => .no), .enter (codeOf "def g" "0") (fun _ => .abort),
   .enter (codeOf "def g2" "0") (fun _ => .yes), fCall ["f"], .enter (codeOf "def g3" "0") (fun _ => .no)]

theorem branchSession_legal : ∀ ev ∈ branchSession, ev.Legal (fun _ => "f") := by
  intro ev h
  simp only [branchSession, List.mem_cons, List.not_mem_nil, or_false] at h
  rcases h with rfl | rfl | rfl | rfl | rfl | rfl | rfl
  · show List.Nodup _; decide
  · exact ⟨rfl, by decide⟩
  · show List.Nodup _; decide
  · show List.Nodup _; decide
  · show List.Nodup _; decide
  · exact ⟨rfl, by decide⟩
  · show List.Nodup _; decide

/-- The history of `g`: the comment and the change branch off the first code, the last code is under the change. -/
example : ((after encH true branchSession).versioner.sourceHistory "g" id true false).toOption.map (fun out => out.map fun e => (e.depth, e.head, e.body)) =
    some [(0, false, .code (.code "def g")), (1, false, .diff (.code "def g") (.code "def g # same")), (1, false, .diff (.code "def g") (.code "def g2")),
      (2, true, .diff (.code "def g2") (.code "def g3"))] := by
  decide +kernel

example : "g" ∈ (after encH true branchSession).versioner.nodes.keys ∧ "h" ∉ (after encH true branchSession).versioner.nodes.keys ∧
    (after encH true branchSession).versioner.sourceHistory "h" id true false = .error .keyError ∧
    ((after encH true branchSession).versioner.syncCodebase encH (codeOf "def g4" "0") fun _ => .yes).1.toOption = some () := by
  decide +kernel

end Verif.Props
