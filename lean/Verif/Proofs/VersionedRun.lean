import Verif.Proofs.VersionerTotal
import Verif.Props.Versioner
import Verif.Spec.Versioned
/-!
A versioned storage in use: what is kept, and that calls return what the code computes.
-/
namespace Verif.Props

open Verif Tracer Versioner

/-! ### the tracer -/

theorem nodup_addEdge {t : Tracer} (h : t.nodes.keys.Nodup) (k : DKey) (n : TNode) (k' : DKey) (n' : TNode) :
    (t.addEdge k n k' n').nodes.keys.Nodup := by
  unfold addEdge
  dsimp only
  split <;> split <;> first | exact h | exact Dict.nodup_set h _ _ | exact Dict.nodup_set (Dict.nodup_set h _ _) _ _

theorem nodup_registerCall {t : Tracer} (h : t.nodes.keys.Nodup) (f : Fn) : (t.registerCall f).1.nodes.keys.Nodup := by
  unfold registerCall
  dsimp only
  split
  · exact Dict.nodup_set h _ _
  · exact nodup_addEdge (Dict.nodup_set h _ _) _ _ _ _

theorem nodup_registerReturn {t t' : Tracer} (h : t.nodes.keys.Nodup) {i : Nat} (hr : t.registerReturn i = .ok t') : t'.nodes.keys.Nodup := by
  unfold registerReturn at hr
  split at hr
  · cases hr
  · split at hr
    · cases hr; exact h
    · cases hr

theorem nodup_enterOp (f : Fn) : (enterOp f).nodes.keys.Nodup :=
  nodup_registerCall (nodup_registerCall (by simp [new, Dict.keys]) f) f

mutual
theorem nodup_runAct : ∀ (a : Act) {t t' : Tracer}, t.nodes.keys.Nodup → runAct a t = .ok t' → t'.nodes.keys.Nodup
  | .glob name hash repr, t, t', h, hr => by
    unfold runAct at hr
    split at hr
    · unfold registerGlobal at hr
      split at hr
      · cases hr
      · cases hr; exact nodup_addEdge h _ _ _ _
    · cases hr; exact h
  | .call g body exc, t, t', h, hr => by
    unfold runAct at hr
    split at hr
    · cases h1 : runActs body (t.registerCall g).1 with
      | error e => rw [h1] at hr; cases hr
      | ok u =>
        rw [h1] at hr
        dsimp only at hr
        have hu := nodup_runActs body (nodup_registerCall h g) h1
        split at hr
        · cases hr; exact hu
        · exact nodup_registerReturn hu hr
    · exact nodup_runActs body h hr
  | .op g hit body exc, t, t', h, hr => by
    unfold runAct at hr
    split at hr
    · cases hr; exact h
    · split at hr
      · cases hr
      · split at hr
        · cases hr; exact h
        · split at hr
          · cases hr
          · cases hr; exact h
theorem nodup_runActs : ∀ (as : List Act) {t t' : Tracer}, t.nodes.keys.Nodup → runActs as t = .ok t' → t'.nodes.keys.Nodup
  | [], t, t', h, hr => by unfold runActs at hr; cases hr; exact h
  | a :: as, t, t', h, hr => by
    unfold runActs at hr
    cases h1 : runAct a t with
    | error e => rw [h1] at hr; cases hr
    | ok u =>
      rw [h1] at hr
      exact nodup_runActs as (nodup_runAct a h h1) hr
end

theorem nodup_traceOp {f : Fn} {body : List Act} {t : Tracer} (h : traceOp f body = .ok t) : t.nodes.keys.Nodup := by
  unfold traceOp at h
  cases h1 : runActs body (enterOp f) with
  | error e => rw [h1] at h; cases h
  | ok u =>
    rw [h1] at h
    dsimp only at h
    have hu := nodup_runActs body (nodup_enterOp f) h1
    unfold leaveOp at h
    cases h2 : u.registerReturn 1 with
    | error e => rw [h2] at h; cases h
    | ok w =>
      rw [h2] at h
      exact nodup_registerReturn (nodup_registerReturn hu h2) h

/-! ### more about the versioner -/

variable {H : Val → String} {compOf : String → DepKey}

theorem createComponents_dags : ∀ (trace : List (DepKey × TNode)) {s t : Versioner} {r : Except Err Unit}, createComponents H s trace = (r, t) →
    ∀ k d, t.dags.get? k = some d → s.dags.get? k = some d ∨ ∃ h o, d.commits = [(h, o)]
  | [], s, t, r, h => by unfold createComponents at h; cases h; exact fun k d hd => .inl hd
  | (k0, n0) :: rest, s, t, r, h => by
    have hnext : ∀ n : TNode, (∀ a b, n ≠ .terminal a b) →
        (if s.nodes.has k0 then createComponents H s rest else match n.content with
          | none => (.error .assertionError, s)
          | some c => createComponents H (initComponent H s k0 n c) rest) = (r, t) →
        ∀ k d, t.dags.get? k = some d → s.dags.get? k = some d ∨ ∃ h o, d.commits = [(h, o)] := by
      intro n _ h
      split at h
      · exact createComponents_dags rest h
      · cases hc : n.content with
        | none => rw [hc] at h; cases h; exact fun k d hd => .inl hd
        | some c =>
          rw [hc] at h
          dsimp only at h
          intro k d hd
          rcases createComponents_dags rest h k d hd with h1 | h1
          · rw [initComponent_eq] at h1
            dsimp only at h1
            rw [Dict.get?_set] at h1
            split at h1
            · cases h1; exact .inr ⟨_, _, rfl⟩
            · exact .inl h1
          · exact .inr h1
    unfold createComponents at h
    cases n0 with
    | terminal a b => exact createComponents_dags rest h
    | globalVar a b => exact hnext (.globalVar a b) (by simp) h
    | callable a b => exact hnext (.callable a b) (by simp) h

theorem processTrace_dags {s t : Versioner} {roots : List DepKey} {trace : List (DepKey × TNode)} {uid : String} {r : Except Err Version}
    (h : processTrace H s roots trace uid = (r, t)) : ∀ k d, t.dags.get? k = some d → s.dags.get? k = some d ∨ ∃ h o, d.commits = [(h, o)] := by
  unfold processTrace at h
  split at h
  · split at h
    · rename_i h1; cases h; exact createComponents_dags _ h1
    · rename_i s1 h1
      have hd := createComponents_dags _ h1
      split at h
      · cases h; exact hd
      · split at h
        · cases h; exact hd
        · rename_i v hv s2 h2
          have hs : s2.dags = s1.dags := by
            unfold storeVersion at h2
            split at h2
            · cases h2
            · split at h2 <;> cases h2 <;> rfl
          split at h <;> cases h
          · rw [hs]; exact hd
          · dsimp only; rw [hs]; exact hd
  · cases h; exact fun k d hd => .inl hd

theorem executed_dags {st st' : VSt} {uid : String} {roots : List DepKey} {trace : Dict DepKey TNode} {edges : List (DepKey × DepKey)} {r : Except Err Version}
    (h : st.executed H uid roots trace edges = (r, st')) :
    ∀ k d, st'.versioner.dags.get? k = some d → st.versioner.dags.get? k = some d ∨ ∃ h o, d.commits = [(h, o)] := by
  unfold VSt.executed at h
  split at h
  · cases h; exact fun k d hd => .inl hd
  · dsimp only at h
    cases h1 : processTrace H (st.versioner.updateTopology _ edges) roots _ uid with
    | mk r' s2 =>
      rw [h1] at h
      cases h
      have h2 := processTrace_dags h1
      exact h2

theorem addGlobals_sub (trace : List (DepKey × TNode)) : ∀ (cs : CodeState) (k : DepKey) (n : TNode), (addGlobals cs trace).get? k = some n →
    cs.get? k = some n ∨ ∃ a b, n = .globalVar a b ∧ (k, n) ∈ trace := by
  unfold addGlobals
  induction trace with
  | nil => intro cs k n h; exact .inl h
  | cons p trace ih =>
    intro cs k n h
    rw [List.foldl_cons] at h
    rcases ih _ k n h with h1 | ⟨a, b, h1, h2⟩
    · obtain ⟨k0, n0⟩ := p
      cases n0 with
      | terminal a b => exact .inl h1
      | callable a b => exact .inl h1
      | globalVar a b =>
        dsimp only at h1
        split at h1
        · exact .inl h1
        · rw [Dict.get?_set] at h1
          split at h1
          · rename_i he
            cases h1
            exact .inr ⟨a, b, rfl, by rw [he]; exact List.mem_cons_self ..⟩
          · exact .inl h1
    · exact .inr ⟨a, b, h1, List.mem_cons_of_mem _ h2⟩

theorem executed_code {st st' : VSt} {uid : String} {roots : List DepKey} {trace : Dict DepKey TNode} {edges : List (DepKey × DepKey)} {r : Except Err Version}
    (h : st.executed H uid roots trace edges = (r, st')) (k : DepKey) (n : TNode) (hk : st'.codeState.get? k = some n) :
    st.codeState.get? k = some n ∨ ∃ a b, n = .globalVar a b ∧ (k, n) ∈ trace := by
  unfold VSt.executed at h
  split at h
  · cases h; exact .inl hk
  · rename_i trace' ha
    dsimp only at h
    cases h
    rcases addGlobals_sub trace' _ k n hk with h1 | ⟨a, b, rfl, h2⟩
    · exact .inl h1
    · obtain ⟨n0, h3, h4⟩ := (applyHypothesis_spec _ _ ha).1 k _ h2
      rcases hypNode_some h4 with ⟨⟨a', b', rfl⟩, he⟩ | ⟨a', b', rfl, he, _⟩ | ⟨_, _, _, _, rfl, he, _⟩
      · cases he
      · exact .inr ⟨a, b, rfl, by rw [he]; exact h3⟩
      · cases he

/-- What the version depends on is in the trace. -/
theorem executed_keys (hH : Function.Injective H) {st st' : VSt} (hI : StInv H compOf st) {uid : String} {trace : Dict DepKey TNode}
    {edges : List (DepKey × DepKey)} (hnd : trace.keys.Nodup) (hterm : ∀ k n, (k, n) ∈ trace → ∀ a b, n ≠ .terminal a b) {v : Version}
    (h : st.executed H uid [compOf uid] trace edges = (.ok v, st')) {k : DepKey} (hk : k ∈ v.semanticExpansion.keys) : k ∈ trace.keys := by
  unfold VSt.executed at h
  cases ha : applyHypothesis st.versioner.strict st.codeState trace with
  | error e => rw [ha] at h; cases h
  | ok trace' =>
    rw [ha] at h
    dsimp only at h
    obtain ⟨a1, a2, a3⟩ := applyHypothesis_spec _ _ ha
    have hnd' : (Dict.keys trace').Nodup := hnd.sublist a3
    have htk : ∀ k, k ∈ (st.versioner.updateTopology trace' edges).topology.keys ↔
        k ∈ st.versioner.topology.keys ∨ ∃ n, (k, n) ∈ trace' ∧ ∀ a b, n ≠ .terminal a b :=
      fun k => topologyFold_keys trace' st.versioner.topology k
    have hsub : ∀ k, k ∈ st.versioner.topology.keys → k ∈ (st.versioner.updateTopology trace' edges).topology.keys :=
      fun k hk => (htk k).2 (.inl hk)
    have hI1 : VInv H compOf (st.versioner.updateTopology trace' edges) :=
      ⟨⟨hI.inv.keysD, hI.inv.keysV, hI.inv.dagOK, hI.inv.dagHead, hI.inv.dagsNodup⟩, fun k hk => hsub k (hI.inv.topo k hk), fun k cv v hv => by
        obtain ⟨b1, b2, b3, b4⟩ := hI.inv.vers k cv v hv
        exact ⟨b1, b2, b3, fun k' hk' => hsub k' (b4 k' hk')⟩, hI.inv.vnodup, hI.inv.rows, hI.inv.pair⟩
    have hcont : ∀ k n, (k, n) ∈ trace' → ∃ c, n.content = some c := by
      intro k n hm
      obtain ⟨n0, h1, h0⟩ := a1 k n hm
      rcases hypNode_some h0 with ⟨⟨a, b, rfl⟩, rfl⟩ | ⟨a, b, rfl, rfl, _⟩ | ⟨src, rt, rt', rep, rfl, rfl, _⟩
      · exact absurd rfl (hterm k _ h1 a b)
      · exact ⟨_, rfl⟩
      · exact ⟨_, rfl⟩
    obtain ⟨r, t, p0, p1, p2, p3, p4, p5, p6, p7, p8⟩ := processTrace_spec hH hI1 (uid := uid) hnd'
      (fun k n c hm hc => (htk k).2 (.inr ⟨n, hm, by rintro a b rfl; cases hc⟩)) (fun k n hm => .inr (hcont k n hm))
    rw [p0] at h
    dsimp only at h
    cases h
    obtain ⟨x, hx⟩ := Dict.mem_keys.1 hk
    rcases p8 with ⟨e, h1, _⟩ | ⟨v', h1, _, _, _, h4, _⟩
    · cases h1
    · cases h1
      rcases h4 k x hx with ⟨n, c, hm, _⟩ | ⟨kk, dk, cv, w, hm, _⟩
      · exact a3.subset (List.mem_map_of_mem (f := (·.1)) hm)
      · obtain ⟨c, hc⟩ := hcont kk _ hm
        cases hc

/-- Nothing fails when the trace fits the code state. -/
theorem applyHypothesis_total {strict : Bool} {hyp : CodeState} : ∀ (l : List (DepKey × TNode)),
    (∀ k n, (k, n) ∈ l → (∃ rep rt text, n = .callable rep rt ∧ hyp.get? k = some (.callable (some text) rt)) ∨
      ∃ a b, n = .globalVar a b ∧ ∀ hn, hyp.get? k = some hn → hn = .globalVar a b) →
    ∃ l', applyHypothesis strict hyp l = .ok l' ∧ Dict.keys l' = Dict.keys l
  | [], _ => ⟨[], rfl, rfl⟩
  | (k, n) :: rest, h => by
    obtain ⟨l', h1, h2⟩ := applyHypothesis_total (strict := strict) rest fun k n hm => h k n (List.mem_cons_of_mem _ hm)
    have hn : ∃ n', hypNode strict hyp k n = .ok (some n') := by
      unfold hypNode
      rcases h k n (List.mem_cons_self ..) with ⟨rep, rt, text, rfl, hg⟩ | ⟨a, b, rfl, hg⟩
      · dsimp only
        rw [hg]
        dsimp only
        rw [if_neg (by simp)]
        exact ⟨_, rfl⟩
      · dsimp only
        cases hh : hyp.get? k with
        | none => exact ⟨_, rfl⟩
        | some hn =>
          dsimp only
          rw [hg hn hh, if_pos rfl]
          exact ⟨_, rfl⟩
    obtain ⟨n', hn'⟩ := hn
    refine ⟨(k, n') :: l', ?_, by simp [Dict.keys] at h2 ⊢; exact h2⟩
    unfold applyHypothesis
    rw [hn']
    dsimp only
    rw [h1]

/-! ### meaning -/

variable {V M : Type} {enc : DKey → DepKey} {ops : Ops V} {sem : DepKey → String → M}

/-- A content means the same as the content that its semantic version is named after. -/
def MeanOk (sem : DepKey → String → M) (dags : Dict DepKey (Dag String Content)) : Prop :=
  ∀ k h x, SemIn dags k h x → sem k h = sem k x

theorem grown_semantic {l : Dict String (Commit String Content)} {r : String} (hg : Dag.Grown (Content.hash H) l r) :
    ∀ {h : String} {o : Commit String Content}, l.get? h = some o → o.semanticHash ∈ l.keys := by
  induction hg with
  | root c =>
    intro h o ho
    rw [Dict.get?_cons] at ho
    split at ho
    · cases ho; simp [Dict.keys]
    · cases ho
  | @snoc l r c hc h0 ho0 b hg hn hh ih =>
    intro h o ho
    rw [Dag.get?_snoc hn] at ho
    simp only [Dict.keys, List.map_append, List.mem_append]
    split at ho
    · cases ho
      dsimp only
      cases b with
      | true => right; simp
      | false => exact .inl (ih hh)
    · exact .inl (ih ho)

theorem semantic_known {d : Dag String Content} (hd : d.OK (Content.hash H)) {h : String} {o : Commit String Content}
    (ho : d.commits.get? h = some o) : o.semanticHash ∈ d.commits.keys := by
  rcases hd with rfl | ⟨x, r, _, _, _, hg⟩
  · cases ho
  · exact grown_semantic hg ho

theorem mean_sync {d d' : Dag String Content} (hd : d.OK (Content.hash H)) {c : Content} {a : Answer} {x : String} {k : DepKey}
    (h : d.sync (Content.hash H) c none a = .ok (d', x))
    (hm : ∀ h o, d.commits.get? h = some o → sem k h = sem k o.semanticHash)
    (hon : ∀ h, d.head = some h → a = .no → sem k h = sem k (c.hash H)) :
    ∀ h o, d'.commits.get? h = some o → sem k h = sem k o.semanticHash := by
  obtain ⟨rfl, hs⟩ := Dag.sync_ok h hd
  rcases hs with ⟨hk, rfl⟩ | ⟨hk, hcm⟩
  · exact hm
  · obtain ⟨_, hn, y, ho, b, hc, h1, h2, h3, rfl⟩ := Dag.commit_ok hcm
    intro g o hg
    dsimp only at hg
    rw [Dag.get?_snoc hn] at hg
    split at hg
    · rename_i e1
      cases hg
      dsimp only
      rw [← e1]
      cases b with
      | true => rw [if_pos rfl]
      | false =>
        rw [if_neg (by simp), ← hm y ho h2]
        refine (hon y h1 ?_).symm
        cases a with
        | no => rfl
        | yes => cases h3
        | abort => cases h3
    · exact hm g o hg

theorem MeanOk.sync {s : Versioner} (hI : VInv H compOf s) (hm : MeanOk sem s.dags) {cs : CodeState} {answer : DepKey → Answer}
    {ds : Dict DepKey (Dag String Content)} (h : syncDags H cs answer s.dags = .ok ds)
    (hon : ∀ k d h n c, s.dags.get? k = some d → d.head = some h → cs.get? k = some n → n.content = some c → answer k = .no → sem k h = sem k (c.hash H)) :
    MeanOk sem ds := by
  obtain ⟨h1, h2⟩ := syncDags_spec _ _ h
  rintro k g x ⟨d', o, a1, a2, rfl⟩
  have hk : k ∈ s.dags.keys := by rw [← h1]; exact Dict.mem_keys.2 ⟨_, a1⟩
  obtain ⟨d, hd⟩ := Dict.mem_keys.1 hk
  obtain ⟨n, c, d2, c1, c2, y, c3, c4⟩ := h2 k d hd
  rw [a1] at c4
  cases c4
  refine mean_sync (hI.dagOK k d hd) c3 ?_ (fun hh hhd ha => hon k d hh n c hd hhd c1 c2 ha) g o a2
  intro p q e1
  exact hm k p q.semanticHash ⟨d, q, hd, e1, rfl⟩

theorem MeanOk.executed {st st' : VSt} (hm : MeanOk sem st.versioner.dags) {uid : String} {roots : List DepKey} {trace : Dict DepKey TNode}
    {edges : List (DepKey × DepKey)} {r : Except Err Version} (h : st.executed H uid roots trace edges = (r, st'))
    (hI : VInv H compOf st'.versioner) : MeanOk sem st'.versioner.dags := by
  rintro k g x ⟨d, o, a1, a2, rfl⟩
  rcases executed_dags h k d a1 with h1 | ⟨y, z, h1⟩
  · exact hm k g _ ⟨d, o, h1, a2, rfl⟩
  · have := semantic_known (hI.dagOK k d a1) a2
    rw [h1] at a2 this
    rw [Dict.get?_cons] at a2
    split at a2
    · rename_i e1
      cases a2
      have : o.semanticHash = y := by simpa [Dict.keys] using this
      rw [this, e1]
    · cases a2

theorem dict_set_absent {K W : Type} [DecidableEq K] {k : K} {v : W} : ∀ {d : Dict K W}, k ∉ d.keys → d.set k v = d ++ [(k, v)]
  | [], _ => rfl
  | (a, b) :: d, h => by
    have h1 : a ≠ k := fun he => h (by simp [Dict.keys, he])
    have h2 : k ∉ Dict.keys d := fun hm => h (by simp only [Dict.keys, List.map_cons, List.mem_cons]; exact .inr hm)
    unfold Dict.set
    rw [if_neg h1, dict_set_absent h2]
    rfl

/-! ### recorded calls -/

/-- The recorded result was computed by some code; the semantic version says what that code used and what version of it. -/
def CallOk (H : Val → String) (enc : DKey → DepKey) (ops : Ops V) (sem : DepKey → String → M) (uid sv : String) (r : V) : Prop :=
  ∃ src se, Visible enc ops src uid ∧ r = ops.value src uid ∧ (Dict.keys se).Nodup ∧ sv = hashDict H .str se ∧
    (∀ k, k ∈ Dict.keys se ↔ Needs enc ops src uid k) ∧
    ∀ k x, Dict.get? se k = some x → meaningOf H sem src k = some (sem k x)

/-- The code state is what is in the code: all functions, and nothing else. -/
structure Fits (src : Source) (cs : CodeState) : Prop where
  sub : ∀ k n, cs.get? k = some n → src k = some n
  funs : ∀ k text rt, src k = some (.callable (some text) rt) → k ∈ cs.keys

structure RunInv (H : Val → String) (enc : DKey → DepKey) (ops : Ops V) (sem : DepKey → String → M) (s : VRun V) : Prop where
  inv : VInv H (fun uid => enc (ops.key uid)) s.st.versioner
  topoD : ∀ k, k ∈ s.st.versioner.topology.keys → k ∈ s.st.versioner.nodes.keys
  csNodup : s.st.codeState.keys.Nodup
  mean : MeanOk sem s.st.versioner.dags
  calls : ∀ uid sv r, ((uid, sv), r) ∈ s.calls → CallOk H enc ops sem uid sv r
  ctx : 0 < s.depth → s.cached = true ∧ Fits s.src s.st.codeState ∧
    ∀ k, k ∈ s.st.versioner.topology.keys → ∃ x, CurSem H s.st.versioner.dags s.st.codeState k x

theorem RunInv.st {s : VRun V} (h : RunInv H enc ops sem s) (hd : 0 < s.depth) : StInv H (fun uid => enc (ops.key uid)) s.st :=
  ⟨h.inv, h.topoD, h.csNodup, (h.ctx hd).2.2⟩

theorem seen_none {f : Fn} {body : List Act} {k : DKey} {rep : Option String} {rt : String} (h : Seen f body k (.callable rep rt)) : rep = none := by
  generalize hnn : TNode.callable rep rt = nn at h
  induction h with
  | call _ => cases hnn; rfl
  | glob _ => cases hnn
  | inner _ _ ih => exact ih hnn

/-- The trace of an execution that is visible: what is used, as it is in the source. -/
theorem trace_spec (henc : Function.Injective enc) {src : Source} {uid : String} (hv : Visible enc ops src uid) :
    ∃ t tr, traceOp (ops.fn enc src uid) (ops.acts src uid) = .ok t ∧ t.roots.map enc = [enc (ops.key uid)] ∧
      t.nodes.map (fun p => (enc p.1, p.2)) = tr ∧ (Dict.keys tr).Nodup ∧ (∀ k, k ∈ Dict.keys tr ↔ Needs enc ops src uid k) ∧
      ∀ k n, (k, n) ∈ tr → (∃ rt text, n = .callable none rt ∧ src k = some (.callable (some text) rt)) ∨
        ∃ a b, n = .globalVar a b ∧ src k = some (.globalVar a b) := by
  obtain ⟨t, h1, h2, h3, h4, h5⟩ := C38_trace_exact_partial (ops.fn enc src uid) (ops.acts src uid) hv.calm hv.plain
  have hk : (ops.fn enc src uid).key = ops.key uid := rfl
  have hnd := nodup_traceOp h1
  have hkeys : Dict.keys (t.nodes.map fun p => (enc p.1, p.2)) = (Dict.keys t.nodes).map enc := by
    simp [Dict.keys, List.map_map, Function.comp_def]
  refine ⟨t, _, h1, by rw [h2, hk]; rfl, rfl, ?_, ?_, ?_⟩
  · rw [hkeys]
    exact List.Pairwise.map enc (fun a b hab h => hab (henc h)) hnd
  · intro k
    rw [hkeys, List.mem_map]
    constructor
    · rintro ⟨d, hd, rfl⟩
      rcases (h4 d).1 hd with rfl | ⟨x, hx⟩
      · exact .inl rfl
      · exact .inr ⟨x, d, hx, rfl⟩
    · rintro (rfl | ⟨x, d, hx, rfl⟩)
      · exact ⟨_, (h4 _).2 (.inl rfl), rfl⟩
      · exact ⟨d, (h4 d).2 (.inr ⟨x, hx⟩), rfl⟩
  · intro k n hm
    obtain ⟨⟨d, n'⟩, hm', he⟩ := List.mem_map.1 hm
    obtain ⟨rfl, hn⟩ := Prod.mk.inj he
    dsimp only at hn
    subst n'
    have hg : t.nodes.get? d = some n := get?_of_mem hnd hm'
    rcases h5 d n hg with ⟨rfl, rfl⟩ | hs
    · obtain ⟨text, rt, hself⟩ := hv.self
      refine .inl ⟨_, text, rfl, ?_⟩
      show src (enc (ops.key uid)) = _
      rw [hself]
      simp [Ops.fn, Source.runtime, hself]
    · have hseen := hv.seen d n hs
      cases n with
      | terminal a b => exact hseen.elim
      | globalVar a b => exact .inr ⟨a, b, rfl, hseen⟩
      | callable rep rt =>
        obtain ⟨text, ht⟩ := hseen
        have := seen_none hs
        subst this
        exact .inl ⟨rt, text, rfl, ht⟩

/-- What an execution does. -/
theorem execute_spec (hH : Function.Injective H) (henc : Function.Injective enc) {s : VRun V} (hI : RunInv H enc ops sem s) (hd : 0 < s.depth) {uid : String}
    (hv : Visible enc ops s.src uid) {res : Except Err V} {s' : VRun V} (h : VRun.execute H enc ops s uid = (res, s')) :
    RunInv H enc ops sem s' ∧ s'.src = s.src ∧ s'.depth = s.depth ∧ (∀ r, res = .ok r → r = ops.value s.src uid) ∧
      (∀ p r, s.calls.get? p = some r → s'.calls.get? p = some r) ∧
      ∀ row ∈ s'.st.versioner.df, row ∈ s.st.versioner.df ∨ ∃ r, s'.calls.get? (row.preCallUid, row.semanticVersion) = some r := by
  obtain ⟨t, tr, h1, h2, h3, h4, h5, h6⟩ := trace_spec henc hv
  obtain ⟨hc, hf, _⟩ := hI.ctx hd
  unfold VRun.execute at h
  rw [h1] at h
  dsimp only at h
  rw [h2, h3] at h
  have hrec : ∀ k n, (k, n) ∈ tr → ∃ n' c, s.src k = some n' ∧ n'.content = some c ∧ RecordedAs H s.st.codeState k n (c.hash H) := by
    intro k n hm
    rcases h6 k n hm with ⟨rt, text, rfl, hs⟩ | ⟨a, b, rfl, hs⟩
    · obtain ⟨n', hn'⟩ := Dict.mem_keys.1 (hf.funs k text rt hs)
      have := hf.sub k n' hn'
      rw [hs] at this
      cases this
      exact ⟨_, .code text, hs, rfl, text, rt, hn', rfl⟩
    · exact ⟨_, .gv a b, hs, rfl, rfl⟩
  have hterm : ∀ k n, (k, n) ∈ tr → ∀ a b, n ≠ .terminal a b := by
    intro k n hm a b
    rcases h6 k n hm with ⟨_, _, rfl, _⟩ | ⟨_, _, rfl, _⟩ <;> simp
  obtain ⟨r, st', e1, e2, e3, e4, e5, e6⟩ := executed_spec hH (hI.st hd) (uid := uid) (edges := t.edges.map fun e => (enc e.1, enc e.2)) h4
  rw [e1] at h
  have hmean := hI.mean.executed e1 e2.inv
  have hfits : Fits s.src st'.codeState := by
    refine ⟨fun k n hn => ?_, fun k text rt hs => ?_⟩
    · rcases executed_code e1 k n hn with h | ⟨a, b, rfl, hm⟩
      · exact hf.sub k n h
      · rcases h6 k _ hm with ⟨_, _, he, _⟩ | ⟨_, _, he, hs⟩
        · cases he
        · cases he; exact hs
    · obtain ⟨n', hn'⟩ := Dict.mem_keys.1 (hf.funs k text rt hs)
      exact Dict.mem_keys.2 ⟨n', e5 k n' hn'⟩
  rcases e6 with ⟨e, rfl, e7⟩ | ⟨v, rfl, e7, e8, e9, _, _, _⟩
  · cases h
    refine ⟨⟨e2.inv, e2.topoD, e2.csNodup, hmean, hI.calls, fun _ => ⟨hc, hfits, e2.sync⟩⟩, rfl, rfl, fun r h => (by cases h), fun _ _ h => h, ?_⟩
    intro row hrow
    dsimp only at hrow
    rw [e7] at hrow
    exact .inl hrow
  · cases h
    have hnew : CallOk H enc ops sem uid v.semanticVersion (ops.value s.src uid) := by
      refine ⟨s.src, v.semanticExpansion, hv, rfl, e8.seNodup, e8.sv, ?_, ?_⟩
      · intro k
        rw [← h5]
        constructor
        · exact executed_keys hH (hI.st hd) h4 hterm e1
        · intro hk
          obtain ⟨n, hn⟩ := Dict.mem_keys.1 hk
          obtain ⟨n', c, _, _, hr⟩ := hrec k n (mem_of_get? hn)
          obtain ⟨x, hx, _⟩ := e9 k n _ (mem_of_get? hn) hr
          exact Dict.mem_keys.2 ⟨x, hx⟩
      · intro k x hx
        have hk := executed_keys hH (hI.st hd) h4 hterm e1 (Dict.mem_keys.2 ⟨x, hx⟩)
        obtain ⟨n, hn⟩ := Dict.mem_keys.1 hk
        obtain ⟨n', c, g1, g2, hr⟩ := hrec k n (mem_of_get? hn)
        obtain ⟨y, hy, hs⟩ := e9 k n _ (mem_of_get? hn) hr
        rw [hx] at hy
        cases hy
        unfold meaningOf
        rw [g1]
        simp only [Option.bind_some, g2, Option.map_some]
        rw [hmean k _ _ hs]
    have hget : ∀ p r, (p, r) ∈ (if s.calls.has (uid, v.semanticVersion) = true then s.calls else s.calls.set (uid, v.semanticVersion) (ops.value s.src uid)) →
        (p, r) ∈ s.calls ∨ p = (uid, v.semanticVersion) ∧ r = ops.value s.src uid := by
      intro p r hp
      split at hp
      · exact .inl hp
      · rename_i hh
        rw [dict_set_absent (fun hm => hh (Dict.has_iff.2 hm)), List.mem_append, List.mem_singleton] at hp
        exact hp.imp id fun h => by cases h; exact ⟨rfl, rfl⟩
    have hold : ∀ p r, s.calls.get? p = some r →
        (if s.calls.has (uid, v.semanticVersion) = true then s.calls else s.calls.set (uid, v.semanticVersion) (ops.value s.src uid)).get? p = some r := by
      intro p r hp
      split
      · exact hp
      · rename_i hn
        rw [Dict.get?_set]
        split
        · rename_i he
          rw [Dict.has_iff] at hn
          exact absurd (Dict.mem_keys.2 ⟨r, he ▸ hp⟩) hn
        · exact hp
    refine ⟨⟨e2.inv, e2.topoD, e2.csNodup, hmean, ?_, fun _ => ⟨hc, hfits, e2.sync⟩⟩, rfl, rfl, fun r h => (by cases h; rfl), hold, ?_⟩
    · intro u sv r hr
      rcases hget _ r hr with h | ⟨h, rfl⟩
      · exact hI.calls u sv r h
      · cases h; exact hnew
    · intro row hrow
      dsimp only at hrow ⊢
      rw [e7, List.mem_append, List.mem_singleton] at hrow
      rcases hrow with h | rfl
      · exact .inl h
      · refine .inr ?_
        dsimp only
        split
        · rename_i hh
          exact Dict.mem_keys.1 (Dict.has_iff.1 hh)
        · exact ⟨_, by rw [Dict.get?_set, if_pos rfl]⟩

/-! ### hits -/

theorem meaning_cur {s : VRun V} (hI : RunInv H enc ops sem s) (hd : 0 < s.depth) {k : DepKey} {x : String}
    (h : CurSem H s.st.versioner.dags s.st.codeState k x) : meaningOf H sem s.src k = some (sem k x) := by
  obtain ⟨n, c, h1, h2, h3⟩ := h
  unfold meaningOf
  rw [(hI.ctx hd).2.1.sub _ _ h1]
  simp only [Option.bind_some, h2, Option.map_some]
  rw [hI.mean k _ _ h3]

/-- The expansion of the recorded version is that of the recorded result. -/
theorem expansion_eq {dags : Dict DepKey (Dag String Content)} (hH : Function.Injective H) {w : Version} (hw : VersionOK H dags w) {se : Dict DepKey String} (hse : (Dict.keys se).Nodup)
    (h : w.semanticVersion = hashDict H .str se) (k : DepKey) : w.semanticExpansion.get? k = Dict.get? se k := by
  have := hashDict_inj hH Val.str hw.seNodup hse (hw.sv.symm.trans h) k
  exact Option.map_injective (fun _ _ => str_inj) this

/-- A recorded result of a version in force is what an execution would give. -/
theorem hit_value (hH : Function.Injective H) (hdet : Determined H enc ops sem) {s : VRun V} (hI : RunInv H enc ops sem s) (hd : 0 < s.depth) {uid : String}
    (hv : Visible enc ops s.src uid) {w : Version} (hw : VersionOK H s.st.versioner.dags w) {r : V}
    (hc : CallOk H enc ops sem uid w.semanticVersion r)
    (hcur : ∀ k x, w.semanticExpansion.get? k = some x → CurSem H s.st.versioner.dags s.st.codeState k x) : r = ops.value s.src uid := by
  obtain ⟨src, se, h1, h2, h4, h5, h6, h7⟩ := hc
  rw [h2]
  refine (hdet src s.src uid h1 hv fun k hk hk' => ?_).2
  obtain ⟨x, hx⟩ := Dict.mem_keys.1 ((h6 k).2 hk)
  rw [h7 k x hx, meaning_cur hI hd (hcur k x ((expansion_eq hH hw h4 h5 k).trans hx))]

/-- What a call does. -/
theorem call_spec (hH : Function.Injective H) (henc : Function.Injective enc) (hdet : Determined H enc ops sem) {s : VRun V} (hI : RunInv H enc ops sem s)
    {uid : String} (hv : Visible enc ops s.src uid) {res : Except Err V} {s' : VRun V} (h : VRun.call H enc ops s uid = (res, s')) :
    RunInv H enc ops sem s' ∧ (∀ r, res = .ok r → r = ops.value s.src uid) ∧
      (∀ p r, s.calls.get? p = some r → s'.calls.get? p = some r) ∧
      ∀ row ∈ s'.st.versioner.df, row ∈ s.st.versioner.df ∨ ∃ r, s'.calls.get? (row.preCallUid, row.semanticVersion) = some r := by
  have hsame : ∀ {res : Except Err V} {s' : VRun V}, (∀ r, res = .ok r → r = ops.value s.src uid) → s' = s → RunInv H enc ops sem s' ∧ (∀ r, res = .ok r → r = ops.value s.src uid) ∧
      (∀ p r, s.calls.get? p = some r → s'.calls.get? p = some r) ∧
      ∀ row ∈ s'.st.versioner.df, row ∈ s.st.versioner.df ∨ ∃ r, s'.calls.get? (row.preCallUid, row.semanticVersion) = some r := by
    rintro res s' hr rfl
    exact ⟨hI, hr, fun _ _ h => h, fun _ h => .inl h⟩
  unfold VRun.call at h
  split at h
  · cases h
    exact ⟨⟨hI.inv, hI.topoD, hI.csNodup, hI.mean, hI.calls, hI.ctx⟩, fun r h => by cases h; rfl, fun _ _ h => h, fun _ h => .inl h⟩
  · rename_i hd0
    have hd : 0 < s.depth := Nat.pos_of_ne_zero hd0
    obtain ⟨hc, hf, _⟩ := hI.ctx hd
    rw [if_neg (by simp [hc])] at h
    have hex : ∀ {res : Except Err V} {s' : VRun V}, VRun.execute H enc ops s uid = (res, s') → RunInv H enc ops sem s' ∧ (∀ r, res = .ok r → r = ops.value s.src uid) ∧
      (∀ p r, s.calls.get? p = some r → s'.calls.get? p = some r) ∧
      ∀ row ∈ s'.st.versioner.df, row ∈ s.st.versioner.df ∨ ∃ r, s'.calls.get? (row.preCallUid, row.semanticVersion) = some r := by
      intro res s' h
      obtain ⟨e1, _, _, e4, e5, e6⟩ := execute_spec hH henc hI hd hv h
      exact ⟨e1, e4, e5, e6⟩
    cases hl : s.st.versioner.lookupCall H (enc (ops.key uid)) uid s.st.codeState with
    | error e =>
      rw [hl] at h
      cases h
      exact hsame (fun r h => by cases h) rfl
    | ok o =>
      rw [hl] at h
      cases o with
      | none => exact hex h
      | some p =>
        obtain ⟨cv, sv⟩ := p
        dsimp only at h
        cases hg : s.calls.get? (uid, sv) with
        | none => rw [hg] at h; exact hex h
        | some r =>
          rw [hg] at h
          cases h
          refine hsame (fun r' h => ?_) rfl
          cases h
          obtain ⟨row, g1, g2, g3, g4, w, g5, rfl, g6⟩ := lookupCall_sound (compOf := fun uid => enc (ops.key uid)) hH hI.inv hI.csNodup hl
          exact hit_value hH hdet hI hd hv (hI.inv.vers _ _ _ g5).1 (hI.calls _ _ _ (mem_of_get? hg)) g6

/-! ### sessions -/

theorem get?_filter_key {K W : Type} [DecidableEq K] {d : Dict K W} {f : K × W → Bool} {k : K} {v : W}
    (h : d.get? k = some v) (hk : f (k, v) = true) : Dict.get? (d.filter f) k = some v := by
  induction d with
  | nil => exact h
  | cons p d ih =>
    obtain ⟨k0, v0⟩ := p
    rw [Dict.get?_cons] at h
    rw [List.filter_cons]
    split at h
    · rename_i he
      cases h
      subst he
      rw [if_pos hk, Dict.get?_cons, if_pos rfl]
    · rename_i he
      split
      · rw [Dict.get?_cons, if_neg he]; exact ih h
      · exact ih h

theorem RunInv.new (H : Val → String) (enc : DKey → DepKey) (ops : Ops V) (sem : DepKey → String → M) (strict : Bool) (src : Source) :
    RunInv H enc ops sem (VRun.new strict src) where
  inv := .empty _ _ _
  topoD _ h := by cases h
  csNodup := by simp [VRun.new, Dict.keys]
  mean := by rintro k h x ⟨d, _, hd, _⟩; cases hd
  calls uid sv r h := by cases h
  ctx h := absurd h (by simp [VRun.new])

theorem enter_ok {s s' : VRun V} {cs : CodeState} {answer : DepKey → Answer} {r : Unit} (h : VRun.enter H s cs answer = (.ok r, s')) :
    ∃ ds, syncDags H cs answer s.st.versioner.dags = .ok ds ∧
      s' = { s with st := ⟨{ s.st.versioner with dags := ds }, cs⟩, depth := s.depth + 1, cached := true } := by
  unfold VRun.enter syncCodebase at h
  cases hs : syncDags H cs answer s.st.versioner.dags with
  | error e => rw [hs] at h; cases h
  | ok ds => rw [hs] at h; cases h; exact ⟨ds, rfl, rfl⟩

theorem RunInv.step (hH : Function.Injective H) (henc : Function.Injective enc) (hdet : Determined H enc ops sem) {s : VRun V} (hI : RunInv H enc ops sem s)
    {cmd : VRun.Cmd} (hp : Proper H enc ops sem s cmd) : RunInv H enc ops sem (VRun.step H enc ops s cmd) := by
  cases cmd with
  | change src =>
    have hp : s.depth = 0 := hp
    exact ⟨hI.inv, hI.topoD, hI.csNodup, hI.mean, hI.calls, fun h => absurd h (by show ¬ 0 < s.depth; omega)⟩
  | enter cs answer =>
    obtain ⟨h1, h2, h3⟩ := hp
    unfold VRun.step
    dsimp only
    cases he : VRun.enter H s cs answer with
    | mk r s' =>
      rw [he] at h3
      cases h3
      obtain ⟨ds, hs, rfl⟩ := enter_ok he
      obtain ⟨g1, g2, g3⟩ := hI.inv.sync hs
      exact ⟨g1, hI.topoD, h1.nodup, hI.mean.sync hI.inv hs h2, hI.calls,
        fun _ => ⟨rfl, ⟨h1.sub, h1.funs⟩, fun k hk => g3 k (hI.topoD k hk)⟩⟩
  | exit =>
    refine ⟨hI.inv, hI.topoD, hI.csNodup, hI.mean, hI.calls, fun h => ?_⟩
    have h : 0 < s.depth - 1 := h
    obtain ⟨h1, h2⟩ := hI.ctx (by omega)
    refine ⟨?_, h2⟩
    show (if s.depth = 1 then false else s.cached) = true
    rw [if_neg (by omega), h1]
  | call uid =>
    cases hc : VRun.call H enc ops s uid with
    | mk res s' =>
      have := (call_spec hH henc hdet hI hp hc).1
      unfold VRun.step
      dsimp only
      rw [hc]
      exact this
  | dropCalls l => exact ⟨hI.inv, hI.topoD, hI.csNodup, hI.mean, fun u sv r hr => hI.calls u sv r (List.mem_filter.1 hr).1, hI.ctx⟩
  | dropVersion sv dependents =>
    exact ⟨hI.inv.drop sv, hI.topoD, hI.csNodup, hI.mean, fun u sv r hr => hI.calls u sv r (List.mem_filter.1 hr).1, hI.ctx⟩

theorem RunInv.run (hH : Function.Injective H) (henc : Function.Injective enc) (hdet : Determined H enc ops sem) :
    ∀ (cmds : List VRun.Cmd) {s : VRun V}, RunInv H enc ops sem s → ProperAll H enc ops sem s cmds → RunInv H enc ops sem (VRun.run H enc ops s cmds)
  | [], _, hI, _ => hI
  | _ :: cmds, _, hI, hp => RunInv.run hH henc hdet cmds (hI.step hH henc hdet hp.1) hp.2

/-! ### no call fails -/

/-- Every recorded version of a call has a recorded result. -/
def Full (s : VRun V) : Prop := ∀ row ∈ s.st.versioner.df, ∃ r, s.calls.get? (row.preCallUid, row.semanticVersion) = some r

theorem Full.step (hH : Function.Injective H) (henc : Function.Injective enc) (hdet : Determined H enc ops sem) {s : VRun V} (hI : RunInv H enc ops sem s)
    (hF : Full s) {cmd : VRun.Cmd} (hp : Proper H enc ops sem s cmd) (ho : OnlyVersions [cmd]) : Full (VRun.step H enc ops s cmd) := by
  cases cmd with
  | change src => exact hF
  | enter cs answer =>
    obtain ⟨h1, h2, h3⟩ := hp
    unfold VRun.step
    dsimp only
    cases he : VRun.enter H s cs answer with
    | mk r s' =>
      rw [he] at h3
      cases h3
      obtain ⟨ds, hs, rfl⟩ := enter_ok he
      exact hF
  | exit => exact hF
  | call uid =>
    cases hc : VRun.call H enc ops s uid with
    | mk res s' =>
      obtain ⟨_, _, h3, h4⟩ := call_spec hH henc hdet hI hp hc
      unfold VRun.step
      dsimp only
      rw [hc]
      intro row hrow
      rcases h4 row hrow with h | h
      · obtain ⟨r, hr⟩ := hF row h
        exact ⟨r, h3 _ _ hr⟩
      · exact h
  | dropCalls l => exact ho.elim
  | dropVersion sv dependents =>
    obtain ⟨rfl, _⟩ := ho
    intro row hrow
    have hrow : row ∈ s.st.versioner.df.filter (fun r => r.semanticVersion ≠ sv) := hrow
    rw [List.mem_filter] at hrow
    obtain ⟨r, hr⟩ := hF row hrow.1
    exact ⟨r, get?_filter_key hr (by simpa using hrow.2)⟩

theorem OnlyVersions.cons {c : VRun.Cmd} {cs : List VRun.Cmd} (h : OnlyVersions (c :: cs)) : OnlyVersions [c] ∧ OnlyVersions cs := by
  cases c <;> first | exact ⟨trivial, h⟩ | exact h.elim | exact ⟨⟨h.1, trivial⟩, h.2⟩

theorem Full.run (hH : Function.Injective H) (henc : Function.Injective enc) (hdet : Determined H enc ops sem) :
    ∀ (cmds : List VRun.Cmd) {s : VRun V}, RunInv H enc ops sem s → Full s → ProperAll H enc ops sem s cmds → OnlyVersions cmds →
      Full (VRun.run H enc ops s cmds)
  | [], _, _, hF, _, _ => hF
  | _ :: cmds, _, hI, hF, hp, ho =>
    Full.run hH henc hdet cmds (hI.step hH henc hdet hp.1) (hF.step hH henc hdet hI hp.1 ho.cons.1) hp.2 ho.cons.2

/-- If no version of the call is in force, it can be executed. -/
theorem execute_total (hH : Function.Injective H) (henc : Function.Injective enc) (hdet : Determined H enc ops sem) {s : VRun V} (hI : RunInv H enc ops sem s)
    (hF : Full s) (hd : 0 < s.depth) {uid : String} (hv : Visible enc ops s.src uid)
    (hl : s.st.versioner.lookupCall H (enc (ops.key uid)) uid s.st.codeState = .ok none) :
    ∃ r s', VRun.execute H enc ops s uid = (.ok r, s') := by
  obtain ⟨t, tr, h1, h2, h3, h4, h5, h6⟩ := trace_spec henc hv
  obtain ⟨hc, hf, hsync⟩ := hI.ctx hd
  have hfun : ∀ k text rt, s.src k = some (.callable (some text) rt) → s.st.codeState.get? k = some (.callable (some text) rt) := by
    intro k text rt hs
    obtain ⟨n', hn'⟩ := Dict.mem_keys.1 (hf.funs k text rt hs)
    have := hf.sub k n' hn'
    rw [hs] at this
    cases this
    exact hn'
  obtain ⟨tr', ha, hkeys⟩ := applyHypothesis_total (strict := s.st.versioner.strict) (hyp := s.st.codeState) tr (by
    intro k n hm
    rcases h6 k n hm with ⟨rt, text, rfl, hs⟩ | ⟨a, b, rfl, hs⟩
    · exact .inl ⟨none, rt, text, rfl, hfun k text rt hs⟩
    · refine .inr ⟨a, b, rfl, fun hn hg => ?_⟩
      have := hf.sub k hn hg
      rw [hs] at this
      cases this
      rfl)
  have hterm : ∀ k n, (k, n) ∈ tr → ∀ a b, n ≠ .terminal a b := by
    intro k n hm a b
    rcases h6 k n hm with ⟨_, _, rfl, _⟩ | ⟨_, _, rfl, _⟩ <;> simp
  have hroot : enc (ops.key uid) ∈ Dict.keys tr' := by
    rw [hkeys, h5]; exact .inl rfl
  obtain ⟨v, st', hex⟩ := executed_total (compOf := fun uid => enc (ops.key uid)) (edges := t.edges.map fun e => (enc e.1, enc e.2)) hH (hI.st hd) h4 hterm ha hroot (by
    intro row hrow hu w hw
    apply Classical.byContradiction
    intro hno
    subst hu
    obtain ⟨hwok, _, _, htopo⟩ := hI.inv.vers _ _ _ hw
    obtain ⟨w', hw', hsv⟩ := hI.inv.rows row hrow
    have : w' = w := by rw [hw] at hw'; cases hw'; rfl
    subst this
    obtain ⟨r, hr⟩ := hF row hrow
    obtain ⟨src, se, a1, a2, a4, a5, a6, a7⟩ := hI.calls _ _ _ (mem_of_get? hr)
    have hexp := expansion_eq hH hwok a4 (hsv.trans a5)
    have hcur : ∀ k x, w'.semanticExpansion.get? k = some x → ∃ y, CurSem H s.st.versioner.dags s.st.codeState k y := fun k x hx =>
      hsync k (htopo k ((hwok.dom k).2 (Dict.mem_keys.2 ⟨x, hx⟩)))
    have hsame : ∀ k x, w'.semanticExpansion.get? k = some x → Needs enc ops s.src row.preCallUid k → CurSem H s.st.versioner.dags s.st.codeState k x := by
      intro k x hx hk
      obtain ⟨y, hy⟩ := hcur k x hx
      have hk' : k ∈ Dict.keys tr' := by rw [hkeys]; exact (h5 k).2 hk
      obtain ⟨n, hn⟩ := Dict.mem_keys.1 hk'
      apply Classical.byContradiction
      intro hne
      exact hno ⟨k, x, y, n, hx, mem_of_get? hn, hy, fun h => hne (h ▸ hy)⟩
    have hneed := (hdet src s.src row.preCallUid a1 hv (by
      intro k hk hk'
      obtain ⟨x, hx⟩ := Dict.mem_keys.1 ((a6 k).2 hk)
      rw [a7 k x hx, meaning_cur hI hd (hsame k x ((hexp k).trans hx) hk')])).1
    have hall : ∀ k x, w'.semanticExpansion.get? k = some x → CurSem H s.st.versioner.dags s.st.codeState k x := by
      intro k x hx
      refine hsame k x hx ((hneed k).1 ((a6 k).1 ?_))
      exact Dict.mem_keys.2 ⟨x, (hexp k).symm.trans hx⟩
    have := lookupCall_complete (compOf := fun uid => enc (ops.key uid)) hH hI.inv hI.csNodup hrow hw hsync hall
    rw [hl] at this
    cases this)
  have hok : (VRun.execute H enc ops s uid).1 = .ok (ops.value s.src uid) := by
    unfold VRun.execute
    rw [h1]
    dsimp only
    rw [h2, h3, hex]
  exact ⟨_, _, Prod.ext hok rfl⟩

/-- A call does not fail. -/
theorem call_total (hH : Function.Injective H) (henc : Function.Injective enc) (hdet : Determined H enc ops sem) {s : VRun V} (hI : RunInv H enc ops sem s)
    (hF : Full s) {uid : String} (hv : Visible enc ops s.src uid) : ∃ r s', VRun.call H enc ops s uid = (.ok r, s') := by
  by_cases hd : s.depth = 0
  · exact ⟨_, _, by unfold VRun.call; rw [if_pos hd]⟩
  · have hd' : 0 < s.depth := Nat.pos_of_ne_zero hd
    obtain ⟨hs, h1⟩ := codestate_total hI.csNodup (hI.ctx hd').2.2
    obtain ⟨o, ho⟩ := lookupCall_ok (compOf := fun uid => enc (ops.key uid)) hI.inv hI.csNodup h1 uid
    unfold VRun.call
    rw [if_neg hd, if_neg (by simp [(hI.ctx hd').1])]
    rw [ho]
    cases o with
    | none => exact execute_total hH henc hdet hI hF hd' hv ho
    | some p =>
      obtain ⟨cv, sv⟩ := p
      obtain ⟨row, g1, g2, g3, g4, _⟩ := lookupCall_sound (compOf := fun uid => enc (ops.key uid)) hH hI.inv hI.csNodup ho
      obtain ⟨r, hr⟩ := hF row g1
      rw [g2, g4] at hr
      dsimp only
      rw [hr]
      exact ⟨_, _, rfl⟩

/-- After an execution the call is found. -/
theorem execute_found (hH : Function.Injective H) (henc : Function.Injective enc) {s : VRun V} (hI : RunInv H enc ops sem s) (hd : 0 < s.depth)
    {uid : String} (hv : Visible enc ops s.src uid) {r : V} {s' : VRun V} (h : VRun.execute H enc ops s uid = (.ok r, s')) :
    ∃ cv sv r', s'.st.versioner.lookupCall H (enc (ops.key uid)) uid s'.st.codeState = .ok (some (cv, sv)) ∧ s'.calls.get? (uid, sv) = some r' := by
  obtain ⟨t, tr, h1, h2, h3, h4, h5, h6⟩ := trace_spec henc hv
  have hterm : ∀ k n, (k, n) ∈ tr → ∀ a b, n ≠ .terminal a b := by
    intro k n hm a b
    rcases h6 k n hm with ⟨_, _, rfl, _⟩ | ⟨_, _, rfl, _⟩ <;> simp
  unfold VRun.execute at h
  rw [h1] at h
  dsimp only at h
  rw [h2, h3] at h
  obtain ⟨r, st', e1, e2, e3, e4, e5, e6⟩ := executed_spec hH (hI.st hd) (uid := uid) (edges := t.edges.map fun e => (enc e.1, enc e.2)) h4
  rw [e1] at h
  rcases e6 with ⟨e, rfl, e7⟩ | ⟨v, rfl, e7, e8, e9, e10, _, w, e12, e13, e14⟩
  · cases h
  · cases h
    have hrow : (⟨uid, v.semanticVersion, v.contentVersion⟩ : VRow) ∈ st'.versioner.df := by rw [e7]; simp
    have := lookupCall_complete (compOf := fun uid => enc (ops.key uid)) hH e2.inv e2.csNodup hrow e12 e2.sync (by
      intro k x hx
      rw [e14] at hx
      rcases e10 k x hx with h | ⟨kk, dk, cv, _, hm, _⟩
      · exact h
      · exact absurd rfl (hterm _ _ hm dk cv))
    refine ⟨v.contentVersion, v.semanticVersion, ?_⟩
    by_cases hh : s.calls.has (uid, v.semanticVersion) = true
    · obtain ⟨r', hr'⟩ := Dict.mem_keys.1 (Dict.has_iff.1 hh)
      exact ⟨r', this, by dsimp only; rw [if_pos hh]; exact hr'⟩
    · exact ⟨_, this, by dsimp only; rw [if_neg hh, Dict.get?_set, if_pos rfl]⟩

/-- The same call again executes nothing. -/
theorem call_again (hH : Function.Injective H) (henc : Function.Injective enc) (hdet : Determined H enc ops sem) {s : VRun V} (hI : RunInv H enc ops sem s)
    (hd : 0 < s.depth) {uid : String} (hv : Visible enc ops s.src uid) {r : V} {s' : VRun V} (h : VRun.call H enc ops s uid = (.ok r, s')) :
    VRun.call H enc ops s' uid = (.ok r, s') := by
  have h0 := h
  unfold VRun.call at h
  split at h
  · omega
  · rw [if_neg (by simp [(hI.ctx hd).1])] at h
    have hex : VRun.execute H enc ops s uid = (.ok r, s') → VRun.call H enc ops s' uid = (.ok r, s') := by
      intro h
      obtain ⟨e1, e2, e3, e4, _⟩ := execute_spec hH henc hI hd hv h
      obtain ⟨cv, sv, r', g1, g2⟩ := execute_found hH henc hI hd hv h
      have hval : VRun.call H enc ops s' uid = (.ok r', s') := by
        unfold VRun.call
        rw [if_neg (by omega), if_neg (by simp [(e1.ctx (by omega)).1]), g1]
        dsimp only
        rw [g2]
      have := (call_spec hH henc hdet e1 (e2 ▸ hv) hval).2.1 r' rfl
      rw [hval, this, e2, ← e4 r rfl]
    cases hl : s.st.versioner.lookupCall H (enc (ops.key uid)) uid s.st.codeState with
    | error e => rw [hl] at h; cases h
    | ok o =>
      rw [hl] at h
      cases o with
      | none => exact hex h
      | some p =>
        obtain ⟨cv, sv⟩ := p
        dsimp only at h
        cases hg : s.calls.get? (uid, sv) with
        | none => rw [hg] at h; exact hex h
        | some r' => rw [hg] at h; cases h; exact h0

/-! ### what was computed with the same code before -/

/-- A version of the call is recorded, with its result, that belongs to the code `src`. -/
def Known (H : Val → String) (enc : DKey → DepKey) (ops : Ops V) (src : Source) (uid : String) (s : VRun V) : Prop :=
  ∃ row ∈ s.st.versioner.df, row.preCallUid = uid ∧ (∃ r, s.calls.get? (uid, row.semanticVersion) = some r) ∧
    ∃ w, getVersion s.st.versioner.versions (enc (ops.key uid)) row.contentVersion = .ok w ∧
      ∀ k x, w.semanticExpansion.get? k = some x → Needs enc ops src uid k ∧
        ∃ n c, src k = some n ∧ n.content = some c ∧ SemIn s.st.versioner.dags k (c.hash H) x

/-- What only grows. -/
structure Grows (s s' : VRun V) : Prop where
  df : ∀ row ∈ s.st.versioner.df, row ∈ s'.st.versioner.df
  versions : ∀ k cv w, getVersion s.st.versioner.versions k cv = .ok w → getVersion s'.st.versioner.versions k cv = .ok w
  dags : DagsLE s.st.versioner.dags s'.st.versioner.dags
  calls : ∀ p r, s.calls.get? p = some r → s'.calls.get? p = some r

theorem Grows.refl (s : VRun V) : Grows s s := ⟨fun _ h => h, fun _ _ _ h => h, fun _ _ _ h => h, fun _ _ h => h⟩

theorem Known.mono {s s' : VRun V} (hg : Grows s s') {src : Source} {uid : String} (h : Known H enc ops src uid s) : Known H enc ops src uid s' := by
  obtain ⟨row, h1, h2, ⟨r, h3⟩, w, h4, h5⟩ := h
  refine ⟨row, hg.df _ h1, h2, ⟨r, hg.calls _ _ h3⟩, w, hg.versions _ _ _ h4, fun k x hx => ?_⟩
  obtain ⟨a, n, c, b1, b2, b3⟩ := h5 k x hx
  exact ⟨a, n, c, b1, b2, hg.dags _ _ _ b3⟩

theorem execute_grows (hH : Function.Injective H) (henc : Function.Injective enc) {s : VRun V} (hI : RunInv H enc ops sem s) (hd : 0 < s.depth)
    {uid : String} (hv : Visible enc ops s.src uid) {res : Except Err V} {s' : VRun V} (h : VRun.execute H enc ops s uid = (res, s')) : Grows s s' := by
  have hcalls := (execute_spec hH henc hI hd hv h).2.2.2.2.1
  obtain ⟨t, tr, h1, h2, h3, h4, h5, h6⟩ := trace_spec henc hv
  unfold VRun.execute at h
  rw [h1] at h
  dsimp only at h
  rw [h2, h3] at h
  obtain ⟨r, st', e1, e2, e3, e4, e5, e6⟩ := executed_spec hH (hI.st hd) (uid := uid) (edges := t.edges.map fun e => (enc e.1, enc e.2)) h4
  rw [e1] at h
  rcases e6 with ⟨e, rfl, e7⟩ | ⟨v, rfl, e7, _⟩
  · cases h
    exact ⟨fun row hr => by dsimp only; rw [e7]; exact hr, e4, e3, hcalls⟩
  · cases h
    exact ⟨fun row hr => by dsimp only; rw [e7]; exact List.mem_append_left _ hr, e4, e3, hcalls⟩

/-- A call is one of: nothing but a plain execution, an error without effect, a hit, an execution. -/
theorem call_cases (hH : Function.Injective H) {s : VRun V} (hI : RunInv H enc ops sem s) (hd : 0 < s.depth)
    {uid : String} {res : Except Err V} {s' : VRun V} (h : VRun.call H enc ops s uid = (res, s')) :
    VRun.execute H enc ops s uid = (res, s') ∨ s' = s ∧ ((∃ e, res = .error e) ∨ ∃ r cv sv, res = .ok r ∧
      s.st.versioner.lookupCall H (enc (ops.key uid)) uid s.st.codeState = .ok (some (cv, sv)) ∧ s.calls.get? (uid, sv) = some r) := by
  unfold VRun.call at h
  rw [if_neg (by omega), if_neg (by simp [(hI.ctx hd).1])] at h
  cases hl : s.st.versioner.lookupCall H (enc (ops.key uid)) uid s.st.codeState with
  | error e => rw [hl] at h; cases h; exact .inr ⟨rfl, .inl ⟨_, rfl⟩⟩
  | ok o =>
    rw [hl] at h
    cases o with
    | none => exact .inl h
    | some p =>
      obtain ⟨cv, sv⟩ := p
      dsimp only at h
      cases hg : s.calls.get? (uid, sv) with
      | none => rw [hg] at h; exact .inl h
      | some r => rw [hg] at h; cases h; exact .inr ⟨rfl, .inr ⟨_, cv, sv, rfl, rfl, hg⟩⟩

theorem call_grows (hH : Function.Injective H) (henc : Function.Injective enc) {s : VRun V} (hI : RunInv H enc ops sem s)
    {uid : String} (hv : Visible enc ops s.src uid) : Grows s (VRun.call H enc ops s uid).2 := by
  by_cases hd : s.depth = 0
  · unfold VRun.call
    rw [if_pos hd]
    exact ⟨fun _ h => h, fun _ _ _ h => h, fun _ _ _ h => h, fun _ _ h => h⟩
  · have hd : 0 < s.depth := Nat.pos_of_ne_zero hd
    cases hc : VRun.call H enc ops s uid with
    | mk res s' =>
      rcases call_cases hH hI hd hc with h | ⟨rfl, _⟩
      · exact execute_grows hH henc hI hd hv h
      · exact .refl _

theorem step_grows (hH : Function.Injective H) (henc : Function.Injective enc) {s : VRun V} (hI : RunInv H enc ops sem s)
    {cmd : VRun.Cmd} (hp : Proper H enc ops sem s cmd) (hn : NoDrops [cmd]) : Grows s (VRun.step H enc ops s cmd) := by
  cases cmd with
  | change src => exact ⟨fun _ h => h, fun _ _ _ h => h, fun _ _ _ h => h, fun _ _ h => h⟩
  | exit => exact ⟨fun _ h => h, fun _ _ _ h => h, fun _ _ _ h => h, fun _ _ h => h⟩
  | enter cs answer =>
    obtain ⟨h1, h2, h3⟩ := hp
    unfold VRun.step
    dsimp only
    cases he : VRun.enter H s cs answer with
    | mk r s' =>
      rw [he] at h3
      cases h3
      obtain ⟨ds, hs, rfl⟩ := enter_ok he
      exact ⟨fun _ h => h, fun _ _ _ h => h, (hI.inv.sync hs).2.1, fun _ _ h => h⟩
  | call uid => exact call_grows hH henc hI hp
  | dropCalls l => exact hn.elim
  | dropVersion sv l => exact hn.elim

theorem NoDrops.cons {c : VRun.Cmd} {cs : List VRun.Cmd} (h : NoDrops (c :: cs)) : NoDrops [c] ∧ NoDrops cs := by
  cases c <;> first | exact ⟨trivial, h⟩ | exact h.elim

theorem Known.run (hH : Function.Injective H) (henc : Function.Injective enc) (hdet : Determined H enc ops sem) {src : Source} {uid : String} :
    ∀ (cmds : List VRun.Cmd) {s : VRun V}, RunInv H enc ops sem s → ProperAll H enc ops sem s cmds → NoDrops cmds → Known H enc ops src uid s →
      Known H enc ops src uid (VRun.run H enc ops s cmds)
  | [], _, _, _, _, h => h
  | _ :: cmds, _, hI, hp, hn, h =>
    Known.run hH henc hdet cmds (hI.step hH henc hdet hp.1) hp.2 hn.cons.2 (h.mono (step_grows hH henc hI hp.1 hn.cons.1))

/-- After a call its result is known. -/
theorem call_known (hH : Function.Injective H) (henc : Function.Injective enc) (hdet : Determined H enc ops sem) {s : VRun V} (hI : RunInv H enc ops sem s)
    (hd : 0 < s.depth) {uid : String} (hv : Visible enc ops s.src uid) {r : V} {s' : VRun V} (h : VRun.call H enc ops s uid = (.ok r, s')) :
    Known H enc ops s.src uid s' := by
  have hagain := call_again hH henc hdet hI hd hv h
  have hkeep : RunInv H enc ops sem s' ∧ s'.src = s.src ∧ 0 < s'.depth := by
    rcases call_cases hH hI hd h with h | ⟨rfl, _⟩
    · obtain ⟨h1, h2, h3, _⟩ := execute_spec hH henc hI hd hv h
      exact ⟨h1, h2, by omega⟩
    · exact ⟨hI, rfl, hd⟩
  obtain ⟨hI', hsrc, hd'⟩ := hkeep
  have hv' : Visible enc ops s'.src uid := hsrc ▸ hv
  have hlog : ∀ {s : VRun V} {res s'}, VRun.execute H enc ops s uid = (res, s') → s'.log = uid :: s.log := by
    intro s res s' h
    unfold VRun.execute at h
    split at h
    · cases h; rfl
    · split at h <;> cases h <;> rfl
  rcases call_cases hH hI' hd' hagain with h | ⟨_, ⟨e, he⟩ | ⟨r', cv, sv, hr, hl, hg⟩⟩
  · have h2 := hlog h
    have h3 := congrArg List.length h2
    simp at h3
  · cases he
  · obtain ⟨row, g1, g2, g3, g4, w, g5, rfl, g6⟩ := lookupCall_sound (compOf := fun uid => enc (ops.key uid)) hH hI'.inv hI'.csNodup hl
    subst g3
    have hw := (hI'.inv.vers _ _ _ g5).1
    obtain ⟨src, se, h1, h2, h4, h5, h6, h7⟩ := hI'.calls _ _ _ (mem_of_get? hg)
    have hneed := (hdet src s'.src uid h1 hv' fun k hk hk' => (by
      obtain ⟨x, hx⟩ := Dict.mem_keys.1 ((h6 k).2 hk)
      rw [h7 k x hx, meaning_cur hI' hd' (g6 k x ((expansion_eq hH hw h4 h5 k).trans hx))])).1
    refine ⟨row, g1, g2, ⟨r', by rw [g4]; exact hg⟩, w, g5, fun k x hx => ⟨?_, ?_⟩⟩
    · rw [← hsrc, ← hneed, ← h6]
      exact Dict.mem_keys.2 ⟨x, (expansion_eq hH hw h4 h5 k).symm.trans hx⟩
    · obtain ⟨n, c, a1, a2, a3⟩ := g6 k x hx
      exact ⟨n, c, hsrc ▸ (hI'.ctx hd').2.1.sub _ _ a1, a2, a3⟩

/-- What is known is not executed again. -/
theorem known_hit (hH : Function.Injective H) {s : VRun V} (hI : RunInv H enc ops sem s)
    (hd : 0 < s.depth) {src : Source} {uid : String} (hk : Known H enc ops src uid s) (hu : Unchanged H enc ops src s.src uid) :
    ∃ r, VRun.call H enc ops s uid = (.ok r, s) := by
  obtain ⟨row, h1, rfl, ⟨r, h3⟩, w, h4, h5⟩ := hk
  obtain ⟨hwok, _, _, htopo⟩ := hI.inv.vers _ _ _ h4
  have hl := lookupCall_complete (compOf := fun uid => enc (ops.key uid)) hH hI.inv hI.csNodup h1 h4 (hI.ctx hd).2.2 (by
    intro k x hx
    obtain ⟨a, n, c, b1, b2, b3⟩ := h5 k x hx
    obtain ⟨y, n', c', d1, d2, d3⟩ := (hI.ctx hd).2.2 k (htopo k ((hwok.dom k).2 (Dict.mem_keys.2 ⟨x, hx⟩)))
    have := hu k a
    rw [b1, (hI.ctx hd).2.1.sub _ _ d1] at this
    simp only [Option.bind_some, b2, d2, Option.map_some, Option.some.injEq] at this
    refine ⟨n', c', d1, d2, ?_⟩
    rw [← this]
    exact b3)
  refine ⟨r, ?_⟩
  unfold VRun.call
  rw [if_neg (by omega), if_neg (by simp [(hI.ctx hd).1])]
  rw [hl]
  dsimp only
  rw [h3]

end Verif.Props
