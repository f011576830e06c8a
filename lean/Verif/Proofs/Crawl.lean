import Verif.Spec.Crawl
import Verif.Proofs.HashDict
/-!
What `guess_code_state` finds.
-/
namespace Verif.Props

open Verif PyProc

variable {w : PyProc} {fuel : Nat} {strict : Bool} {m : String}

/-! ### unwrapping -/

theorem Wraps.unique {a b c : Addr} (h : Wraps w a b) (g : Wraps w a c) : b = c := by
  induction h with
  | last hf hw =>
    cases g with
    | last => rfl
    | func h => exact absurd h (hf _ _ _ _ _)
    | wrapping h => exact absurd h (hw _ _)
  | func h _ ih =>
    cases g with
    | last hf => exact absurd h (hf _ _ _ _ _)
    | func h' g => rw [h] at h'; cases h'; exact ih g
    | wrapping h' => rw [h] at h'; cases h'
  | wrapping h _ ih =>
    cases g with
    | last _ hw => exact absurd h (hw _ _)
    | func h' => rw [h] at h'; cases h'
    | wrapping h' g => rw [h] at h'; cases h'; exact ih g

theorem unwrap_wraps : ∀ (n : Nat) (a c : Addr), w.unwrap n a = .ok c → Wraps w a c
  | 0, _, _, h => by cases h
  | n + 1, a, c, h => by
    unfold unwrap at h
    split at h
    · next ho => exact .func ho (unwrap_wraps n _ _ h)
    · next ho => exact .wrapping ho (unwrap_wraps n _ _ h)
    · next h1 h2 => cases h; exact .last (fun m q s rt b hb => h1 m q s rt b hb) (fun k b hb => h2 k b hb)

/-- The end of the chain. -/
theorem Wraps.inner {a c : Addr} (h : Wraps w a c) : (∀ m q s rt b, w.obj c ≠ .func m q s rt (some b)) ∧ ∀ k b, w.obj c ≠ .wrapping k b := by
  induction h with
  | last hf hw => exact ⟨hf, hw⟩
  | func _ _ ih => exact ih
  | wrapping _ _ ih => exact ih

theorem FunctionAt.unique {a : Addr} {s rt s' rt' : String} (h : FunctionAt w a s rt) (g : FunctionAt w a s' rt') : s = s' ∧ rt = rt' := by
  obtain ⟨b, c, m, q, o, h1, h2, h3⟩ := h
  obtain ⟨b', c', m', q', o', g1, g2, g3⟩ := g
  have hb : b = b' := by
    rcases h1 with h1 | ⟨h1, rfl⟩
    · rcases g1 with g1 | ⟨g1, _⟩
      · rw [h1] at g1; cases g1; rfl
      · exact absurd h1 (g1 b)
    · rcases g1 with g1 | ⟨_, rfl⟩
      · exact absurd g1 (h1 b')
      · rfl
  subst hb
  have hc := h2.unique g2
  subst hc
  rw [h3] at g3
  cases g3
  exact ⟨rfl, rfl⟩

theorem callableNode_sound {a : Addr} {n : TNode} (h : w.callableNode fuel a = .ok n) : ∃ s rt, n = .callable (some s) rt ∧ FunctionAt w a s rt := by
  unfold callableNode at h
  dsimp only at h
  split at h
  · cases h
  · next c hc =>
    have hw := unwrap_wraps _ _ _ hc
    split at h
    · next m q s rt o ho =>
      cases h
      refine ⟨s, rt, rfl, _, c, m, q, o, ?_, hw, ho⟩
      split
      · next f hf => exact .inl hf
      · next hf => exact .inr ⟨fun f hf' => hf f hf', rfl⟩
    · cases h

theorem callableNode_eq {a : Addr} {n : TNode} (h : w.callableNode fuel a = .ok n) {s rt : String} (hf : FunctionAt w a s rt) :
    n = .callable (some s) rt := by
  obtain ⟨s', rt', rfl, h'⟩ := callableNode_sound h
  obtain ⟨rfl, rfl⟩ := h'.unique hf
  rfl

theorem attr_init {own inh : Dict String Addr} {x : String} {i : Addr} :
    PyProc.attr own inh x = some i ↔ (own.get? x = some i ∨ own.get? x = none ∧ inh.get? x = some i) := by
  unfold PyProc.attr
  cases h : own.get? x with
  | none => simp
  | some a => simp

theorem extractFunc_behind {a v : Addr} (h : w.extractFunc fuel strict a = .ok v) : Behind w a v ∨ v = w.unknown := by
  unfold extractFunc at h
  split at h
  · next f hf => cases h; exact .inl (.op hf)
  · next hop =>
    split at h
    · cases h
    · next b hb =>
      have hw := unwrap_wraps _ _ _ hb
      split at h
      · next hf => cases h; exact .inl (.func (fun f hf' => hop f hf') hw hf)
      · split at h <;> cases h
      · next hc =>
        split at h
        · cases h
        · split at h
          · cases h; exact .inr rfl
          · next i hi =>
            split at h
            · cases h
              exact .inl (.cls hw hc (attr_init.1 hi))
            · cases h; exact .inr rfl
      · split at h
        · cases h
        · cases h; exact .inr rfl

/-! ### loops -/

theorem foldE_inv {α β : Type} {f : β → α → Except Err β} {P : β → Prop} : ∀ (l : List α) (b b' : β), foldE f b l = .ok b' → P b →
    (∀ b x b', x ∈ l → P b → f b x = .ok b' → P b') → P b'
  | [], b, b', h, hb, _ => by cases h; exact hb
  | x :: l, b, b', h, hb, hf => by
    unfold foldE at h
    split at h
    · cases h
    · next b1 h1 => exact foldE_inv l b1 b' h (hf _ _ _ (List.mem_cons_self ..) hb h1) fun b x b' hx => hf b x b' (List.mem_cons_of_mem _ hx)

/-- Every element has been visited, and what its visit has established lasts. -/
theorem foldE_visit {α β : Type} {f : β → α → Except Err β} (R : β → β → Prop) (hr : ∀ b, R b b) (ht : ∀ a b c, R a b → R b c → R a c) :
    ∀ (l : List α) (b b' : β), (∀ b x b', x ∈ l → f b x = .ok b' → R b b') → foldE f b l = .ok b' →
      R b b' ∧ ∀ x ∈ l, ∃ b1 b2, f b1 x = .ok b2 ∧ R b2 b'
  | [], b, b', _, h => by cases h; exact ⟨hr _, fun _ h => by cases h⟩
  | x :: l, b, b', hf, h => by
    unfold foldE at h
    split at h
    · cases h
    · next b1 h1 =>
      obtain ⟨g1, g2⟩ := foldE_visit R hr ht l b1 b' (fun b x b' hx => hf b x b' (List.mem_cons_of_mem _ hx)) h
      refine ⟨ht _ _ _ (hf _ _ _ (List.mem_cons_self ..) h1) g1, fun y hy => ?_⟩
      rcases List.mem_cons.1 hy with rfl | hy
      · exact ⟨_, _, h1, g1⟩
      · exact g2 y hy

theorem foldE_total {α β : Type} {f : β → α → Except Err β} : ∀ (l : List α) (b : β), (∀ b x, x ∈ l → ∃ b', f b x = .ok b') → ∃ b', foldE f b l = .ok b'
  | [], b, _ => ⟨b, rfl⟩
  | x :: l, b, h => by
    obtain ⟨b1, h1⟩ := h b x (List.mem_cons_self ..)
    unfold foldE
    rw [h1]
    exact foldE_total l b1 fun b y hy => h b y (List.mem_cons_of_mem _ hy)

/-! ### the crawl: what is found is there -/

/-- Where an entry comes from. -/
def Origin (w : PyProc) (fuel : Nat) (k : DKey) (n : TNode) : Prop :=
  (∃ a v, Part w k.1 a ∧ Behind w a v ∧ Named w k.1 k.2 v ∧ w.callableNode fuel v = .ok n) ∨
    ∃ m, Named w m k.2 w.unknown ∧ w.callableNode fuel w.unknown = .ok n

def AllFrom (w : PyProc) (fuel : Nat) (mods : List String) (acc : Dict DKey TNode) : Prop :=
  ∀ k n, acc.get? k = some n → k.1 ∈ mods ∧ Origin w fuel k n

theorem crawlFunc_sound {mods : List String} (hm : m ∈ mods) {a : Addr} (ha : Part w m a) {acc acc' : Dict DKey TNode} {b : Bool}
    (hacc : AllFrom w fuel mods acc) (h : w.crawlFunc fuel strict m a acc = .ok (acc', b)) : AllFrom w fuel mods acc' := by
  unfold crawlFunc at h
  split at h
  · split at h
    · cases h
    · split at h
      · cases h; exact hacc
      · split at h
        · cases h
        · next v hv =>
          split at h
          · next m' q s rt o ho =>
            split at h
            · cases h; exact hacc
            · next hne =>
              split at h
              · cases h
              · next n hn =>
                cases h
                intro k n' hk
                rw [Dict.get?_set] at hk
                split at hk
                · next he =>
                  cases hk
                  subst he
                  refine ⟨hm, ?_⟩
                  by_cases hu : v = w.unknown
                  · subst hu
                    exact .inr ⟨m', ⟨s, rt, o, ho⟩, hn⟩
                  · have hmm : m' = m := Classical.byContradiction fun hc => hne ⟨hu, hc⟩
                    subst hmm
                    rcases extractFunc_behind hv with hb | hb
                    · exact .inl ⟨a, v, ha, hb, ⟨s, rt, o, ho⟩, hn⟩
                    · exact absurd hb hu
                · exact hacc k n' hk
          · cases h
  · cases h; exact hacc

theorem crawlObj_sound {mods : List String} (hm : m ∈ mods) : ∀ (n : Nat) (a : Addr) (acc acc' : Dict DKey TNode), Part w m a →
    AllFrom w fuel mods acc → w.crawlObj fuel strict m n acc a = .ok acc' → AllFrom w fuel mods acc'
  | 0, _, _, _, _, _, h => by cases h
  | n + 1, a, acc, acc', ha, hacc, h => by
    unfold crawlObj at h
    split at h
    · cases h
    · next hc => cases h; exact crawlFunc_sound hm ha hacc hc
    · next acc1 hc =>
      have h1 := crawlFunc_sound hm ha hacc hc
      split at h
      · next m' own inh ho =>
        split at h
        · cases h; exact h1
        · next hmm =>
          have hmm : m' = m := Classical.byContradiction fun hc => hmm hc
          have ho : w.obj a = .cls m own inh := hmm ▸ ho
          refine foldE_inv (P := AllFrom w fuel mods) _ _ _ h h1 fun b x b' hx hb hf => ?_
          obtain ⟨p, hp, rfl⟩ := List.mem_map.1 hx
          exact crawlObj_sound hm n p.2 b b' (.attr (x := p.1) ha ho hp) hb hf
      · cases h; exact h1

theorem crawlStatic_sound {mods : List String} {st : Dict DKey TNode} (h : w.crawlStatic fuel strict mods = .ok st) : AllFrom w fuel mods st := by
  refine foldE_inv (P := AllFrom w fuel mods) _ _ _ h (fun _ _ h => by cases h) fun b m b' hm hb hf => ?_
  split at hf
  · split at hf
    · cases hf
    · cases hf; exact hb
  · next d hd =>
    refine foldE_inv (P := AllFrom w fuel mods) _ _ _ hf hb fun b x b' hx hb hf => ?_
    obtain ⟨p, hp, rfl⟩ := List.mem_map.1 hx
    exact crawlObj_sound hm _ _ _ _ (.top (x := p.1) hd hp) hb hf

/-! ### the crawl: what is there is found -/

def KeysLE (a b : Dict DKey TNode) : Prop := ∀ k, k ∈ a.keys → k ∈ b.keys

theorem crawlFunc_keys {a : Addr} {acc acc' : Dict DKey TNode} {b : Bool} (h : w.crawlFunc fuel strict m a acc = .ok (acc', b)) : KeysLE acc acc' := by
  unfold crawlFunc at h
  split at h
  · split at h
    · cases h
    · split at h
      · cases h; exact fun _ h => h
      · split at h
        · cases h
        · split at h
          · split at h
            · cases h; exact fun _ h => h
            · split at h
              · cases h
              · cases h; intro k hk; rw [Dict.mem_keys_set]; exact .inr hk
          · cases h
  · cases h; exact fun _ h => h

theorem crawlObj_keys : ∀ (n : Nat) (a : Addr) (acc acc' : Dict DKey TNode), w.crawlObj fuel strict m n acc a = .ok acc' → KeysLE acc acc'
  | 0, _, _, _, h => by cases h
  | n + 1, a, acc, acc', h => by
    unfold crawlObj at h
    split at h
    · cases h
    · next hc => cases h; exact crawlFunc_keys hc
    · next acc1 hc =>
      have h1 := crawlFunc_keys hc
      split at h
      · split at h
        · cases h; exact h1
        · refine foldE_inv (P := KeysLE acc) _ _ _ h h1 fun b x b' hx hb hf => ?_
          exact fun k hk => crawlObj_keys n x b b' hf k (hb k hk)
      · cases h; exact h1

/-- The object has been looked at, and what was found there is in the table. -/
def Looked (w : PyProc) (fuel : Nat) (strict : Bool) (m : String) (st : Dict DKey TNode) (a : Addr) : Prop :=
  ∃ n acc acc', w.crawlObj fuel strict m n acc a = .ok acc' ∧ KeysLE acc' st

theorem not_stopped {a : Addr} {own inh : Dict String Addr} (ha : w.obj a = .cls m own inh)
    (hi : strict = true ∨ ∀ i m' q s rt o, InitOf own inh i → w.obj i = .func m' q s rt o → m' = m) {acc acc' : Dict DKey TNode} {b : Bool}
    (h : w.crawlFunc fuel strict m a acc = .ok (acc', b)) : b = false := by
  unfold crawlFunc at h
  split at h
  · next hcall =>
    have hst : strict = false := by
      unfold isCallableObj at hcall
      rw [ha] at hcall
      simpa using hcall
    split at h
    · cases h
    · next c hc =>
      have hca : c = a := (unwrap_wraps _ _ _ hc).unique (.last (by intros; rw [ha]; simp) (by intros; rw [ha]; simp))
      subst hca
      split at h
      · next hb => rw [ha] at hb; cases hb
      · split at h
        · cases h
        · next v hv =>
          split at h
          · next m' q s rt o ho =>
            split at h
            · next hne =>
              exfalso
              unfold extractFunc at hv
              rw [ha] at hv
              dsimp only at hv
              rw [hc] at hv
              dsimp only at hv
              rw [ha] at hv
              dsimp only at hv
              rw [if_neg (by rw [hst]; simp)] at hv
              split at hv
              · cases hv; exact hne.1 rfl
              · next i hia =>
                split at hv
                · next hfi =>
                  cases hv
                  rcases hi with hi | hi
                  · rw [hst] at hi; cases hi
                  · exact hne.2 (hi _ m' q s rt o (attr_init.1 hia) ho)
                · cases hv; exact hne.1 rfl
            · split at h
              · cases h
              · cases h; rfl
          · cases h
  · cases h; rfl

theorem searched_looked {mods : List String} {st : Dict DKey TNode} (h : w.crawlStatic fuel strict mods = .ok st) (hm : m ∈ mods) {a : Addr}
    (ha : Searched w strict m a) : Looked w fuel strict m st a := by
  induction ha with
  | @top d x a hd hx =>
    unfold crawlStatic at h
    obtain ⟨_, hv⟩ := foldE_visit KeysLE (fun _ _ h => h) (fun _ _ _ h1 h2 k hk => h2 k (h1 k hk)) mods [] st (fun b m b' _ hf => by
      split at hf
      · split at hf
        · cases hf
        · cases hf; exact fun _ h => h
      · exact foldE_inv (P := KeysLE b) _ _ _ hf (fun _ h => h) fun b1 x b2 _ h1 h2 k hk => crawlObj_keys _ _ _ _ h2 k (h1 k hk)) h
    obtain ⟨b1, b2, h1, h2⟩ := hv m hm
    rw [hd] at h1
    dsimp only at h1
    obtain ⟨_, hv'⟩ := foldE_visit KeysLE (fun _ _ h => h) (fun _ _ _ h1 h2 k hk => h2 k (h1 k hk)) _ _ _
      (fun b x b' _ hf => crawlObj_keys _ _ _ _ hf) h1
    obtain ⟨c1, c2, g1, g2⟩ := hv' a (List.mem_map.2 ⟨(x, a), hx, rfl⟩)
    exact ⟨_, c1, c2, g1, fun k hk => h2 k (g2 k hk)⟩
  | @attr a b x own inh _ ho hb hi ih =>
    obtain ⟨n, acc, acc', h1, h2⟩ := ih
    cases n with
    | zero => cases h1
    | succ n =>
      unfold crawlObj at h1
      split at h1
      · cases h1
      · next hc => cases not_stopped ho hi hc
      · next acc1 hc =>
        rw [ho] at h1
        dsimp only at h1
        rw [if_neg (fun h => h rfl)] at h1
        obtain ⟨_, hv'⟩ := foldE_visit KeysLE (fun _ _ h => h) (fun _ _ _ h1 h2 k hk => h2 k (h1 k hk)) _ _ _
          (fun b x b' _ hf => crawlObj_keys _ _ _ _ hf) h1
        obtain ⟨c1, c2, g1, g2⟩ := hv' b (List.mem_map.2 ⟨(x, b), hb, rfl⟩)
        exact ⟨_, c1, c2, g1, fun k hk => h2 k (g2 k hk)⟩

theorem extractFunc_eq {a v v' : Addr} {q : String} (h : w.extractFunc fuel strict a = .ok v') (hv : Behind w a v) (hn : Named w m q v) : v' = v := by
  obtain ⟨s, rt, o, ho⟩ := hn
  unfold extractFunc at h
  cases hv with
  | op hf => rw [hf] at h; cases h; rfl
  | func hop hwc hf =>
    split at h
    · next f hf' => exact absurd hf' (hop f)
    · split at h
      · cases h
      · next b hb =>
        have := (unwrap_wraps _ _ _ hb).unique hwc
        subst this
        rw [hf] at h
        cases h
        rfl
  | cls hwc hcl hi =>
    split at h
    · next f hf' =>
      cases hwc with
      | last => rw [hcl] at hf'; cases hf'
      | func h' => rw [hf'] at h'; cases h'
      | wrapping h' => rw [hf'] at h'; cases h'
    · split at h
      · cases h
      · next b hb =>
        have := (unwrap_wraps _ _ _ hb).unique hwc
        subst this
        rw [hcl] at h
        dsimp only at h
        split at h
        · cases h
        · rw [attr_init.2 hi] at h
          dsimp only at h
          rw [ho] at h
          cases h
          rfl

theorem behind_not_builtin {a b v : Addr} (h : Wraps w a b) (hv : Behind w a v) : w.obj b ≠ .builtin := by
  intro hb
  cases hv with
  | op hf =>
    cases h with
    | last => rw [hf] at hb; cases hb
    | func h' => rw [hf] at h'; cases h'
    | wrapping h' => rw [hf] at h'; cases h'
  | func _ hwc hf => rw [h.unique hwc, hf] at hb; cases hb
  | cls hwc hcl _ => rw [h.unique hwc, hcl] at hb; cases hb

theorem looked_found {st : Dict DKey TNode} {a v : Addr} {q : String} (h : Looked w fuel strict m st a) (hr : Recognised w strict a)
    (hv : Behind w a v) (hn : Named w m q v) : (m, q) ∈ st.keys := by
  obtain ⟨n, acc, acc', h1, h2⟩ := h
  cases n with
  | zero => cases h1
  | succ n =>
    have hcall : w.isCallableObj strict a = true := by
      unfold isCallableObj
      rcases hr with ⟨f, hf⟩ | ⟨_, _, _, _, _, hf⟩ | ⟨hst, k, f, hf, hk⟩
      · rw [hf]
      · rw [hf]
      · rw [hf]
        cases k with
        | clsmethod => exact absurd rfl hk
        | static => rw [hst]; rfl
        | caller => rw [hst]; rfl
    have key : ∀ {b}, w.crawlFunc fuel strict m a acc = .ok b → (m, q) ∈ b.1.keys := by
      intro b hb
      unfold crawlFunc at hb
      rw [if_pos hcall] at hb
      split at hb
      · cases hb
      · next c hc =>
        rw [if_neg (behind_not_builtin (unwrap_wraps _ _ _ hc) hv)] at hb
        split at hb
        · cases hb
        · next v' hv' =>
          have := extractFunc_eq hv' hv hn
          subst this
          obtain ⟨s, rt, o, ho⟩ := hn
          rw [ho] at hb
          dsimp only at hb
          rw [if_neg (fun h => h.2 rfl)] at hb
          split at hb
          · cases hb
          · cases hb
            rw [Dict.mem_keys_set]
            exact .inl rfl
    unfold crawlObj at h1
    split at h1
    · cases h1
    · next hc => cases h1; exact h2 _ (key hc)
    · next acc1 hc =>
      refine h2 _ ?_
      have hk := key hc
      dsimp only at hk
      split at h1
      · split at h1
        · cases h1; exact hk
        · exact foldE_inv (P := KeysLE acc1) _ _ _ h1 (fun _ h => h) (fun b1 x b2 _ g1 g2 k hk => crawlObj_keys _ _ _ _ g2 k (g1 k hk)) _ hk
      · cases h1; exact hk

theorem crawlFunc_nodup {a : Addr} {acc acc' : Dict DKey TNode} {b : Bool} (hn : acc.keys.Nodup)
    (h : w.crawlFunc fuel strict m a acc = .ok (acc', b)) : acc'.keys.Nodup := by
  unfold crawlFunc at h
  split at h
  · split at h
    · cases h
    · split at h
      · cases h; exact hn
      · split at h
        · cases h
        · split at h
          · split at h
            · cases h; exact hn
            · split at h
              · cases h
              · cases h; exact Dict.nodup_set hn _ _
          · cases h
  · cases h; exact hn

theorem crawlObj_nodup : ∀ (n : Nat) (a : Addr) (acc acc' : Dict DKey TNode), acc.keys.Nodup → w.crawlObj fuel strict m n acc a = .ok acc' → acc'.keys.Nodup
  | 0, _, _, _, _, h => by cases h
  | n + 1, a, acc, acc', hn, h => by
    unfold crawlObj at h
    split at h
    · cases h
    · next hc => cases h; exact crawlFunc_nodup hn hc
    · next acc1 hc =>
      have h1 := crawlFunc_nodup hn hc
      split at h
      · split at h
        · cases h; exact h1
        · exact foldE_inv (P := fun b => b.keys.Nodup) _ _ _ h h1 fun b x b' _ hb hf => crawlObj_nodup n x b b' hb hf
      · cases h; exact h1

theorem crawlStatic_nodup {mods : List String} {st : Dict DKey TNode} (h : w.crawlStatic fuel strict mods = .ok st) : st.keys.Nodup := by
  refine foldE_inv (P := fun b => b.keys.Nodup) _ _ _ h (by simp [Dict.keys]) fun b m b' _ hb hf => ?_
  split at hf
  · split at hf
    · cases hf
    · cases hf; exact hb
  · exact foldE_inv (P := fun b => b.keys.Nodup) _ _ _ hf hb fun b x b' _ hb hf => crawlObj_nodup _ _ _ _ hb hf

/-! ### loading by name -/

theorem loadIn_denotes {p xs : List String} {a b : Addr} (hp : Denotes w m p a) (h : w.loadIn a xs = some b) : Denotes w m (p ++ xs) b := by
  induction xs generalizing p a with
  | nil => cases h; rw [List.append_nil]; exact hp
  | cons x xs ih =>
    unfold loadIn at h
    split at h
    · next ho =>
      split at h
      · cases h
      · next c hc =>
        have := ih (.attr hp ho (attr_init.1 hc)) h
        rwa [List.append_assoc] at this
    · cases h

theorem Denotes.load {p : List String} {a : Addr} (hp : Denotes w m p a) :
    ∃ d x xs a0, w.modules.get? m = some d ∧ p = x :: xs ∧ d.get? x = some a0 ∧ w.loadIn a0 xs = some a := by
  have happ : ∀ (xs : List String) (a0 a : Addr) (x : String) (b : Addr) (c : String) (own inh : Dict String Addr), w.loadIn a0 xs = some a →
      w.obj a = .cls c own inh → (own.get? x = some b ∨ own.get? x = none ∧ inh.get? x = some b) → w.loadIn a0 (xs ++ [x]) = some (w.bound b) := by
    intro xs
    induction xs with
    | nil =>
      intro a0 a x b c own inh h1 h2 h3
      cases h1
      show w.loadIn a0 [x] = _
      unfold loadIn
      rw [h2]
      dsimp only
      rw [attr_init.2 h3]
      rfl
    | cons y xs ih =>
      intro a0 a x b c own inh h1 h2 h3
      rw [List.cons_append]
      unfold loadIn at h1 ⊢
      split at h1
      · split at h1
        · cases h1
        · exact ih _ _ _ _ _ _ _ h1 h2 h3
      · cases h1
  induction hp with
  | top hm hx => exact ⟨_, _, [], _, hm, rfl, hx, rfl⟩
  | attr _ ha hb ih =>
    obtain ⟨d, x, xs, a0, h1, rfl, h3, h4⟩ := ih
    exact ⟨d, x, _, a0, h1, rfl, h3, happ _ _ _ _ _ _ _ _ h4 ha hb⟩

theorem loadObj_denotes {k : DKey} {a : Addr} : w.loadObj k = .ok (some a) ↔ Denotes w k.1 (splitDots k.2) a := by
  constructor
  · intro h
    unfold loadObj at h
    split at h
    · cases h
    · next d hd =>
      split at h
      · cases h
      · next x xs hs =>
        split at h
        · cases h
        · next a0 ha0 =>
          rw [hs]
          exact loadIn_denotes (.top hd ha0) (Except.ok.inj h)
  · intro h
    obtain ⟨d, x, xs, a0, h1, h2, h3, h4⟩ := h.load
    unfold loadObj
    rw [h1, h2]
    dsimp only
    rw [h3]
    dsimp only
    rw [h4]

/-! ### the code state -/

theorem currentNodes_spec {skip : Bool} {parts : DepKey → DKey} : ∀ (l : List (DepKey × TNode)) (acc cs : CodeState),
    foldE (fun acc (p : DepKey × TNode) => match w.currentNode fuel skip (parts p.1) p.2 with | .error e => .error e | .ok n => .ok (Dict.set acc p.1 n)) acc l = .ok cs →
    (Dict.keys l).Nodup → (∀ k, k ∈ cs.keys ↔ k ∈ acc.keys ∨ k ∈ Dict.keys l) ∧ (acc.keys.Nodup → cs.keys.Nodup) ∧
      (∀ p ∈ l, ∃ n, cs.get? p.1 = some n ∧ w.currentNode fuel skip (parts p.1) p.2 = .ok n) ∧ ∀ k, k ∉ Dict.keys l → cs.get? k = acc.get? k
  | [], acc, cs, h, _ => by
    cases h
    exact ⟨fun k => by simp [Dict.keys], fun h => h, fun _ h => (by cases h), fun _ _ => rfl⟩
  | p :: l, acc, cs, h, hn => by
    unfold foldE at h
    split at h
    · cases h
    · next acc1 h1 =>
      split at h1
      · cases h1
      · next n hnode =>
        cases h1
        have hn' : p.1 ∉ Dict.keys l ∧ (Dict.keys l).Nodup := List.nodup_cons.1 hn
        obtain ⟨g1, g2, g3, g4⟩ := currentNodes_spec l _ cs h hn'.2
        refine ⟨fun k => ?_, fun ha => g2 (Dict.nodup_set ha _ _), fun q hq => ?_, fun k hk => ?_⟩
        · rw [g1, Dict.mem_keys_set]
          show _ ↔ _ ∨ k ∈ p.1 :: Dict.keys l
          rw [List.mem_cons]
          constructor
          · rintro ((h | h) | h)
            · exact .inr (.inl h)
            · exact .inl h
            · exact .inr (.inr h)
          · rintro (h | h | h)
            · exact .inl (.inr h)
            · exact .inl (.inl h)
            · exact .inr h
        · rcases List.mem_cons.1 hq with rfl | hq
          · refine ⟨n, ?_, hnode⟩
            rw [g4 _ hn'.1, Dict.get?_set, if_pos rfl]
          · exact g3 q hq
        · have hk' : k ≠ p.1 ∧ k ∉ Dict.keys l := by
            constructor
            · rintro rfl; exact hk (List.mem_cons_self ..)
            · exact fun h => hk (List.mem_cons_of_mem _ h)
          rw [g4 k hk'.2, Dict.get?_set, if_neg (fun h => hk'.1 h.symm)]

theorem fill_spec {enc : DKey → DepKey} (henc : Function.Injective enc) : ∀ (st : List (DKey × TNode)) (cs : CodeState), (Dict.keys st).Nodup →
    (∀ k, k ∈ (st.foldl (fun acc p => if Dict.has acc (enc p.1) then acc else Dict.set acc (enc p.1) p.2) cs).keys ↔ k ∈ cs.keys ∨ ∃ d ∈ Dict.keys st, k = enc d) ∧
    (cs.keys.Nodup → (st.foldl (fun acc p => if Dict.has acc (enc p.1) then acc else Dict.set acc (enc p.1) p.2) cs).keys.Nodup) ∧
    (∀ k n, cs.get? k = some n → (st.foldl (fun acc p => if Dict.has acc (enc p.1) then acc else Dict.set acc (enc p.1) p.2) cs).get? k = some n) ∧
    ∀ k n, (st.foldl (fun acc p => if Dict.has acc (enc p.1) then acc else Dict.set acc (enc p.1) p.2) cs).get? k = some n →
      cs.get? k = some n ∨ k ∉ cs.keys ∧ ∃ d, k = enc d ∧ Dict.get? st d = some n
  | [], cs, _ => ⟨fun k => by simp [Dict.keys], fun h => h, fun _ _ h => h, fun _ _ h => .inl h⟩
  | p :: st, cs, hn => by
    have hn' : p.1 ∉ Dict.keys st ∧ (Dict.keys st).Nodup := List.nodup_cons.1 hn
    rw [List.foldl_cons]
    have hkeys : Dict.keys (p :: st) = p.1 :: Dict.keys st := rfl
    have lift : ∀ d n, Dict.get? st d = some n → Dict.get? (p :: st) d = some n := by
      intro d n hd
      rw [show p :: st = (p.1, p.2) :: st from rfl, Dict.get?_cons, if_neg]
      · exact hd
      · rintro rfl
        exact hn'.1 (Dict.mem_keys.2 ⟨n, hd⟩)
    split
    · next hhas =>
      obtain ⟨h1, h2, h3, h4⟩ := fill_spec henc st cs hn'.2
      refine ⟨fun k => ?_, h2, h3, fun k n hk => ?_⟩
      · rw [h1, hkeys]
        constructor
        · rintro (h | ⟨d, hd, rfl⟩)
          · exact .inl h
          · exact .inr ⟨d, List.mem_cons_of_mem _ hd, rfl⟩
        · rintro (h | ⟨d, hd, rfl⟩)
          · exact .inl h
          · rcases List.mem_cons.1 hd with rfl | hd
            · exact .inl (Dict.has_iff.1 hhas)
            · exact .inr ⟨d, hd, rfl⟩
      · rcases h4 k n hk with h | ⟨hk', d, rfl, hd⟩
        · exact .inl h
        · exact .inr ⟨hk', d, rfl, lift d n hd⟩
    · next hhas =>
      have hnot : enc p.1 ∉ cs.keys := fun h => hhas (Dict.has_iff.2 h)
      obtain ⟨h1, h2, h3, h4⟩ := fill_spec henc st (cs.set (enc p.1) p.2) hn'.2
      refine ⟨fun k => ?_, fun h => h2 (Dict.nodup_set h _ _), fun k n hk => h3 k n ?_, fun k n hk => ?_⟩
      · rw [h1, hkeys, Dict.mem_keys_set]
        constructor
        · rintro ((rfl | h) | ⟨d, hd, rfl⟩)
          · exact .inr ⟨p.1, List.mem_cons_self .., rfl⟩
          · exact .inl h
          · exact .inr ⟨d, List.mem_cons_of_mem _ hd, rfl⟩
        · rintro (h | ⟨d, hd, rfl⟩)
          · exact .inl (.inr h)
          · rcases List.mem_cons.1 hd with rfl | hd
            · exact .inl (.inl rfl)
            · exact .inr ⟨d, hd, rfl⟩
      · rw [Dict.get?_set, if_neg]
        · exact hk
        · rintro rfl; exact hnot (Dict.mem_keys.2 ⟨n, hk⟩)
      · rcases h4 k n hk with h | ⟨hk', d, rfl, hd⟩
        · rw [Dict.get?_set] at h
          split at h
          · next he =>
            cases h
            subst he
            refine .inr ⟨hnot, p.1, rfl, ?_⟩
            rw [show p :: st = (p.1, p.2) :: st from rfl, Dict.get?_cons, if_pos rfl]
          · exact .inl h
        · refine .inr ⟨fun h => hk' ?_, d, rfl, lift d n hd⟩
          rw [Dict.mem_keys_set]; exact .inr h

/-! ### nothing raises -/

theorem unwrap_total {rank : Addr → Nat} (hr : ∀ a b, Inside w m a b → rank b < rank a) : ∀ (n : Nat) (a : Addr), rank a < n → ∃ c, w.unwrap n a = .ok c
  | 0, _, h => by cases h
  | n + 1, a, h => by
    unfold unwrap
    split
    · next ho => exact unwrap_total hr n _ (Nat.lt_of_lt_of_le (hr a _ (.inl ⟨_, _, _, _, ho⟩)) (Nat.le_of_lt_succ h))
    · next ho => exact unwrap_total hr n _ (Nat.lt_of_lt_of_le (hr a _ (.inr (.inl ⟨_, ho⟩))) (Nat.le_of_lt_succ h))
    · exact ⟨a, rfl⟩

theorem callableNode_total {a : Addr} {s rt : String} (hw : ∀ a, ∃ c, w.unwrap fuel a = .ok c) (h : FunctionAt w a s rt) :
    w.callableNode fuel a = .ok (.callable (some s) rt) := by
  obtain ⟨b, c, mo, q, o, h1, h2, h3⟩ := h
  unfold callableNode
  have hb : (match w.obj a with | .op f => f | _ => a) = b := by
    rcases h1 with h1 | ⟨h1, rfl⟩
    · rw [h1]
    · split
      · next f hf => exact absurd hf (h1 f)
      · rfl
  refine Eq.trans (congrArg (fun b => match w.unwrap fuel b with
    | .error e => (.error e : Except Err TNode)
    | .ok c => match w.obj c with
      | .func _ _ (some s) rt _ => .ok (.callable (some s) rt)
      | _ => .error .runtimeError) hb) ?_
  obtain ⟨c', hc'⟩ := hw b
  have := (unwrap_wraps _ _ _ hc').unique h2
  subst this
  rw [hc']
  dsimp only
  rw [h3]

theorem crawlFunc_total (hw : ∀ a, ∃ c, w.unwrap fuel a = .ok c) (hm : Readable w fuel strict m) {s0 rt0 : String} (hu : FunctionAt w w.unknown s0 rt0)
    (hu' : ∃ mo q s rt o, w.obj w.unknown = .func mo q s rt o) {a : Addr} (ha : Part w m a) (acc : Dict DKey TNode) :
    ∃ r, w.crawlFunc fuel strict m a acc = .ok r := by
  unfold crawlFunc
  split
  · next hcall =>
    obtain ⟨b, hb⟩ := hw a
    have hwr := unwrap_wraps _ _ _ hb
    rw [hb]
    dsimp only
    split
    · exact ⟨_, rfl⟩
    · next hnb =>
      have hext : ∃ v, w.extractFunc fuel strict a = .ok v ∧ ∃ mo q s rt o, w.obj v = .func mo q s rt o := by
        unfold extractFunc
        split
        · next f hf => exact ⟨f, rfl, hm.ops a f ha hf⟩
        · next hop =>
          rw [hb]
          dsimp only
          have hstrict : strict = true → ∃ mo q s rt o, w.obj b = .func mo q s rt o := by
            intro hst
            have : ∃ mo q s rt o, w.obj a = .func mo q s rt o := by
              rw [hst] at hcall
              unfold isCallableObj at hcall
              cases ho : w.obj a with
              | func => exact ⟨_, _, _, _, _, rfl⟩
              | op f => exact absurd ho (hop f)
              | cls => rw [ho] at hcall; cases hcall
              | wrapping k => rw [ho] at hcall; cases k <;> cases hcall
              | property => rw [ho] at hcall; cases hcall
              | builtin => rw [ho] at hcall; cases hcall
              | other => rw [ho] at hcall; simp at hcall
            obtain ⟨mo, q, s, rt, o, ho⟩ := this
            obtain ⟨v, mo', q', s', rt', o', h1, h2⟩ := hm.wrapped hst a mo q s rt o ha ho
            have := hwr.unique h1
            subst this
            exact ⟨_, _, _, _, _, h2⟩
          split
          · next hf => exact ⟨b, rfl, _, _, _, _, _, hf⟩
          · next hbu => exact absurd hbu hnb
          · next hc =>
            split
            · next hst => obtain ⟨_, _, _, _, _, h⟩ := hstrict hst; rw [hc] at h; cases h
            · split
              · exact ⟨_, rfl, hu'⟩
              · split
                · next hi => exact ⟨_, rfl, _, _, _, _, _, hi⟩
                · exact ⟨_, rfl, hu'⟩
          · next h1 h2 h3 =>
            split
            · next hst => obtain ⟨_, _, _, _, _, h⟩ := hstrict hst; exact absurd h (h1 _ _ _ _ _)
            · exact ⟨_, rfl, hu'⟩
      obtain ⟨v, hv, mo, q, s, rt, o, ho⟩ := hext
      rw [hv]
      dsimp only
      rw [ho]
      dsimp only
      split
      · exact ⟨_, rfl⟩
      · next hne =>
        have : ∃ s rt, FunctionAt w v s rt := by
          by_cases hvu : v = w.unknown
          · rw [hvu]; exact ⟨_, _, hu⟩
          · have hmm : mo = m := Classical.byContradiction fun hc => hne ⟨hvu, hc⟩
            subst hmm
            rcases extractFunc_behind hv with hbh | hbh
            · exact hm.source a v q ha hbh ⟨_, _, _, ho⟩
            · exact absurd hbh hvu
        obtain ⟨s', rt', hf⟩ := this
        rw [callableNode_total hw hf]
        exact ⟨_, rfl⟩
  · exact ⟨_, rfl⟩

theorem crawlObj_total (hw : ∀ a, ∃ c, w.unwrap fuel a = .ok c) (hm : Readable w fuel strict m) {s0 rt0 : String} (hu : FunctionAt w w.unknown s0 rt0)
    (hu' : ∃ mo q s rt o, w.obj w.unknown = .func mo q s rt o) {rank : Addr → Nat} (hr : ∀ a b, Inside w m a b → rank b < rank a) :
    ∀ (n : Nat) (a : Addr) (acc : Dict DKey TNode), Part w m a → rank a < n → ∃ acc', w.crawlObj fuel strict m n acc a = .ok acc'
  | 0, _, _, _, h => by cases h
  | n + 1, a, acc, ha, hn => by
    obtain ⟨⟨acc1, b⟩, h1⟩ := crawlFunc_total hw hm hu hu' ha acc
    unfold crawlObj
    rw [h1]
    cases b with
    | true => exact ⟨_, rfl⟩
    | false =>
      dsimp only
      split
      · next m' own inh ho =>
        split
        · exact ⟨_, rfl⟩
        · next hmm =>
          have hmm : m' = m := Classical.byContradiction fun hc => hmm hc
          have ho : w.obj a = .cls m own inh := hmm ▸ ho
          refine foldE_total _ _ fun b x hx => ?_
          obtain ⟨p, hp, rfl⟩ := List.mem_map.1 hx
          exact crawlObj_total hw hm hu hu' hr n p.2 b (.attr (x := p.1) ha ho hp)
            (Nat.lt_of_lt_of_le (hr a p.2 (.inr (.inr ⟨own, inh, p.1, ho, hp⟩))) (Nat.le_of_lt_succ hn))
      · exact ⟨_, rfl⟩

theorem currentNode_kept {skip : Bool} {k : DKey} {n n' : TNode} (h : w.currentNode fuel skip k n = .ok n') (hp : Kept w k n) :
    (∃ a s rt, Denotes w k.1 (splitDots k.2) a ∧ FunctionAt w a s rt ∧ n' = .callable (some s) rt) ∨
      ∃ a h, Denotes w k.1 (splitDots k.2) a ∧ w.hash a = some h ∧ (∀ s rt, ¬ FunctionAt w a s rt) ∧ n' = .globalVar h (w.repr a) := by
  unfold currentNode at h
  cases n with
  | callable r rt =>
    obtain ⟨a, s, rt, hd, hf⟩ := hp
    rw [loadObj_denotes.2 hd] at h
    exact .inl ⟨a, s, rt, hd, hf, callableNode_eq h hf⟩
  | globalVar g r =>
    obtain ⟨a, g', hd, hh, hnf⟩ := hp
    rw [loadObj_denotes.2 hd] at h
    dsimp only [globalNode] at h
    rw [hh] at h
    cases h
    exact .inr ⟨a, g', hd, hh, hnf, rfl⟩
  | terminal => exact hp.elim

theorem guess_parts {skip : Bool} {mods : List String} {parts : DepKey → DKey} {enc : DKey → DepKey} {topology : Dict DepKey TNode} {cs : CodeState}
    (h : w.guessCodeState fuel strict skip mods parts enc topology = .ok cs) :
    ∃ cs0 st, w.currentNodes fuel skip parts topology = .ok cs0 ∧ w.crawlStatic fuel strict mods = .ok st ∧
      cs = st.foldl (fun acc p => if acc.has (enc p.1) then acc else acc.set (enc p.1) p.2) cs0 := by
  unfold guessCodeState at h
  split at h
  · cases h
  · next cs0 h0 =>
    split at h
    · cases h
    · next st hst => cases h; exact ⟨cs0, st, h0, hst, rfl⟩

theorem guess_known {skip : Bool} {mods : List String} {parts : DepKey → DKey} {enc : DKey → DepKey} (henc : Function.Injective enc)
    {topology : Dict DepKey TNode} (hn : topology.keys.Nodup) {cs : CodeState}
    (h : w.guessCodeState fuel strict skip mods parts enc topology = .ok cs) {k : DepKey} {n : TNode} (hk : (k, n) ∈ topology) :
    ∃ n', cs.get? k = some n' ∧ w.currentNode fuel skip (parts k) n = .ok n' := by
  obtain ⟨cs0, st, h0, hst, rfl⟩ := guess_parts h
  obtain ⟨_, _, h3, _⟩ := currentNodes_spec topology [] cs0 h0 hn
  obtain ⟨n', h4, h5⟩ := h3 _ hk
  exact ⟨n', (fill_spec henc st cs0 (crawlStatic_nodup hst)).2.2.1 k n' h4, h5⟩

theorem guess_crawled {skip : Bool} {mods : List String} {parts : DepKey → DKey} {enc : DKey → DepKey} (henc : Function.Injective enc)
    {topology : Dict DepKey TNode} (hn : topology.keys.Nodup) {cs : CodeState}
    (h : w.guessCodeState fuel strict skip mods parts enc topology = .ok cs) :
    cs.keys.Nodup ∧ (∀ k n, cs.get? k = some n → k ∈ topology.keys ∨ ∃ d, d.1 ∈ mods ∧ k = enc d ∧ Origin w fuel d n) ∧
      ∀ d, d.1 ∈ mods → InPlace w strict d → enc d ∈ cs.keys := by
  obtain ⟨cs0, st, h0, hst, rfl⟩ := guess_parts h
  obtain ⟨g1, g2, _, _⟩ := currentNodes_spec topology [] cs0 h0 hn
  obtain ⟨f1, f2, _, f4⟩ := fill_spec henc st cs0 (crawlStatic_nodup hst)
  refine ⟨f2 (g2 (by simp [Dict.keys])), fun k n hk => ?_, fun d hd ⟨a, v, h1, h2, h3, h4⟩ => ?_⟩
  · rcases f4 k n hk with hk | ⟨_, d, rfl, hd⟩
    · rcases (g1 k).1 (Dict.mem_keys.2 ⟨n, hk⟩) with h | h
      · cases h
      · exact .inl h
    · obtain ⟨h1, h2⟩ := crawlStatic_sound hst d n hd
      exact .inr ⟨d, h1, rfl, h2⟩
  · exact (f1 _).2 (.inr ⟨d, looked_found (searched_looked hst hd h1) h2 h3 h4, rfl⟩)

theorem currentNode_total {skip : Bool} (hw : ∀ a, ∃ c, w.unwrap fuel a = .ok c) {k : DKey} {n : TNode} (hp : Present w k n) :
    ∃ n', w.currentNode fuel skip k n = .ok n' := by
  unfold currentNode
  cases n with
  | callable r rt =>
    obtain ⟨a, s, rt, hd, hf⟩ := hp
    rw [loadObj_denotes.2 hd]
    exact ⟨_, callableNode_total hw hf⟩
  | globalVar g r =>
    obtain ⟨a, h, hd, hh⟩ := hp
    rw [loadObj_denotes.2 hd]
    dsimp only [globalNode]
    rw [hh]
    exact ⟨_, rfl⟩
  | terminal => exact hp.elim

theorem guess_total {skip : Bool} {mods : List String} {parts : DepKey → DKey} {enc : DKey → DepKey} {topology : Dict DepKey TNode}
    (hw : ∀ a, ∃ c, w.unwrap fuel a = .ok c) {s0 rt0 : String} (hu : FunctionAt w w.unknown s0 rt0)
    (hu' : ∃ mo q s rt o, w.obj w.unknown = .func mo q s rt o) (hp : ∀ p ∈ topology, Present w (parts p.1) p.2)
    (hi : strict = true → ∀ m ∈ mods, m ∈ w.modules.keys) (hr : ∀ m ∈ mods, m ∈ w.modules.keys → Readable w fuel strict m) :
    ∃ cs, w.guessCodeState fuel strict skip mods parts enc topology = .ok cs := by
  obtain ⟨cs0, h0⟩ : ∃ cs0, w.currentNodes fuel skip parts topology = .ok cs0 := by
    refine foldE_total _ _ fun b p hpm => ?_
    obtain ⟨n', hn'⟩ := currentNode_total (skip := skip) hw (hp p hpm)
    rw [hn']
    exact ⟨_, rfl⟩
  obtain ⟨st, hst⟩ : ∃ st, w.crawlStatic fuel strict mods = .ok st := by
    refine foldE_total _ _ fun b m hm => ?_
    split
    · next hnone =>
      split
      · next hs =>
        obtain ⟨d, hd⟩ := Dict.mem_keys.1 (hi hs m hm)
        rw [hd] at hnone; cases hnone
      · exact ⟨_, rfl⟩
    · next d hd =>
      have hread := hr m hm (Dict.mem_keys.2 ⟨d, hd⟩)
      obtain ⟨rank, h1, h2⟩ := hread.depth
      refine foldE_total _ _ fun b a ha => ?_
      obtain ⟨p, hp, rfl⟩ := List.mem_map.1 ha
      exact crawlObj_total hw hread hu hu' h2 fuel p.2 b (.top (x := p.1) hd hp) (h1 _)
  unfold guessCodeState
  rw [h0]
  dsimp only
  rw [hst]
  exact ⟨_, rfl⟩

end Verif.Props
