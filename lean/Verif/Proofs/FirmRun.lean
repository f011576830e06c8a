import Verif.Proofs.FirmLoad
import Verif.Spec.RoundTrip
/-!
Values can be loaded in later processes; values can be stored.
-/
namespace Verif
section
variable {W : World}

theorem fsess_run (hW : W.Good) {s0 : St} (h0 : Sess W s0 []) (hc : s0.calls.cache = .empty ∧ s0.allowNew = true) {ps : List (List Cmd × End)} {p : List Cmd}
    (h : RunOK W s0 ps p) : (∃ orig, FSess W (runLast W.cfg s0 ps p).2.2 (runLast W.cfg s0 ps p).2.1 orig ∧ ∀ d ∈ orig, ∃ args, Cmd.call d args ∈ p) ∧
      Answers W.cfg.fuel true [] [] p (runLast W.cfg s0 ps p).1 := by
  obtain ⟨c1, c2⟩ := sessions_cache (W := W) ps hc
  have h1 := FSess.start (sessions_ok hW ps h0 h.before) (by rw [c1]; exact memFull_empty)
  obtain ⟨⟨o, g1, g2⟩, g3, _⟩ := fsess_prog hW p h.stmts (penv := []) All2.nil h1 h.commits
  rw [c2] at g3
  exact ⟨⟨o, g1, fun d hd => (g2 d hd).resolve_left (by simp)⟩, g3⟩

theorem commitsGo_of_done : ∀ (cs : List Cmd) (os : List Obs), commitsDone cs os → commitsGo cs os
  | [], os, _ => by cases os <;> exact trivial
  | c :: cs, [], _ => by cases c <;> cases cs <;> exact trivial
  | c :: cs, o :: os, h => by
    cases c with
    | commit =>
      cases cs with
      | nil => exact trivial
      | cons c' cs => exact ⟨h.1, commitsGo_of_done _ os h.2⟩
    | _ => exact commitsGo_of_done cs os h

theorem PHas.has' {s : St} {k : String} (h : PHas s k) : Has s.shapes k := by
  obtain ⟨r, hr⟩ := h
  unfold Has CachedDict.get
  cases hc : s.shapes.cache.get? k with
  | none => exact ⟨r, by simp only [hr]⟩
  | some v => exact ⟨v, by simp only⟩

theorem loads_of (hW : W.Good) {s : St} {env : List Ref} (hs : Sess W s env) (hf : MemFull W s.calls.cache) {h : String} {t : TVal} (hp : Prov W h t)
    (hh : Has s.shapes h) (hfl : t.Flat) (hn : t.Fits W.cfg.fuel) : Loads W h t.erase s := by
  refine ⟨fun b => load_unwrap hW ⟨hs.inv, hs.whole, hf⟩ hp hh hfl hn b, fun s1 hc e qs q hr b => ?_⟩
  have h1 := endSession_sess (sess_commit_ok hW hs hc).dbOK e
  have hcache : (endSession W.cfg e s1).calls.cache = .empty ∧ (endSession W.cfg e s1).allowNew = true := by cases e <;> exact ⟨rfl, rfl⟩
  obtain ⟨⟨o, g1, _⟩, _⟩ := fsess_run hW h1 hcache hr
  have hk := phas_sessions hW qs h1 hr.before (phas_end (phas_commit hs hh hc) e)
  have hk' := phas_prog hW q hr.stmts (penv := []) All2.nil (sessions_ok hW qs h1 hr.before) (commitsGo_of_done _ _ hr.commits) hk
  exact load_unwrap hW g1.base hp hk'.has' hfl hn b

theorem store_loads (hW : W.Good) {s : St} {env : List Ref} {orig : List OpDef} (h : FSess W s env orig) (ha : s.allowNew = true) {ty : Ty} {v : Val} {t : TVal}
    (hv : ValT ty v t) (hw : t.Wf W) (hty : FlatTy ty) (hn : v.height < W.cfg.fuel) :
    ∃ k s1, storeValue W.cfg ty v s = (.ok k, s1) ∧ Loads W k v s1 := by
  have hB := h.base
  have he : t.erase = v := valT_erase ty v t hv
  have hfl := valT_flat hv hty
  have hfi : t.Fits W.cfg.fuel := t.fits_of_height _ (by rw [he]; exact hn)
  have h1 := firm_construct hW hB ty (.val v) t (valT_argT ty v t hv hw) (by simp [ArgFirm]) s hB.refl
  have h2 := ext_construct (s0 := s) h.sess.whole W.cfg ty (.val v) (by simp [ArgLive]) s (.refl s)
  have h3 := pres_construct SessR.writes.toReads W.cfg ty (.val v) s
  have h4 := pres_construct (FullR.writes (W := W)).toReads W.cfg ty (.val v) s h.full
  cases hc : construct W.cfg ty (.val v) s with
  | mk x s1 =>
    rw [hc] at h1 h2 h3 h4
    cases x with
    | error e => exact absurd ⟨hfi, fun k _ => .inl ha⟩ h1.2
    | ok p =>
      obtain ⟨hd, hwr, _⟩ := h1
      obtain ⟨hx, hl, _⟩ := h2
      obtain ⟨s2, g1, g2, g3, g4, g5⟩ := whole_saveRef hW p.1 t hwr.1 [] s1 hd.inv (hx.whole h.sess.whole) (hx.live hl)
      have hi2 : Inv W s2 := by
        have := keeps_saveRef p.1 t hwr.1 s1 hd.inv
        rw [g1] at this
        exact this.1
      have h5 := pres_saveRef SessR.writes p.1 s1
      rw [g1] at h5
      have h6 := SessR.writes.ord.trans h3 h5
      have hs2 : Sess W s2 [] := h.sess.of_pres hi2 g2 (h6.clean ⟨h.sess.atoms, h.sess.shapes, h.sess.ops⟩) h6.atoms h6.shapes h6.ops
        (fun r hr => by rw [← h6.calls]; exact hr) (by simp)
      refine ⟨p.1.hid, s2, ?_, ?_⟩
      · unfold storeValue
        show M.bind _ _ s = _
        unfold M.bind
        rw [hc]
        show M.bind _ _ s1 = _
        unfold M.bind
        rw [g1]
        rfl
      · rw [← he]
        exact loads_of hW hs2 (by rw [g4]; exact h4) hwr.1.prov g5 hfl hfi
end
end Verif
