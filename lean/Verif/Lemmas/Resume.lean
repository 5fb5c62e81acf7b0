import Verif.Lemmas.RngMap
import Verif.Lemmas.Restart
import Verif.Model.Main

/-! # Going on with a stopped simulation without phonons -/

set_option autoImplicit false

namespace Verif.MonteCarlo

open Matrix Verif.Lapack Verif.TimeFlow Verif.Greens Verif.Stratonovich Verif.Progress

variable {σ : Type} {N : ℕ} {M : Type} {sys : Sys σ N M} {ph : Phonon} {cfg : Cfg}

/-! ## What iterations without phonons do not change -/

/-- the phonon fields and the counters are the given ones and the measurement data satisfy `P` -/
structure Keeps (X expX : ℕ → Fin N → ℝ) (cnt : Counters) (P : M → Prop) (st : State σ N M) :
    Prop where
  X : st.X = X
  expX : st.expX = expX
  cnt : st.cnt = cnt
  meas : P st.meas

variable {X expX : ℕ → Fin N → ℝ} {cnt : Counters} {P : M → Prop}

theorem hsSlice_keeps (l : ℕ) (st st' : State σ N M) (h : Keeps X expX cnt P st)
    (hs : hsSlice sys l st = some st') : Keeps X expX cnt P st' := by
  unfold hsSlice at hs
  simp only [Option.bind_eq_bind] at hs
  obtain ⟨r, -, hs⟩ := Option.bind_eq_some_iff.1 hs
  simp only [Option.pure_def, Option.some.injEq] at hs
  rw [← hs]
  refine foldl_preserves (Keeps X expX cnt P) _ (fun a i ha => ?_) _ _ ⟨h.1, h.2, h.3, h.4⟩
  unfold hsSite
  simp only
  split <;> exact ⟨ha.1, ha.2, ha.3, ha.4⟩

theorem maybeRecompute_keeps [NeZero N] (l : ℕ) (st st' : State σ N M) (h : Keeps X expX cnt P st)
    (hs : maybeRecompute sys l st = some st') : Keeps X expX cnt P st' := by
  unfold maybeRecompute at hs
  split at hs
  · unfold recompute at hs
    simp only [Option.bind_eq_bind] at hs
    obtain ⟨gu, -, hs⟩ := Option.bind_eq_some_iff.1 hs
    obtain ⟨gd, -, hs⟩ := Option.bind_eq_some_iff.1 hs
    simp only [Option.pure_def, Option.some.injEq] at hs
    rw [← hs]
    exact ⟨h.1, h.2, h.3, h.4⟩
  · rw [← Option.some.inj hs]
    exact h

theorem measureEq_keeps (hP : ∀ gu gd m m', P m → sys.meas.eq gu gd m = some m' → P m')
    (neqlt l : ℕ) (st st' : State σ N M) (h : Keeps X expX cnt P st)
    (hs : measureEq sys neqlt l st = some st') : Keeps X expX cnt P st' := by
  unfold measureEq at hs
  split at hs
  · simp only [Option.bind_eq_bind] at hs
    obtain ⟨m, e, hs⟩ := Option.bind_eq_some_iff.1 hs
    simp only [Option.pure_def, Option.some.injEq] at hs
    rw [← hs]
    exact ⟨h.1, h.2, h.3, hP _ _ _ _ h.4 e⟩
  · rw [← Option.some.inj hs]
    exact h

theorem simBody_keeps [NeZero N] (hP : ∀ gu gd m m', P m → sys.meas.eq gu gd m = some m' → P m')
    (hU : cfg.nuneqlt > 0 → ∀ sg tu td m m', P m → sys.meas.uneq sg tu td m = some m' → P m')
    (hp : cfg.usePhonons = false) (it : ℤ) (st st' : State σ N M) (h : Keeps X expX cnt P st)
    (hs : simBody sys ph cfg it st = some st') : Keeps X expX cnt P st' := by
  unfold simBody at hs
  simp only [Option.bind_eq_bind, hp, Bool.false_eq_true, if_false] at hs
  obtain ⟨st1, e1, hs⟩ := Option.bind_eq_some_iff.1 hs
  have h1 : Keeps X expX cnt P st1 := by
    unfold dqmcIteration at e1
    refine foldlM_preserves (Keeps X expX cnt P) (fun _ => True) _ (fun a b a' ha _ e => ?_) _
      (fun _ _ => trivial) _ _ h e1
    unfold hsTimeSlice at e
    simp only [Option.bind_eq_bind] at e
    obtain ⟨a1, f1, e⟩ := Option.bind_eq_some_iff.1 e
    obtain ⟨a2, f2, e⟩ := Option.bind_eq_some_iff.1 e
    have g1 := hsSlice_keeps b (wrap b a) a1 ⟨ha.1, ha.2, ha.3, ha.4⟩ f1
    have g2 := maybeRecompute_keeps b (updateB sys b a1) a2 ⟨g1.1, g1.2, g1.3, g1.4⟩ f2
    exact measureEq_keeps hP _ _ _ _ g2 e
  unfold measureUneq at hs
  split at hs
  · rename_i hc
    simp only [Option.bind_eq_bind] at hs
    obtain ⟨m, e, hs⟩ := Option.bind_eq_some_iff.1 hs
    simp only [Option.pure_def, Option.some.injEq] at hs
    rw [← hs]
    exact ⟨h1.1, h1.2, h1.3, hU hc.2.1 _ _ _ _ _ h1.4 e⟩
  · rw [← Option.some.inj hs]
    exact h1

theorem startState_expX [NeZero N] (rng : σ) (s : ℕ → Fin N → Fin 2) (X expX : ℕ → Fin N → ℝ)
    (cnt : Counters) (meas : M) (st : State σ N M)
    (h : startState sys cfg rng s X expX cnt meas = some st) : st.expX = expX := by
  unfold startState at h
  simp only [Option.bind_eq_bind] at h
  obtain ⟨gu, -, h⟩ := Option.bind_eq_some_iff.1 h
  obtain ⟨gd, -, h⟩ := Option.bind_eq_some_iff.1 h
  simp only [Option.pure_def, Option.some.injEq] at h
  subst h
  rfl

/-! ## The loop -/

/-- the loop without requests to stop succeeds if and only if all iterations do -/
theorem simLoop_never {S : Type} (body : ℤ → S → Option S) (k : ℕ) (it : ℤ) (st st' : S) (p : Prog)
    (h : runs body it k st = some st') :
    ∃ q, simLoop body (fun _ => false) k it st p = some ⟨it + k, st', q, false⟩ := by
  induction k generalizing it st p with
  | zero =>
    cases h
    exact ⟨p, by simp [simLoop]⟩
  | succ k ih =>
    rw [runs_succ', Option.bind_eq_bind] at h
    obtain ⟨st1, e1, h⟩ := Option.bind_eq_some_iff.1 h
    obtain ⟨q, hq⟩ := ih (it + 1) st1 (update it p) h
    refine ⟨q, ?_⟩
    unfold simLoop
    simp only [Bool.false_eq_true, if_false, e1, Option.bind_eq_bind, Option.bind_some]
    rw [hq]
    congr 2
    push_cast
    ring

/-- everything known about the end of a run without phonons -/
theorem simulate_rest [NeZero N] (hok : sys.Ok cfg.prodBlen) (hL : 0 < cfg.L)
    (hd : cfg.prodBlen ∣ cfg.L) (hp : cfg.usePhonons = false)
    (hP : ∀ gu gd m m', P m → sys.meas.eq gu gd m = some m' → P m')
    (hU : cfg.nuneqlt > 0 → ∀ sg tu td m m', P m → sys.meas.uneq sg tu td m = some m' → P m')
    (stop : ℤ → Bool) (it : ℤ) (rng : σ) (s : ℕ → Fin N → Fin 2) (meas : M)
    (hs : ∀ l, cfg.L ≤ l → ∀ i, s l i = 0) (hm : P meas) (r : LoopResult (State σ N M))
    (h : simulate sys ph cfg stop it rng s X expX cnt meas = some r) :
    Inv sys (fun _ _ => 1) cfg.L cfg.prodBlen 0 r.state ∧ Tidy sys cfg.L r.state ∧
      Keeps X expX cnt P r.state := by
  unfold simulate at h
  simp only [Option.bind_eq_bind] at h
  obtain ⟨st, e1, h⟩ := Option.bind_eq_some_iff.1 h
  obtain ⟨m, -, -, a3, -⟩ := simLoop_spec _ _ _ _ _ _ _ h
  have f := startState_frame cfg _ _ _ _ _ _ _ e1
  have i0 := startState_inv hok hL hd hp rng s X expX cnt meas st e1
  have t0 := startState_tidy hL hd rng s X expX cnt meas hs st e1
  have k0 : Keeps X expX cnt P st :=
    ⟨f.2.2.2.1, startState_expX _ _ _ _ _ _ _ e1, f.2.2.2.2.1, f.2.1 ▸ hm⟩
  have d0 : GoodDims cfg.L st :=
    ⟨⟨i0.up.td.dims, i0.up.td.hL⟩, i0.down.td.dims, i0.down.td.hL⟩
  have key := runs_inv (simBody sys ph cfg)
    (fun st => (AtRest sys ph cfg st ∧ True) ∧ (Tidy sys cfg.L st ∧ GoodDims cfg.L st) ∧
      Keeps X expX cnt P st)
    (fun it a b ha hb => ⟨simBody_inv hok (fun _ => True)
        ⟨fun _ _ _ _ _ _ _ _ _ _ _ _ _ _ => trivial,
          fun _ _ _ _ _ _ _ _ _ _ _ _ _ _ _ _ _ => trivial, fun _ _ _ _ _ => trivial⟩ it a b
        ha.1.1 trivial hb, simBody_tidy hp it a b ha.2.1.1 ha.2.1.2 hb,
      simBody_keeps hP hU hp it a b ha.2.2 hb⟩) it m st _
    ⟨⟨by unfold AtRest; rw [hp]; exact i0, trivial⟩, ⟨t0, d0⟩, k0⟩ a3
  refine ⟨?_, key.2.1.1, key.2.2⟩
  have h1 := key.1.1
  unfold AtRest at h1
  rw [hp] at h1
  exact h1

/-- C47, in one process: going on from the end of a stopped run with everything set up again gives
the end of the run without the stop -/
theorem simulate_resume [NeZero N] (hok : sys.Ok cfg.prodBlen) (hL : 0 < cfg.L)
    (hd : cfg.prodBlen ∣ cfg.L) (hp : cfg.usePhonons = false)
    (stop : ℤ → Bool) (it : ℤ) (rng : σ) (s : ℕ → Fin N → Fin 2) (meas : M)
    (hs : ∀ l, cfg.L ≤ l → ∀ i, s l i = 0) (r r0 : LoopResult (State σ N M))
    (h : simulate sys ph cfg stop it rng s X expX cnt meas = some r)
    (h0 : simulate sys ph cfg (fun _ => false) it rng s X expX cnt meas = some r0) :
    ∃ q, simulate sys ph cfg (fun _ => false) r.iteration r.state.rng r.state.s X expX cnt
      r.state.meas = some ⟨r0.iteration, r0.state, q, false⟩ := by
  obtain ⟨i1, t1, k1⟩ := simulate_rest (P := fun _ => True) hok hL hd hp (fun _ _ _ _ _ _ => trivial)
    (fun _ _ _ _ _ _ _ _ => trivial) stop it rng s meas hs trivial r h
  have hr := restart hok hL hd hp r.state i1 t1
  rw [k1.X, k1.expX, k1.cnt] at hr
  unfold simulate at h h0 ⊢
  simp only [Option.bind_eq_bind] at h h0 ⊢
  obtain ⟨st, e1, h⟩ := Option.bind_eq_some_iff.1 h
  rw [e1, Option.bind_some] at h0
  obtain ⟨m, hm, a2, a3, -⟩ := simLoop_spec _ _ _ _ _ _ _ h
  obtain ⟨b1, b2, b3⟩ := simLoop_all _ _ _ _ _ _ h0
  rw [hr, Option.bind_some]
  have hk : (cfg.nequil + cfg.nsampl - it).toNat = m + (cfg.nequil + cfg.nsampl - r.iteration).toNat := by
    omega
  rw [hk, runs_add, a3] at b3
  rw [← a2] at b3
  obtain ⟨q, hq⟩ := simLoop_never _ _ _ _ _ (update r.iteration (start cfg.nequil cfg.nsampl)) b3
  refine ⟨q, ?_⟩
  rw [hq]
  congr 2
  omega

end Verif.MonteCarlo
