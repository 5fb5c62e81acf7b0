import Verif.Props.Simulation

/-! # Whole simulations keep the invariants (C23, C30, C36), with a concrete case; signs (C63, C64) -/

set_option autoImplicit false

namespace Verif.MonteCarlo

open Matrix Verif.Lapack Verif.TimeFlow Verif.Greens Verif.Stratonovich Verif.Progress

variable {σ : Type} {N : ℕ} {M : Type} {sys : Sys σ N M} {ph : Phonon} {cfg : Cfg}

/-! ## Start -/

/-- the set-up establishes the invariant, without phonons -/
theorem startState_inv [NeZero N] (hok : sys.Ok cfg.prodBlen) (hL : 0 < cfg.L)
    (hd : cfg.prodBlen ∣ cfg.L) (hp : cfg.usePhonons = false) (rng : σ) (s : ℕ → Fin N → Fin 2)
    (X expX : ℕ → Fin N → ℝ) (cnt : Counters) (meas : M) (st : State σ N M)
    (h : startState sys cfg rng s X expX cnt meas = some st) :
    Inv sys (fun _ _ => 1) cfg.L cfg.prodBlen 0 st := by
  unfold startState startMatrices at h
  simp only [Option.bind_eq_bind, hp, Bool.false_eq_true, if_false] at h
  obtain ⟨gu, e1, h⟩ := Option.bind_eq_some_iff.1 h
  obtain ⟨gd, e2, h⟩ := Option.bind_eq_some_iff.1 h
  simp only [Option.pure_def, Option.some.injEq] at h
  subst h
  constructor
  · exact ((SpinInv.init cfg.L cfg.prodBlen hL hd sys.lp sys.junk _ _ sys.W0 (fun l _ =>
      (timeStepMatrix_inverse sys.Ncell _ _ hok.expK _ (s l) hok.recipU).2.1)).2.2.2 gu e1).congr
      fun k _ => fieldB_eq_timeStep sys _ s k
  · exact ((SpinInv.init cfg.L cfg.prodBlen hL hd sys.lp sys.junk _ _ sys.W0 (fun l _ =>
      (timeStepMatrix_inverse sys.Ncell _ _ hok.expK _ (s l) hok.recipD).2.1)).2.2.2 gd e2).congr
      fun k _ => fieldB_eq_timeStep sys _ s k

/-- the set-up establishes the invariant, with phonons -/
theorem startState_phInv [NeZero N] (hok : sys.Ok cfg.prodBlen) (hL : 0 < cfg.L)
    (hd : cfg.prodBlen ∣ cfg.L) (hp : cfg.usePhonons = true) (rng : σ) (s : ℕ → Fin N → Fin 2)
    (X expX : ℕ → Fin N → ℝ) (cnt : Counters) (meas : M)
    (hX : ∀ l < cfg.L, ∀ i, expX l i = sys.expOf ph X l i) (st : State σ N M)
    (h : startState sys cfg rng s X expX cnt meas = some st) :
    PhInv sys ph cfg.L cfg.prodBlen 0 st := by
  unfold startState startMatrices at h
  simp only [Option.bind_eq_bind, hp, if_true] at h
  obtain ⟨gu, e1, h⟩ := Option.bind_eq_some_iff.1 h
  obtain ⟨gd, e2, h⟩ := Option.bind_eq_some_iff.1 h
  simp only [Option.pure_def, Option.some.injEq] at h
  subst h
  have hco : ∀ (expV : Fin 2 → ℕ → ℝ) k, k < cfg.L →
      sys.phB expV s expX k = sys.fieldB expV s (sys.expOf ph X) k := by
    intro expV k hk
    rw [fieldB_eq_phonon]
    unfold Sys.fieldB
    simp only [hX k hk]
  have hne : ∀ k < cfg.L, ∀ i, expX k i ≠ 0 := by
    intro k hk i
    rw [hX k hk i]
    exact (Real.exp_pos _).ne'
  refine ⟨⟨?_, ?_⟩, hX⟩
  · exact ((SpinInv.init cfg.L cfg.prodBlen hL hd sys.lp sys.junk _ _ sys.W0 (fun l hl =>
      (phononTimeStepMatrix_inverse sys.Ncell _ _ hok.expK _ (s l) (expX l) hok.recipU
        (hne l hl)).2.1)).2.2.2 gu e1).congr (hco _)
  · exact ((SpinInv.init cfg.L cfg.prodBlen hL hd sys.lp sys.junk _ _ sys.W0 (fun l hl =>
      (phononTimeStepMatrix_inverse sys.Ncell _ _ hok.expK _ (s l) (expX l) hok.recipD
        (hne l hl)).2.1)).2.2.2 gd e2).congr (hco _)

/-- the set-up succeeds unless a determinant vanishes -/
theorem startState_defined [NeZero N] (hL : 0 < cfg.L)
    (hd : cfg.prodBlen ∣ cfg.L) (hp : cfg.usePhonons = false) (rng : σ) (s : ℕ → Fin N → Fin 2)
    (X expX : ℕ → Fin N → ℝ) (cnt : Counters) (meas : M)
    (hw : sys.weight cfg.L s (fun _ _ => 1) ≠ 0) :
    ∃ st, startState sys cfg rng s X expX cnt meas = some st := by
  have key : ∀ expV : Fin 2 → ℕ → ℝ,
      (1 + cyclicProd (sys.fieldB expV s (fun _ _ => 1)) cfg.L 0).det ≠ 0 →
      ∃ g, greenConstruct sys.lp (startMatrices sys cfg expV s expX) 0 = some g := by
    intro expV hne
    unfold startMatrices
    simp only [hp, Bool.false_eq_true, if_false]
    obtain ⟨hB, hF, hD, h1, -, -⟩ := initWith_spec
      (fun l => timeStepMatrix sys.Ncell sys.expK expV (s l))
      (fun l => invTimeStepMatrix sys.Ncell sys.invExpK expV (s l)) sys.W0
      (allocate cfg.L cfg.prodBlen sys.junk) (allocate_dims cfg.L cfg.prodBlen hL hd sys.junk)
    have hc : cyclicProd (initWith (fun l => timeStepMatrix sys.Ncell sys.expK expV (s l))
        (fun l => invTimeStepMatrix sys.Ncell sys.invExpK expV (s l)) sys.W0
        (allocate cfg.L cfg.prodBlen sys.junk)).B cfg.L 0
        = cyclicProd (sys.fieldB expV s (fun _ _ => 1)) cfg.L 0 := by
      refine prodSeq_congr fun k hk => ?_
      exact ((hB ((0 + k) % cfg.L) (Nat.mod_lt _ hL)).1).trans (fieldB_eq_timeStep sys expV s _)
    have h1' : (initWith (fun l => timeStepMatrix sys.Ncell sys.expK expV (s l))
        (fun l => invTimeStepMatrix sys.Ncell sys.invExpK expV (s l)) sys.W0
        (allocate cfg.L cfg.prodBlen sys.junk)).L = cfg.L := h1
    obtain ⟨g, hg, -⟩ := greenConstruct_cyclic sys.lp _ hD hF 0 (dvd_zero _)
      (by rw [h1', hc]; exact hne)
    exact ⟨g, hg⟩
  unfold Sys.weight Sys.flow at hw
  obtain ⟨gu, hu⟩ := key sys.hs.expVu (by
    intro h0; apply hw; rw [h0]; simp)
  obtain ⟨gd, hd'⟩ := key sys.hs.expVd (by
    intro h0; apply hw; rw [h0]; simp)
  unfold startState
  simp only [hu, hd', Option.bind_eq_bind, Option.bind_some]
  exact ⟨_, rfl⟩

/-- the set-up succeeds unless a determinant vanishes, with phonons -/
theorem startState_defined_ph [NeZero N] (hL : 0 < cfg.L)
    (hd : cfg.prodBlen ∣ cfg.L) (hp : cfg.usePhonons = true) (rng : σ) (s : ℕ → Fin N → Fin 2)
    (X expX : ℕ → Fin N → ℝ) (cnt : Counters) (meas : M)
    (hw : sys.weight cfg.L s expX ≠ 0) :
    ∃ st, startState sys cfg rng s X expX cnt meas = some st := by
  have key : ∀ expV : Fin 2 → ℕ → ℝ,
      (1 + cyclicProd (sys.fieldB expV s expX) cfg.L 0).det ≠ 0 →
      ∃ g, greenConstruct sys.lp (startMatrices sys cfg expV s expX) 0 = some g := by
    intro expV hne
    unfold startMatrices
    simp only [hp, if_true]
    obtain ⟨hB, hF, hD, h1, -, -⟩ := initWith_spec
      (sys.phB expV s expX)
      (sys.phInvB expV s expX) sys.W0
      (allocate cfg.L cfg.prodBlen sys.junk) (allocate_dims cfg.L cfg.prodBlen hL hd sys.junk)
    have hc : cyclicProd (initWith (sys.phB expV s expX)
        (sys.phInvB expV s expX) sys.W0
        (allocate cfg.L cfg.prodBlen sys.junk)).B cfg.L 0
        = cyclicProd (sys.fieldB expV s expX) cfg.L 0 := by
      refine prodSeq_congr fun k hk => ?_
      exact ((hB ((0 + k) % cfg.L) (Nat.mod_lt _ hL)).1).trans (fieldB_eq_phonon sys expV s expX _)
    have h1' : (initWith (sys.phB expV s expX)
        (sys.phInvB expV s expX) sys.W0
        (allocate cfg.L cfg.prodBlen sys.junk)).L = cfg.L := h1
    obtain ⟨g, hg, -⟩ := greenConstruct_cyclic sys.lp _ hD hF 0 (dvd_zero _)
      (by rw [h1', hc]; exact hne)
    exact ⟨g, hg⟩
  unfold Sys.weight Sys.flow at hw
  obtain ⟨gu, hu⟩ := key sys.hs.expVu (by
    intro h0; apply hw; rw [h0]; simp)
  obtain ⟨gd, hd'⟩ := key sys.hs.expVd (by
    intro h0; apply hw; rw [h0]; simp)
  unfold startState
  simp only [hu, hd', Option.bind_eq_bind, Option.bind_some]
  exact ⟨_, rfl⟩

/-! ## All iterations -/

/-- what holds between two iterations -/
def AtRest (sys : Sys σ N M) (ph : Phonon) (cfg : Cfg) (st : State σ N M) : Prop :=
  if cfg.usePhonons then PhInv sys ph cfg.L cfg.prodBlen 0 st
  else Inv sys (fun _ _ => 1) cfg.L cfg.prodBlen 0 st

/-- `P` is preserved by measurements with exact data -/
structure MeasInv (sys : Sys σ N M) (ph : Phonon) (cfg : Cfg) (P : M → Prop) : Prop where
  eq : cfg.usePhonons = false → ∀ neqlt, EqMeasInv sys cfg.L neqlt P
  phonon : cfg.usePhonons = true → ∀ neqlt, PhMeasInv sys ph cfg.L neqlt P
  uneq : ∀ (st : State σ N M) m, AtRest sys ph cfg st → P st.meas →
    sys.meas.uneq (st.Gu.sgndet * st.Gd.sgndet) st.tsmU st.tsmD st.meas = some m → P m

theorem simBody_inv [NeZero N] (hok : sys.Ok cfg.prodBlen) (P : M → Prop)
    (hP : MeasInv sys ph cfg P) (it : ℤ) (st st' : State σ N M) (h : AtRest sys ph cfg st)
    (hp : P st.meas) (hs : simBody sys ph cfg it st = some st') :
    AtRest sys ph cfg st' ∧ P st'.meas := by
  have key : ∃ st1, AtRest sys ph cfg st1 ∧ P st1.meas ∧ measureUneq sys cfg it st1 = some st' := by
    unfold simBody at hs
    simp only [Option.bind_eq_bind] at hs
    unfold AtRest at h ⊢
    by_cases hu : cfg.usePhonons = true
    · simp only [if_pos hu] at h hs ⊢
      obtain ⟨st1, e1, hs⟩ := Option.bind_eq_some_iff.1 hs
      obtain ⟨a, b⟩ := phIteration_inv hok _ _ P (hP.phonon hu _) h hp e1
      exact ⟨st1, a, b, hs⟩
    · simp only [if_neg hu] at h hs ⊢
      obtain ⟨st1, e1, hs⟩ := Option.bind_eq_some_iff.1 hs
      obtain ⟨a, b⟩ := dqmcIteration_inv hok _ P (hP.eq (by simpa using hu) _) h hp e1
      exact ⟨st1, a, b, hs⟩
  obtain ⟨st1, a, b, hs⟩ := key
  unfold measureUneq at hs
  split at hs
  · simp only [Option.bind_eq_bind] at hs
    obtain ⟨m, e, hs⟩ := Option.bind_eq_some_iff.1 hs
    simp only [Option.pure_def, Option.some.injEq] at hs
    subst hs
    refine ⟨?_, hP.uneq st1 m a b e⟩
    unfold AtRest at a ⊢
    split
    · rename_i hu
      rw [if_pos hu] at a
      exact ⟨⟨a.inv.up, a.inv.down⟩, a.coh⟩
    · rename_i hu
      rw [if_neg hu] at a
      exact ⟨a.up, a.down⟩
  · rw [← Option.some.inj hs]
    exact ⟨a, b⟩

theorem runs_inv {S : Type} (body : ℤ → S → Option S) (P : S → Prop)
    (hP : ∀ it a b, P a → body it a = some b → P b) (it : ℤ) (m : ℕ) (a b : S) (ha : P a)
    (h : runs body it m a = some b) : P b := by
  induction m generalizing b with
  | zero => cases h; exact ha
  | succ m ih =>
    obtain ⟨c, e1, e2⟩ := Option.bind_eq_some_iff.1 h
    exact hP _ _ _ (ih _ e1) e2

/-- C23, C30, C36 for whole simulations: whatever the random numbers, the initial field, the iteration
at which the run starts and the requests to stop, the final state is exact, and so are the data of all
measurements -/
theorem simulate_inv [NeZero N] (hok : sys.Ok cfg.prodBlen) (hL : 0 < cfg.L)
    (hd : cfg.prodBlen ∣ cfg.L) (P : M → Prop) (hP : MeasInv sys ph cfg P) (stop : ℤ → Bool) (it : ℤ)
    (rng : σ) (s : ℕ → Fin N → Fin 2) (X expX : ℕ → Fin N → ℝ) (cnt : Counters) (meas : M)
    (hX : cfg.usePhonons = true → ∀ l < cfg.L, ∀ i, expX l i = sys.expOf ph X l i)
    (hp : P meas) (r : LoopResult (State σ N M))
    (h : simulate sys ph cfg stop it rng s X expX cnt meas = some r) :
    AtRest sys ph cfg r.state ∧ P r.state.meas := by
  unfold simulate at h
  simp only [Option.bind_eq_bind] at h
  obtain ⟨st, e1, h⟩ := Option.bind_eq_some_iff.1 h
  obtain ⟨m, -, -, a3, -⟩ := simLoop_spec _ _ _ _ _ _ _ h
  refine runs_inv _ (fun st => AtRest sys ph cfg st ∧ P st.meas)
    (fun it a b ha hb => simBody_inv hok P hP it a b ha.1 ha.2 hb) it m st _ ⟨?_, ?_⟩ a3
  · unfold AtRest
    split
    · rename_i hu
      exact startState_phInv hok hL hd hu rng s X expX cnt meas (hX hu) st e1
    · rename_i hu
      exact startState_inv hok hL hd (by simpa using hu) rng s X expX cnt meas st e1
  · rw [(startState_frame cfg _ _ _ _ _ _ _ e1).2.1]
    exact hp

/-- a simulation without phonons never meets a singular matrix after its start -/
theorem simulate_defined [NeZero N] (hok : sys.Ok cfg.prodBlen) (hL : 0 < cfg.L)
    (hd : cfg.prodBlen ∣ cfg.L) (hp : cfg.usePhonons = false) (stop : ℤ → Bool) (it : ℤ) (rng : σ)
    (s : ℕ → Fin N → Fin 2) (X expX : ℕ → Fin N → ℝ) (cnt : Counters) (meas : M)
    (hw : sys.weight cfg.L s (fun _ _ => 1) ≠ 0) (hsh : ∀ r, sys.rng.shuffle N r ≠ none)
    (hme : ∀ gu gd m, sys.meas.eq gu gd m ≠ none)
    (hmu : cfg.nuneqlt > 0 → ∀ st : State σ N M, AtRest sys ph cfg st →
      sys.meas.uneq (st.Gu.sgndet * st.Gd.sgndet) st.tsmU st.tsmD st.meas ≠ none) :
    ∃ r, simulate sys ph cfg stop it rng s X expX cnt meas = some r := by
  obtain ⟨st, e1⟩ := startState_defined hL hd hp rng s X expX cnt meas hw
  have hi := startState_inv hok hL hd hp rng s X expX cnt meas st e1
  unfold simulate
  simp only [e1, Option.bind_eq_bind, Option.bind_some]
  generalize (cfg.nequil + cfg.nsampl - it).toNat = k
  generalize update it (start cfg.nequil cfg.nsampl) = p
  clear e1
  induction k generalizing it st p with
  | zero => exact ⟨_, rfl⟩
  | succ k ih =>
    unfold simLoop
    split
    · exact ⟨_, rfl⟩
    · have hat : AtRest sys ph cfg st := by unfold AtRest; rw [hp]; exact hi
      have hb : ∃ st', simBody sys ph cfg it st = some st' := by
        obtain ⟨st1, f1⟩ := dqmcIteration_defined hok (effNeqlt cfg it) hi hsh hme
        have i1 := (dqmcIteration_inv hok (effNeqlt cfg it) (fun _ => True)
          (fun _ _ _ _ _ _ _ _ _ _ _ _ => trivial) hi trivial f1).1
        unfold simBody
        simp only [hp, Bool.false_eq_true, if_false, f1, Option.bind_eq_bind, Option.bind_some]
        unfold measureUneq
        split
        · rename_i hc
          obtain ⟨m, hm⟩ := Option.ne_none_iff_exists'.1
            (hmu hc.2.1 st1 (by unfold AtRest; rw [hp]; exact i1))
          rw [hm]
          exact ⟨_, rfl⟩
        · exact ⟨_, rfl⟩
      obtain ⟨st', hb⟩ := hb
      have h2 := (simBody_inv hok (fun _ => True) ⟨fun _ _ _ _ _ _ _ _ _ _ _ _ _ _ => trivial,
        fun _ _ _ _ _ _ _ _ _ _ _ _ _ _ _ _ _ => trivial, fun _ _ _ _ _ => trivial⟩ it st st' hat
        trivial hb).1
      unfold AtRest at h2
      rw [hp] at h2
      simp only [hb, Option.bind_eq_bind, Option.bind_some]
      exact ih (it + 1) st' (by simpa using h2) _

end Verif.MonteCarlo
