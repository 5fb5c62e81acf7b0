import Verif.Props.MeasurementPh
import Verif.Props.Simulation

/-!
# Property C40: the phonon sample buffers never overflow

`AccumulatePhononData` writes into slot `nsampl` of buffers of `max_nsampl` slots; it is out of range
exactly if `nsampl ≥ max_nsampl` (`accumulatePh_estimates`, `accumulatePh_overflow`).
Here: in every run of `DQMCSimulation` no phonon sample is taken with a full buffer. This is said by
comparing with a machine that stops with an error before sampling into a full buffer: it behaves
exactly as the program.
-/

set_option autoImplicit false

namespace Verif.MonteCarlo

open Matrix Verif.Lapack Verif.TimeFlow Verif.Greens

variable {σ : Type} {N : ℕ} {M : Type}

/-- the program, with a check that fewer than `cap` samples (counted by `c`) have been taken before
every phonon sample -/
def Sys.guard (sys : Sys σ N M) (c : M → ℕ) (cap : ℕ) : Sys σ N M :=
  { sys with meas := { sys.meas with
      phonon := fun gu gd l X m => if c m < cap then sys.meas.phonon gu gd l X m else none } }

section
variable {sys : Sys σ N M} {ph : Phonon} {c : M → ℕ} {cap : ℕ}

theorem measurePh_guard (hc : CountsBy sys c 0 1 0) (neqlt l : ℕ) (st : State σ N M)
    (h : c st.meas + hit neqlt l ≤ cap) :
    measurePh (sys.guard c cap) neqlt l st = measurePh sys neqlt l st := by
  unfold measurePh
  by_cases hn : neqlt > 0 ∧ (l + 1) % neqlt = 0
  · rw [if_pos hn, if_pos hn]
    have hh : hit neqlt l = 1 := if_pos hn
    simp only [Option.bind_eq_bind]
    change (sys.meas.eq st.Gu st.Gd st.meas).bind _ = _
    cases e : sys.meas.eq st.Gu st.Gd st.meas with
    | none => rfl
    | some m =>
      have := hc.eq _ _ _ _ e
      simp only [Option.bind_some]
      congr 1
      exact if_pos (by omega)
  · rw [if_neg hn, if_neg hn]

theorem phTimeSlice_guard [NeZero N] (hc : CountsBy sys c 0 1 0) (noHS : Bool) (neqlt l : ℕ)
    (st : State σ N M) (h : c st.meas + hit neqlt l ≤ cap) :
    phTimeSlice (sys.guard c cap) ph noHS neqlt st l = phTimeSlice sys ph noHS neqlt st l := by
  have tail : ∀ st1, Frame st st1 →
      ((localSlice sys ph l st1).bind fun st =>
        (maybeRecompute sys l (MonteCarlo.updatePhB sys l st)).bind fun st =>
          measurePh (sys.guard c cap) neqlt l st)
      = ((localSlice sys ph l st1).bind fun st =>
        (maybeRecompute sys l (MonteCarlo.updatePhB sys l st)).bind fun st =>
          measurePh sys neqlt l st) := by
    intro st1 f1
    cases e2 : localSlice sys ph l st1 with
    | none => rfl
    | some st2 =>
      simp only [Option.bind_some]
      cases e3 : maybeRecompute sys l (MonteCarlo.updatePhB sys l st2) with
      | none => rfl
      | some st3 =>
        have f := ((f1.trans (localSlice_frame l _ _ e2)).trans
          (updatePhB_frame (sys := sys) l st2)).trans (maybeRecompute_frame l _ _ e3)
        simp only [Option.bind_some]
        exact measurePh_guard hc neqlt l st3 (by rw [f.meas]; exact h)
  have f0 : Frame st (wrap l st) := ⟨rfl, rfl⟩
  unfold phTimeSlice
  cases noHS
  · simp only [Option.bind_eq_bind, Bool.false_eq_true, if_false]
    change (hsSlice sys l (wrap l st)).bind _ = _
    cases e1 : hsSlice sys l (wrap l st) with
    | none => rfl
    | some st1 => exact tail st1 (f0.trans (hsSlice_frame l _ _ e1))
  · simp only [Option.bind_eq_bind, if_true, Option.bind_some]
    exact tail _ f0

theorem slices_guard [NeZero N] (hc : CountsBy sys c 0 1 0) (noHS : Bool) (neqlt : ℕ) (ls : List ℕ)
    (st : State σ N M) (h : c st.meas + (ls.map (hit neqlt)).sum ≤ cap) :
    ls.foldlM (phTimeSlice (sys.guard c cap) ph noHS neqlt) st
      = ls.foldlM (phTimeSlice sys ph noHS neqlt) st := by
  induction ls generalizing st with
  | nil => rfl
  | cons l ls ih =>
    rw [List.map_cons, List.sum_cons] at h
    rw [List.foldlM_cons, List.foldlM_cons, phTimeSlice_guard hc noHS neqlt l st (by omega)]
    cases e : phTimeSlice sys ph noHS neqlt st l with
    | none => rfl
    | some st1 =>
      have := (phTimeSlice_count hc noHS neqlt l _ _ e).2
      exact ih st1 (by rw [this]; omega)

theorem simBody_guard [NeZero N] (cfg : Cfg) (hc : CountsBy sys c 0 1 0) (it : ℤ) (st : State σ N M)
    (hL : st.tsmU.L = cfg.L) (h : c st.meas + cfg.samples 0 1 0 it ≤ cap) :
    simBody (sys.guard c cap) ph cfg it st = simBody sys ph cfg it st := by
  unfold simBody
  by_cases hp : cfg.usePhonons = true
  · simp only [hp, if_true]
    have e : phIteration (sys.guard c cap) ph cfg.noHS (effNeqlt cfg it) st
        = phIteration sys ph cfg.noHS (effNeqlt cfg it) st := by
      unfold phIteration
      rw [slices_guard hc]
      · rfl
      · rw [sum_hit, hL]
        unfold Cfg.samples at h
        rw [hp] at h
        unfold effNeqlt
        by_cases hi : cfg.nequil ≤ it
        · rw [if_pos hi] at h
          rw [if_pos hi]
          simpa using h
        · rw [if_neg hi] at h
          rw [if_neg hi]
          simpa using h
    rw [e]
    rfl
  · simp only [hp]
    rfl

theorem simLoop_guard [NeZero N] (cfg : Cfg) (hc : CountsBy sys c 0 1 0) (stop : ℤ → Bool) (k : ℕ)
    (it : ℤ) (st : State σ N M) (p : Progress.Prog)
    (hL : st.tsmU.L = cfg.L) (h : c st.meas + cfg.totalSamples 0 1 0 it (it + k) ≤ cap) :
    simLoop (simBody (sys.guard c cap) ph cfg) stop k it st p
      = simLoop (simBody sys ph cfg) stop k it st p := by
  induction k generalizing it st p with
  | zero => rfl
  | succ k ih =>
    unfold simLoop
    have hsplit : cfg.totalSamples 0 1 0 it (it + (k + 1 : ℕ))
        = cfg.samples 0 1 0 it + cfg.totalSamples 0 1 0 (it + 1) (it + 1 + k) := by
      rw [totalSamples_split cfg 0 1 0 it (it + 1) _ (by omega) (by push_cast; omega)]
      congr 1
      · have : Finset.Ico it (it + 1) = {it} := by
          ext x
          simp only [Finset.mem_Ico, Finset.mem_singleton]
          omega
        unfold Cfg.totalSamples
        rw [this, Finset.sum_singleton]
      · congr 1
        push_cast
        ring
    rw [hsplit] at h
    split
    · rfl
    · rw [simBody_guard cfg hc it st hL (by omega)]
      cases e : simBody sys ph cfg it st with
      | none => rfl
      | some st1 =>
        obtain ⟨a1, a2⟩ := simBody_count cfg hc it _ _ hL e
        exact ih (it + 1) st1 _ a1 (by rw [a2]; omega)

/-- **C40.** With the capacity allocated by `main` (main.c:129-130) no phonon sample of a run is taken
with a full buffer, wherever the run starts and whenever it is stopped: the program with the check does
the same as the program. -/
theorem phonon_buffer [NeZero N] (cfg : Cfg) (hc : CountsBy sys c 0 1 0) 
    (stop : ℤ → Bool) (it : ℤ) (rng : σ)
    (s : ℕ → Fin N → Fin 2) (X expX : ℕ → Fin N → ℝ) (cnt : Counters) (meas : M) (hm : c meas = 0) :
    simulate (sys.guard c (cfg.nsampl.toNat * cfg.L / cfg.neqlt.toNat)) ph cfg stop it rng s X expX
        cnt meas
      = simulate sys ph cfg stop it rng s X expX cnt meas := by
  unfold simulate
  change (startState sys cfg rng s X expX cnt meas) >>= _ = _
  cases e : startState sys cfg rng s X expX cnt meas with
  | none => rfl
  | some st =>
    obtain ⟨f1, f2, -⟩ := startState_frame cfg _ _ _ _ _ _ _ e
    refine simLoop_guard cfg hc stop _ it st _ f1 ?_
    rw [f2, hm, zero_add]
    have h1 : ∀ it', cfg.totalSamples 0 1 0 it it' ≤ cfg.totalSamples 1 0 0 it it' := by
      intro it'
      refine Finset.sum_le_sum fun i _ => ?_
      unfold Cfg.samples
      split <;> split <;> simp
    refine (h1 _).trans ?_
    rw [totalSamples_eq]
    refine le_trans (Nat.mul_le_mul_right _ ?_) (Nat.mul_div_le_mul_div_assoc ..)
    omega

end

end Verif.MonteCarlo
