import Verif.Lemmas.MeasMap
import Verif.Props.Main

/-! # Measurements only add to the sums; runs with another number of iterations -/

set_option autoImplicit false

namespace Verif.MonteCarlo

variable {σ : Type} {N : ℕ} {M : Type}

/-- the phonon measurement has no influence without phonons -/
theorem simulate_noPh [NeZero N] (sys : Sys σ N M) (R : Meas N M) (h1 : R.eq = sys.meas.eq)
    (h2 : R.uneq = sys.meas.uneq) (ph : Phonon) (cfg : Cfg) (hp : cfg.usePhonons = false)
    (stop : ℤ → Bool) (it : ℤ) (rng : σ) (s : ℕ → Fin N → Fin 2) (X expX : ℕ → Fin N → ℝ)
    (cnt : Counters) (meas : M) :
    simulate (sys.withMeas R) ph cfg stop it rng s X expX cnt meas =
      simulate sys ph cfg stop it rng s X expX cnt meas := by
  have hb : ∀ it st, simBody (sys.withMeas R) ph cfg it st = simBody sys ph cfg it st := by
    intro it st
    unfold simBody
    simp only [hp, Bool.false_eq_true, if_false]
    have e1 : ∀ neqlt st, dqmcIteration (sys.withMeas R) neqlt st = dqmcIteration sys neqlt st := by
      intro neqlt st
      unfold dqmcIteration
      refine congrArg (fun f => List.foldlM f st _) ?_
      funext st l
      unfold hsTimeSlice
      have e3 : ∀ st, measureEq (sys.withMeas R) neqlt l st = measureEq sys neqlt l st := by
        intro st
        unfold measureEq
        rw [show (sys.withMeas R).meas.eq = sys.meas.eq from h1]
      simp only [e3]
      rfl
    have e2 : ∀ st, measureUneq (sys.withMeas R) cfg it st = measureUneq sys cfg it st := by
      intro st
      unfold measureUneq
      rw [show (sys.withMeas R).meas.uneq = sys.meas.uneq from h2]
    simp only [e1, e2]
  unfold simulate
  have hb' : simBody (sys.withMeas R) ph cfg = simBody sys ph cfg := by
    funext it st
    exact hb it st
  rw [hb']
  rfl

/-- a loop whose first `m` iterations are known, stopped there -/
theorem simLoop_stopAt {S : Type} (body : ℤ → S → Option S) (k m : ℕ) (hm : m ≤ k) (it : ℤ) (st st' : S)
    (p : Progress.Prog) (h : runs body it m st = some st') :
    ∃ q b, simLoop body (fun i => Decidable.decide (it + m ≤ i)) k it st p = some ⟨it + m, st', q, b⟩ := by
  induction m generalizing it st p k with
  | zero =>
    cases h
    cases k with
    | zero => exact ⟨p, false, by simp [simLoop]⟩
    | succ k => exact ⟨p, true, by simp [simLoop]⟩
  | succ m ih =>
    obtain ⟨k, rfl⟩ : ∃ k', k = k' + 1 := ⟨k - 1, by omega⟩
    rw [show m + 1 = 1 + m by omega, runs_add] at h
    obtain ⟨s1, e1, e2⟩ := Option.bind_eq_some_iff.1 h
    have e1 : body it st = some s1 := by
      simpa [runs] using e1
    obtain ⟨q, b, e3⟩ := ih k (by omega) (it + 1) s1 (Progress.update it p) e2
    refine ⟨q, b, ?_⟩
    unfold simLoop
    rw [if_neg (by simp)]
    simp only [e1, Option.bind_eq_bind, Option.bind_some]
    have e : it + ((m + 1 : ℕ) : ℤ) = it + 1 + m := by push_cast; ring
    rw [e]
    exact e3

/-- the beginning of a run does not depend on the number of iterations -/
theorem simulate_other [NeZero N] {sys : Sys σ N M} {ph : Phonon} {cfg : Cfg} (n : ℤ) (stop : ℤ → Bool)
    (it : ℤ) (rng : σ) (s : ℕ → Fin N → Fin 2) (X expX : ℕ → Fin N → ℝ) (cnt : Counters) (meas : M)
    (r : LoopResult (State σ N M)) (h : simulate sys ph cfg stop it rng s X expX cnt meas = some r)
    (hr : r.iteration ≤ cfg.nequil + n) :
    ∃ q b, simulate sys ph { cfg with nsampl := n } (fun i => Decidable.decide (r.iteration ≤ i)) it rng s X expX cnt
      meas = some ⟨r.iteration, r.state, q, b⟩ := by
  unfold simulate at h ⊢
  simp only [Option.bind_eq_bind] at h ⊢
  obtain ⟨st, e1, h⟩ := Option.bind_eq_some_iff.1 h
  obtain ⟨m, hm, a2, a3, -⟩ := simLoop_spec _ _ _ _ _ _ _ h
  rw [show startState sys { cfg with nsampl := n } rng s X expX cnt meas = some st from e1,
    Option.bind_some, a2]
  rw [a2] at hr
  exact simLoop_stopAt (simBody sys ph { cfg with nsampl := n }) _ m (by omega) it st _ _ a3

end Verif.MonteCarlo

namespace Verif.Main

open Verif.Random Verif.Measurement Verif.MonteCarlo Verif.Files Verif.Params

variable {N : ℕ} {su : Setup N}

/-- add constants -/
def plus {A : Type} (m d : Arrays A) : Arrays A := fun a z => m a z + d a z

theorem plus_zero {A : Type} (m : Arrays A) : plus m (fun _ _ => 0) = m := by
  funext a z
  exact add_zero _

theorem execute_plus {A : Type} [DecidableEq A] (size : A → ℤ) (d m : Arrays A)
    (ws : List (Measurement.Add A)) :
    execute size (plus m d) ws = (execute size m ws).map (plus · d) := by
  unfold execute
  induction ws generalizing m with
  | nil => rfl
  | cons w ws ih =>
    simp only [List.foldlM_cons, Option.bind_eq_bind]
    by_cases hw : 0 ≤ w.2.1 ∧ w.2.1 < size w.1
    · rw [show addTo size m w = some _ from if_pos hw, show addTo size (plus m d) w = some _ from if_pos hw,
        Option.bind_some, Option.bind_some, ← ih]
      congr 1
      funext a z
      unfold plus
      by_cases ha : a = w.1
      · subst ha
        simp only [Function.update_self]
        by_cases hz : z = w.2.1
        · subst hz
          simp only [Function.update_self]
          ring
        · simp only [Function.update_of_ne hz]
      · simp only [Function.update_of_ne ha]
    · rw [show addTo size m w = none from if_neg hw, show addTo size (plus m d) w = none from if_neg hw]
      rfl

/-- add constants to equal time data -/
def EqData.plus (d : EqData) (m : EqData) : EqData :=
  { sign := m.sign + d.sign, nsampl := m.nsampl + d.nsampl, arr := Main.plus m.arr d.arr }

/-- add constants to unequal time data -/
def UneqData.plus (d : UneqData) (m : UneqData) : UneqData :=
  { sign := m.sign + d.sign, nsampl := m.nsampl + d.nsampl, arr := Main.plus m.arr d.arr }

theorem accumulateEq_plus (Norb Ncell : ℕ) (mp : Maps) (gu gd : Greens.GreensFn N) (d m : EqData) :
    accumulateEq Norb Ncell mp gu gd (EqData.plus d m) =
      (accumulateEq Norb Ncell mp gu gd m).map (EqData.plus d) := by
  unfold accumulateEq EqData.plus
  simp only [Option.bind_eq_bind]
  cases eqAdds Norb Ncell mp (flat gu.mat) (flat gd.mat) ((gu.sgndet * gd.sgndet : ℤ) : ℝ) with
  | none => rfl
  | some ws =>
    simp only [Option.bind_some, execute_plus]
    cases execute (EqF.size Norb Ncell) m.arr ws with
    | none => rfl
    | some arr =>
      simp only [Option.map_some, Option.bind_some, Option.pure_def, Option.some.injEq, EqData.mk.injEq,
        true_and]
      constructor <;> ring

theorem accumulateUneq_plus (Norb Ncell L : ℕ) (mp : Maps) (sg : ℝ) (u v : Cur) (d m : UneqData) :
    accumulateUneq Norb Ncell L mp sg u v (UneqData.plus d m) =
      (accumulateUneq Norb Ncell L mp sg u v m).map (UneqData.plus d) := by
  unfold accumulateUneq UneqData.plus
  simp only [Option.bind_eq_bind]
  cases uneqAdds Norb Ncell L mp u v sg with
  | none => rfl
  | some ws =>
    simp only [Option.bind_some, execute_plus]
    cases execute (UneqF.size Norb Ncell L) m.arr ws with
    | none => rfl
    | some arr =>
      simp only [Option.map_some, Option.bind_some, Option.pure_def, Option.some.injEq, UneqData.mk.injEq,
        true_and]
      constructor <;> ring

/-- add constants to all data except those of the phonons, which are replaced -/
def MeasData.plus (d : MeasData) (m : MeasData) : MeasData :=
  ⟨EqData.plus d.eq m.eq, UneqData.plus d.uneq m.uneq, d.ph⟩

/-- without phonons, the sums at the beginning of a run are only added to -/
theorem simulate_plus [NeZero N] {sys : Sys Seed N MeasData} (hm : RealMeas su sys.meas) (ph : Phonon)
    (cfg : Cfg) (hp : cfg.usePhonons = false) (d : MeasData)
    (stop : ℤ → Bool) (it : ℤ) (rng : Seed) (s : ℕ → Fin N → Fin 2) (X expX : ℕ → Fin N → ℝ)
    (cnt : Counters) (meas : MeasData) :
    simulate sys ph cfg stop it rng s X expX cnt (MeasData.plus d meas) =
      (simulate sys ph cfg stop it rng s X expX cnt meas).map
        fun r => ⟨r.iteration, r.state.mapMeas (MeasData.plus d), r.prog, r.broke⟩ := by
  set R : Meas N MeasData := { sys.meas with phonon := fun _ _ _ _ m => some m } with hR
  have hf : (sys.withMeas R).meas.Maps R (MeasData.plus d) := by
    obtain ⟨mp, dt, omega, alg, tau, old, h⟩ := hm
    have e1 : R.eq = sys.meas.eq := rfl
    have e2 : R.uneq = sys.meas.uneq := rfl
    refine ⟨fun gu gd m => ?_, fun gu gd l X m => rfl, fun sg tu td m => ?_⟩
    · show R.eq gu gd _ = (R.eq gu gd m).map _
      rw [e1, h]
      simp only [realMeas]
      rw [show (MeasData.plus d m).eq = EqData.plus d.eq m.eq from rfl, accumulateEq_plus, Option.map_map,
        Option.map_map]
      rfl
    · show R.uneq sg tu td _ = (R.uneq sg tu td m).map _
      rw [e2, h]
      simp only [realMeas, Option.bind_eq_bind]
      cases GreensUneq.compute alg tu su.cfg.L tau old with
      | none => rfl
      | some u =>
        simp only [Option.bind_some]
        cases GreensUneq.compute alg td su.cfg.L tau old with
        | none => rfl
        | some v =>
          simp only [Option.bind_some]
          rw [show (MeasData.plus d m).uneq = UneqData.plus d.uneq m.uneq from rfl, accumulateUneq_plus]
          cases accumulateUneq su.Norb su.Ncell su.cfg.L mp (sg : ℝ) (u.toCur N su.cfg.L)
            (v.toCur N su.cfg.L) m.uneq with
          | none => rfl
          | some x => rfl
  have h1 := simulate_mapMeas hf cfg ph stop it rng s X expX cnt meas
  have e : (sys.withMeas R).withMeas R = sys.withMeas R := rfl
  rw [e, simulate_noPh sys R rfl rfl ph cfg hp, simulate_noPh sys R rfl rfl ph cfg hp] at h1
  exact h1

end Verif.Main
