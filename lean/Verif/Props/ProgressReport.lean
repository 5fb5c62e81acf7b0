import Verif.Model.ProgressReport
import Mathlib.Tactic.Ring
import Mathlib.Tactic.FieldSimp
import Mathlib.Tactic.Linarith
import Mathlib.Tactic.NormNum

/-! # Property C116: what the progress signal reports, and the time limit -/

set_option autoImplicit false

namespace Verif.Progress

/-! ## Specification -/

/-- mean duration of the iterations `k + 1`, ..., `j`, times `r` iterations which remain, minus the time since the last one -/
def estimate (t : ℕ → ℕ) (now k j : ℕ) (r : ℤ) : ℚ := ((t j : ℚ) - t k) / ((j : ℚ) - k) * r - ((now : ℚ) - t j)

/-- The correct report when `j` iterations of this run are done: `k` of them, at least, are not used for the estimate since they belong
to the equilibration. -/
def trueReport (nequil nsampl i0 : ℤ) (t : ℕ → ℕ) (now j : ℕ) : Report :=
  let it := i0 + j
  let k := (nequil - i0).toNat
  if it < nequil then .equilibrating it nequil
    (if 0 < j then some (estimate t now 0 j (nequil - it), estimate t now 0 j (nequil + nsampl - it)) else none)
  else if it = nequil + nsampl ∧ 0 < j then .finished
  else .measuring (it - nequil) nsampl (if k < j then some (estimate t now k j (nequil + nsampl - it)) else none)

/-! ## Proof -/

theorem remainingTime_eq {t : ℕ → ℕ} (ht : Monotone t) (now : ℕ) {k j : ℕ} (hk : k < j) (r : ℤ) :
    remainingTime (t k) (t j) now ((j : ℤ) - k) r = estimate t now k j r := by
  unfold remainingTime estimate
  have h1 : ((t j - t k : ℕ) : ℚ) = (t j : ℚ) - t k := by
    rw [Nat.cast_sub (ht hk.le)]
  simp only [h1]
  push_cast
  ring

/-- the state after `j` iterations -/
structure AfterRun (nequil nsampl i0 : ℤ) (t0 : ℕ) (t : ℕ → ℕ) (j : ℕ) (c : Clocked) : Prop where
  start : c.tStart = t0
  equilTotal : c.prog.nequil = nequil
  samplTotal : c.prog.nsampl = nsampl
  equilib : i0 + j < nequil → c.prog.phase = .equilib ∧ c.prog.niter = j ∧ c.tEquilib = t 0 ∧ (0 < j → c.tLast = t j)
  measure : nequil ≤ i0 + j → ¬ (i0 + j = nequil + nsampl ∧ 0 < j) → c.prog.phase = .measure ∧
    c.prog.niter = (j : ℤ) - (nequil - i0).toNat ∧ c.tMeasure = t (nequil - i0).toNat ∧ ((nequil - i0).toNat < j → c.tLast = t j)
  output : i0 + j = nequil + nsampl → 0 < j → c.prog.phase = .output

theorem after {nequil nsampl i0 : ℤ} {t0 : ℕ} {t : ℕ → ℕ} (hs : 1 ≤ nsampl) {j : ℕ} (hj : i0 + j ≤ max i0 (nequil + nsampl)) :
    AfterRun nequil nsampl i0 t0 t j (afterIterations nequil nsampl i0 t0 t j) := by
  induction j with
  | zero =>
    refine ⟨rfl, rfl, rfl, fun h => ?_, fun h h' => ?_, fun _ h => absurd h (lt_irrefl 0)⟩
    · rw [Nat.cast_zero, add_zero] at h
      simp [afterIterations, updateClock, startClock, Progress.start, update, h]
    · rw [Nat.cast_zero, add_zero] at h
      have e : (nequil - i0).toNat = 0 := by omega
      simp [afterIterations, updateClock, startClock, Progress.start, update, not_lt.2 h, e]
  | succ j ih =>
    have h := ih (by push_cast at hj; omega)
    rw [afterIterations]
    generalize afterIterations nequil nsampl i0 t0 t j = c at h
    push_cast at hj
    have hlt : i0 + j < nequil + nsampl := by omega
    by_cases hq : i0 + j < nequil
    · obtain ⟨p1, p2, p3, p4⟩ := h.equilib hq
      by_cases he : i0 + j + 1 = nequil
      · have e : updateClock (i0 + j) (t (j + 1)) c = { c with prog := { c.prog with phase := .measure, niter := 0 }, tLast := t (j + 1), tMeasure := t (j + 1) } := by
          unfold updateClock update
          simp only [p1, h.equilTotal, if_pos he]
        rw [e]
        have ek : (nequil - i0).toNat = j + 1 := by omega
        refine ⟨h.start, h.equilTotal, h.samplTotal, fun h' => ?_, fun _ _ => ⟨rfl, ?_, ?_, fun h' => ?_⟩, fun h' _ => ?_⟩
        · push_cast at h'; omega
        · rw [ek]; simp
        · rw [ek]
        · omega
        · push_cast at h'; omega
      · have e : updateClock (i0 + j) (t (j + 1)) c = { c with prog := { c.prog with niter := c.prog.niter + 1 }, tLast := t (j + 1) } := by
          unfold updateClock update
          simp only [p1, h.equilTotal, if_neg he]
        rw [e]
        refine ⟨h.start, h.equilTotal, h.samplTotal, fun h' => ⟨p1, ?_, p3, fun _ => rfl⟩, fun h' _ => ?_, fun h' _ => ?_⟩
        · show c.prog.niter + 1 = _
          rw [p2]; push_cast; ring
        · push_cast at h'; omega
        · push_cast at h'; omega
    · obtain ⟨p1, p2, p3, p4⟩ := h.measure (by omega) (by omega)
      by_cases he : i0 + j + 1 = nequil + nsampl
      · have e : updateClock (i0 + j) (t (j + 1)) c = { c with prog := { c.prog with phase := .output, niter := c.prog.niter + 1 }, tLast := t (j + 1) } := by
          unfold updateClock update
          simp only [p1, h.equilTotal, h.samplTotal, if_pos he]
        rw [e]
        refine ⟨h.start, h.equilTotal, h.samplTotal, fun h' => ?_, fun _ h' => ?_, fun _ _ => rfl⟩
        · push_cast at h'; omega
        · push_cast at h'; omega
      · have e : updateClock (i0 + j) (t (j + 1)) c = { c with prog := { c.prog with niter := c.prog.niter + 1 }, tLast := t (j + 1) } := by
          unfold updateClock update
          simp only [p1, h.equilTotal, h.samplTotal, if_neg he]
        rw [e]
        refine ⟨h.start, h.equilTotal, h.samplTotal, fun h' => ?_, fun _ _ => ⟨p1, ?_, p3, fun _ => rfl⟩, fun h' _ => ?_⟩
        · push_cast at h'; omega
        · show c.prog.niter + 1 = _
          rw [p2]; push_cast; ring
        · push_cast at h'; omega

/-- **C116**: a signal during the iteration after `j` iterations of a run (or at its end) gives the correct report, with estimates from
the mean duration of the iterations of the same kind in this run. -/
theorem report_correct {nequil nsampl i0 : ℤ} {t0 : ℕ} {t : ℕ → ℕ} (hs : 1 ≤ nsampl) (ht : Monotone t) {j : ℕ}
    (hj : i0 + j ≤ max i0 (nequil + nsampl)) (now : ℕ) :
    report (i0 + j) now (afterIterations nequil nsampl i0 t0 t j) = (now - t0, trueReport nequil nsampl i0 t now j) := by
  have h := after (t0 := t0) (t := t) hs hj
  generalize afterIterations nequil nsampl i0 t0 t j = c at h
  unfold report trueReport
  rw [h.start]
  congr 1
  simp only
  by_cases hq : i0 + j < nequil
  · obtain ⟨p1, p2, p3, p4⟩ := h.equilib hq
    rw [if_pos hq]
    simp only [p1, p2, p3, h.equilTotal, h.samplTotal]
    by_cases h0 : 0 < j
    · rw [if_pos h0, if_pos (by exact_mod_cast h0), p4 h0]
      have := fun r => remainingTime_eq ht now h0 r
      simp only [Nat.cast_zero, sub_zero] at this
      rw [this, this]
    · rw [if_neg h0, if_neg (by exact_mod_cast h0)]
  · rw [if_neg hq]
    by_cases he : i0 + j = nequil + nsampl ∧ 0 < j
    · rw [if_pos he]
      simp only [h.output he.1 he.2]
    · obtain ⟨p1, p2, p3, p4⟩ := h.measure (by omega) he
      rw [if_neg he]
      simp only [p1, p2, p3, h.equilTotal, h.samplTotal]
      by_cases h0 : (nequil - i0).toNat < j
      · rw [if_pos h0, if_pos (by omega), p4 h0, remainingTime_eq ht now h0]
      · rw [if_neg h0, if_neg (by omega)]

/-- the estimates are exact if all iterations take the same time `d`: what remains until `r` more iterations are done -/
theorem estimate_exact {t : ℕ → ℕ} {d : ℕ} (hd : ∀ i, t i = t 0 + i * d) (now : ℕ) {k j r : ℕ} (hk : k < j) :
    estimate t now k j r = (t (j + r) : ℚ) - now := by
  unfold estimate
  rw [hd j, hd k, hd (j + r)]
  have : (j : ℚ) - k ≠ 0 := by
    have : (k : ℚ) < j := by exact_mod_cast hk
    linarith
  push_cast
  field_simp
  ring

/-- **The code disagrees**: a signal between `UpdateProgress` and the increment of the iteration reports the iterations before, and
right after equilibration "-1" completed measurement iterations (progress.c:67). -/
theorem report_minus_one {nequil nsampl i0 : ℤ} {t0 : ℕ} {t : ℕ → ℕ} (hs : 1 ≤ nsampl) {j : ℕ} (hj : i0 + j + 1 = nequil) (now : ℕ) :
    (report (i0 + j) now (afterIterations nequil nsampl i0 t0 t (j + 1))).2 = .measuring (-1) nsampl none := by
  have h := after (t0 := t0) (t := t) (i0 := i0) (nequil := nequil) (j := j + 1) hs (by push_cast; omega)
  generalize afterIterations nequil nsampl i0 t0 t (j + 1) = c at h
  obtain ⟨p1, p2, p3, p4⟩ := h.measure (by push_cast; omega) (by push_cast; omega)
  have ek : (nequil - i0).toNat = j + 1 := by omega
  unfold report
  simp only [p1, h.equilTotal, h.samplTotal, p2, ek]
  rw [if_neg (by push_cast; omega), show i0 + (j : ℤ) - nequil = -1 by omega]

/-- within that interval the estimates are too large by the duration of one iteration -/
theorem report_late {nequil nsampl i0 : ℤ} {t0 : ℕ} {t : ℕ → ℕ} (hs : 1 ≤ nsampl) (ht : Monotone t) {j : ℕ} (hj : i0 + j + 1 < nequil) (now : ℕ) :
    (report (i0 + j) now (afterIterations nequil nsampl i0 t0 t (j + 1))).2 = .equilibrating (i0 + j) nequil
      (some (estimate t now 0 (j + 1) (nequil - (i0 + j)), estimate t now 0 (j + 1) (nequil + nsampl - (i0 + j)))) := by
  have h := after (t0 := t0) (t := t) (i0 := i0) (nequil := nequil) (j := j + 1) hs (by push_cast; omega)
  generalize afterIterations nequil nsampl i0 t0 t (j + 1) = c at h
  obtain ⟨p1, p2, p3, p4⟩ := h.equilib (by push_cast; omega)
  have := fun r => remainingTime_eq ht now (Nat.succ_pos j) r
  simp only [Nat.cast_zero, sub_zero, Nat.succ_eq_add_one] at this
  unfold report
  simp only [p1, h.equilTotal, h.samplTotal, p2, p3, p4 (Nat.succ_pos j)]
  rw [if_pos (by push_cast; omega), this, this]

/-- non-vacuity: a resumed run with two equilibration iterations left and iterations of 10 ticks each; during the third of 4
measurement iterations, 18 ticks remain -/
example : report (8 + (4 : ℕ)) 47 (afterIterations 10 4 8 0 (fun i => 5 + 10 * i) 4) = (47, .measuring 2 4 (some 18)) := by
  have h := report_correct (nequil := 10) (nsampl := 4) (i0 := 8) (t0 := 0) (t := fun i => 5 + 10 * i) (j := 4) (by decide)
    (fun a b h => by dsimp only; omega) (by decide) 47
  refine h.trans ?_
  norm_num [trueReport, estimate, show Int.toNat 2 = 2 from rfl]

/-! ## The time limit -/

/-- the time limit: `maxTime` seconds after `t0`, none if `maxTime` is not positive -/
def Late (maxTime : ℤ) (res t0 now : ℕ) : Prop := 0 < maxTime ∧ t0 + maxTime * res ≤ (now : ℤ)

theorem overTime_iff (maxTime : ℤ) (res t0 now : ℕ) : overTime maxTime res t0 now = true ↔ Late maxTime res t0 now := by
  unfold overTime Late
  simp only [Bool.and_eq_true, decide_eq_true_eq, gt_iff_lt, ge_iff_le]
  refine and_congr_right fun h => ?_
  obtain ⟨n, rfl⟩ := Int.eq_ofNat_of_zero_le h.le
  simp only [Int.toNat_natCast]
  norm_cast

/-- no iteration begins after the time limit, and without signals the loop ends early only because of it -/
theorem iterations_limit (maxTime : ℤ) (res t0 : ℕ) (check : ℕ → ℕ) (stop : ℕ → Bool) (fuel j : ℕ) :
    let m := iterations maxTime res t0 check stop fuel j
    j ≤ m ∧ m ≤ j + fuel ∧ (∀ i, j ≤ i → i < m → ¬ Late maxTime res t0 (check i) ∧ stop i = false) ∧
      (m < j + fuel → Late maxTime res t0 (check m) ∨ stop m = true) := by
  induction fuel generalizing j with
  | zero => exact ⟨le_refl _, le_refl _, fun i h1 h2 => absurd h1 (not_le.2 h2), fun h => absurd h (lt_irrefl _)⟩
  | succ fuel ih =>
    simp only [iterations]
    by_cases h : overTime maxTime res t0 (check j) || stop j
    · rw [if_pos h]
      refine ⟨le_refl _, by omega, fun i h1 h2 => absurd h1 (not_le.2 h2), fun _ => ?_⟩
      rw [← overTime_iff]
      simpa using h
    · rw [if_neg h]
      obtain ⟨h1, h2, h3, h4⟩ := ih (j + 1)
      refine ⟨by omega, by omega, fun i hi hi' => ?_, fun h' => h4 (by omega)⟩
      rcases Nat.eq_or_lt_of_le hi with e | e
      · subst e
        rw [← overTime_iff]
        simpa using h
      · exact h3 i e hi'

/-- without a time limit and signals all iterations are done -/
theorem iterations_all {maxTime : ℤ} {res t0 : ℕ} {check : ℕ → ℕ} (h : maxTime ≤ 0) (fuel : ℕ) :
    iterations maxTime res t0 check (fun _ => false) fuel 0 = fuel := by
  obtain ⟨-, h2, -, h4⟩ := iterations_limit maxTime res t0 check (fun _ => false) fuel 0
  by_contra hc
  rcases h4 (by omega) with h5 | h5
  · exact absurd h5.1 (not_lt.2 h)
  · exact Bool.noConfusion h5

/-- a run exceeds the limit by at most the duration of its last iteration -/
theorem overrun {maxTime : ℤ} {res t0 : ℕ} {check : ℕ → ℕ} {stop : ℕ → Bool} (h0 : 0 < maxTime) {fuel m : ℕ}
    (hm : iterations maxTime res t0 check stop fuel 0 = m + 1) : (check m : ℤ) < t0 + maxTime * res := by
  have h := ((iterations_limit maxTime res t0 check stop fuel 0).2.2.1 m (Nat.zero_le _) (by omega)).1
  unfold Late at h
  push Not at h
  exact h h0

example : iterations 1 10 3 (fun j => 4 + 4 * j) (fun _ => false) 100 0 = 3 := by decide

end Verif.Progress
