import Verif.Model.Progress
import Mathlib.Data.Rat.Defs
import Mathlib.Algebra.Order.Field.Rat
import Mathlib.Data.Nat.Cast.Order.Basic

/-!
# Clock values of `src/progress.c` and the time limit of the simulation

The clock (`GetTicks`, util.c:78-93) is a natural number of ticks; it is monotonic and does not exceed 64 bits (nanoseconds since the
start of the machine).  Estimates are computed in `double`; here they are exact rational numbers.
-/

set_option autoImplicit false

namespace Verif.Progress

/-- `dqmc_progress_t` (progress.c:12-24) without the pointer to the iteration -/
structure Clocked where
  prog : Prog
  tStart : ℕ
  tEquilib : ℕ
  tMeasure : ℕ
  tLast : ℕ

/-- `InitProgressTracking` (progress.c:91-109); `now` is the value of the clock -/
def startClock (nequil nsampl : ℤ) (now : ℕ) : Clocked := ⟨start nequil nsampl, now, now, now, now⟩

/-- `UpdateProgress` (progress.c:116-157) -/
def updateClock (it : ℤ) (now : ℕ) (c : Clocked) : Clocked :=
  match c.prog.phase with
  | .init => { c with prog := update it c.prog, tEquilib := now, tMeasure := now }
  | .equilib =>
    if it + 1 = c.prog.nequil then { c with prog := update it c.prog, tLast := now, tMeasure := now }
    else { c with prog := update it c.prog, tLast := now }
  | .measure => { c with prog := update it c.prog, tLast := now }
  | .output => c

/-- what `PrintProgress` prints, besides the elapsed time: numbers of iterations, and estimates in ticks -/
inductive Report
  | initializing
  | equilibrating (done total : ℤ) (estimates : Option (ℚ × ℚ))
  | measuring (done total : ℤ) (estimate : Option ℚ)
  | finished
  deriving DecidableEq

/-- `time_per_iter * remaining + p.t_last_iter - t_current` -/
def remainingTime (since last now : ℕ) (niter remaining : ℤ) : ℚ :=
  let timePerIter : ℚ := ((last - since : ℕ) : ℚ) / niter
  timePerIter * remaining + last - now

/-- `PrintProgress` (progress.c:37-84) called by the signal handler at time `now`, when `*p.iteration` is `it` -/
def report (it : ℤ) (now : ℕ) (c : Clocked) : ℕ × Report :=
  (now - c.tStart,
    match c.prog.phase with
    | .init => .initializing
    | .equilib => .equilibrating it c.prog.nequil
        (if c.prog.niter > 0 then
          some (remainingTime c.tEquilib c.tLast now c.prog.niter (c.prog.nequil - it),
            remainingTime c.tEquilib c.tLast now c.prog.niter (c.prog.nequil + c.prog.nsampl - it))
        else none)
    | .measure => .measuring (it - c.prog.nequil) c.prog.nsampl
        (if c.prog.niter > 0 then
          some (remainingTime c.tMeasure c.tLast now c.prog.niter (c.prog.nequil + c.prog.nsampl - it))
        else none)
    | .output => .finished)

/-- the state after the first call of `UpdateProgress` at time `t 0` and `j` iterations which end at times `t 1`, ..., `t j`, in a run
that starts with iteration `i0` at time `t0` (monte_carlo.c:813-853) -/
def afterIterations (nequil nsampl i0 : ℤ) (t0 : ℕ) (t : ℕ → ℕ) : ℕ → Clocked
  | 0 => updateClock i0 (t 0) (startClock nequil nsampl t0)
  | j + 1 => updateClock (i0 + j) (t (j + 1)) (afterIterations nequil nsampl i0 t0 t j)

/-! ## The time limit -/

/-- the check at the beginning of an iteration (monte_carlo.c:750, 820-824): `t0` is the clock at the beginning of the simulation -/
def overTime (maxTime : ℤ) (res t0 now : ℕ) : Bool := maxTime > 0 && now ≥ t0 + maxTime.toNat * res

/-- the number of iterations of the loop with at most `fuel` iterations left; `check j` is the clock at the check before the `j`-th
iteration of this run, and `stop j` says that a signal has been received before (monte_carlo.c:818-853) -/
def iterations (maxTime : ℤ) (res t0 : ℕ) (check : ℕ → ℕ) (stop : ℕ → Bool) : ℕ → ℕ → ℕ
  | 0, j => j
  | fuel + 1, j => if overTime maxTime res t0 (check j) || stop j then j else iterations maxTime res t0 check stop fuel (j + 1)

end Verif.Progress
