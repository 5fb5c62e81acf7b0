import Verif.Model.Main

/-!
# Debug builds

With `DEBUG` or `_DEBUG` (monte_carlo.c:50-57, 129-132, 142-158, 173-176 and the same lines in `DQMCPhononIteration`), the program
keeps copies of the Green's functions before it recomputes them, compares them with the new ones, and prints warnings.  Here the
warnings of a run are collected in a list.
-/

set_option autoImplicit false

namespace Verif.MonteCarlo

open Verif.Lapack Verif.TimeFlow Verif.Greens Verif.Progress

variable {σ : Type} {N : ℕ} {M : Type}

/-- the three messages with their numbers (monte_carlo.c:147, 153, 156) -/
inductive Warning
  | matrices (up down : ℝ)
  | determinants (up down : ℝ)
  | signs

/-- `UniformDistance` (util.h:75-85) of two matrices, stored by columns -/
noncomputable def uniformDistance (A B : Mat N) : ℝ :=
  ((List.finRange N).flatMap fun j => (List.finRange N).map fun i => |A i j - B i j|).foldl max 0

open Classical in
/-- comparison of the states before and after the recomputation (monte_carlo.c:143-157, 673-687) -/
noncomputable def warnings (st st' : State σ N M) : List Warning :=
  let eu := uniformDistance st.Gu.mat st'.Gu.mat
  let ed := uniformDistance st.Gd.mat st'.Gd.mat
  let lu := |st.Gu.logdet - st'.Gu.logdet|
  let ld := |st.Gd.logdet - st'.Gd.logdet|
  (if eu > 1e-8 * N ∨ ed > 1e-8 * N then [.matrices eu ed] else []) ++
  (if lu > 1e-8 ∨ ld > 1e-8 then [.determinants lu ld] else []) ++
  (if st.Gu.sgndet ≠ st'.Gu.sgndet ∨ st.Gd.sgndet ≠ st'.Gd.sgndet then [.signs] else [])

variable (sys : Sys σ N M) (ph : Phonon) (cfg : Cfg)

/-- `maybeRecompute` with warnings (monte_carlo.c:124-160, 654-690) -/
noncomputable def debugRecompute [NeZero N] (l : ℕ) (st : State σ N M) : Option (State σ N M × List Warning) :=
  if (l + 1) % sys.nwraps = 0 then do
    let st' ← recompute sys ((l + 1) % st.tsmU.L) st
    return (st', warnings st st')
  else some (st, [])

/-- one time slice of `DQMCIteration` (monte_carlo.c:64-169) -/
noncomputable def debugTimeSlice [NeZero N] (neqlt : ℕ) (x : State σ N M × List Warning) (l : ℕ) :
    Option (State σ N M × List Warning) := do
  let st := wrap l x.1
  let st ← hsSlice sys l st
  let st := updateB sys l st
  let y ← debugRecompute sys l st
  let st ← measureEq sys neqlt l y.1
  return (st, x.2 ++ y.2)

/-- `DQMCIteration` (monte_carlo.c:31-178) -/
noncomputable def debugIteration [NeZero N] (neqlt : ℕ) (x : State σ N M × List Warning) : Option (State σ N M × List Warning) :=
  (List.range x.1.tsmU.L).foldlM (debugTimeSlice sys neqlt) x

/-- one time slice of `DQMCPhononIteration` (monte_carlo.c:534-704) -/
noncomputable def debugPhTimeSlice [NeZero N] (noHS : Bool) (neqlt : ℕ) (x : State σ N M × List Warning) (l : ℕ) :
    Option (State σ N M × List Warning) := do
  let st := wrap l x.1
  let st ← if noHS then some st else hsSlice sys l st
  let st ← localSlice sys ph l st
  let st := updatePhB sys l st
  let y ← debugRecompute sys l st
  let st ← measurePh sys neqlt l y.1
  return (st, x.2 ++ y.2)

/-- `DQMCPhononIteration` (monte_carlo.c:495-724) -/
noncomputable def debugPhIteration [NeZero N] (noHS : Bool) (neqlt : ℕ) (x : State σ N M × List Warning) :
    Option (State σ N M × List Warning) := do
  let x ← (List.range x.1.tsmU.L).foldlM (debugPhTimeSlice sys ph noHS neqlt) x
  let st ← iterateM (blockUpdate sys ph) ph.nBlock x.1
  let st ← iterateM (flipUpdate sys ph) ph.nBlock st
  return (st, x.2)

/-- one iteration of the main loop (monte_carlo.c:833-850) -/
noncomputable def debugBody [NeZero N] (it : ℤ) (x : State σ N M × List Warning) : Option (State σ N M × List Warning) := do
  let x ← if cfg.usePhonons then debugPhIteration sys ph cfg.noHS (effNeqlt cfg it) x
    else debugIteration sys (effNeqlt cfg it) x
  let st ← measureUneq sys cfg it x.1
  return (st, x.2)

/-- `DQMCSimulation` (monte_carlo.c:741-862) -/
noncomputable def debugSimulate [NeZero N] (stop : ℤ → Bool) (it : ℤ) (rng : σ) (s : ℕ → Fin N → Fin 2)
    (X expX : ℕ → Fin N → ℝ) (cnt : Counters) (meas : M) : Option (LoopResult (State σ N M × List Warning)) := do
  let st ← startState sys cfg rng s X expX cnt meas
  simLoop (debugBody sys ph cfg) stop (cfg.nequil + cfg.nsampl - it).toNat it (st, []) (update it (start cfg.nequil cfg.nsampl))

end Verif.MonteCarlo

namespace Verif.Main

open Verif.Random Verif.Measurement Verif.MonteCarlo

variable {N : ℕ} (su : Setup N)

/-- the simulation of `main` in a debug build (main.c:195-231) -/
noncomputable def debugPerform [NeZero N] (stop : ℤ → Bool) (it : ℤ) (seed : Seed)
    (s : ℕ → Fin N → Fin 2) (meas : MeasData) : Option (LoopResult (State Seed N MeasData × List Warning)) := do
  let r := if su.cfg.usePhonons then drawPhonons su.rng su.ph su.Ncell N su.cfg.L seed
    else (fun _ => 0, seed)
  let X := unflat r.1
  let expX := expPhonons su.ph su.Ncell su.cfg.L X
  let sys ← su.sys
  debugSimulate sys su.ph su.cfg stop it r.2 s X expX zeroCounters meas

end Verif.Main
