import Verif.Model.Simulation

/-!
# The acceptance counters as C ints

`n_local_accept`, …, `n_flip_total` are of type `int` (include/measurement.h:150-155) and are incremented in
src/monte_carlo.c:618, 621, 296, 299, 439, 442.  The model of the simulation counts without bound; here are the same
functions with every increment checked.  An increment above `INT_MAX` is undefined (`none`).
-/

set_option autoImplicit false

namespace Verif.MonteCarlo

open Verif.Progress

variable {σ : Type} {N : ℕ} {M : Type}

/-- all six counters are ints -/
structure Counters.Fits (c : Counters) : Prop where
  localAccept : c.localAccept ≤ 2147483647
  localTotal : c.localTotal ≤ 2147483647
  blockAccept : c.blockAccept ≤ 2147483647
  blockTotal : c.blockTotal ≤ 2147483647
  flipAccept : c.flipAccept ≤ 2147483647
  flipTotal : c.flipTotal ≤ 2147483647

open Classical in
/-- a state whose counters are ints -/
noncomputable def checked (st : State σ N M) : Option (State σ N M) := if st.cnt.Fits then some st else none

variable (sys : Sys σ N M) (ph : Phonon) (cfg : Cfg)

/-- all local updates of a slice (monte_carlo.c:593-651); the counters are incremented in 618 and 621 -/
noncomputable def localSlice32 (l : ℕ) (st : State σ N M) : Option (State σ N M) := do
  let (order, r) ← sys.rng.shuffle N st.rng
  let sites ← localOrder order ph.nLocal
  sites.foldlM (fun st i => checked (localSite sys ph l st i)) { st with rng := r }

/-- one time slice of `DQMCPhononIteration` (monte_carlo.c:544-709) -/
noncomputable def phTimeSlice32 [NeZero N] (noHS : Bool) (neqlt : ℕ) (st : State σ N M) (l : ℕ) :
    Option (State σ N M) := do
  let st := wrap l st
  let st ← if noHS then some st else hsSlice sys l st
  let st ← localSlice32 sys ph l st
  let st := updatePhB sys l st
  let st ← maybeRecompute sys l st
  measurePh sys neqlt l st

/-- one pass of `PhononBlockUpdates` (monte_carlo.c:238-315); the counters are incremented in 296 and 299 -/
noncomputable def blockUpdate32 [NeZero N] (st : State σ N M) : Option (State σ N M) := blockUpdate sys ph st >>= checked

/-- one pass of `PhononFlipUpdates` (monte_carlo.c:387-459); the counters are incremented in 439 and 442 -/
noncomputable def flipUpdate32 [NeZero N] (st : State σ N M) : Option (State σ N M) := flipUpdate sys ph st >>= checked

/-- `DQMCPhononIteration` (monte_carlo.c:495-724) -/
noncomputable def phIteration32 [NeZero N] (noHS : Bool) (neqlt : ℕ) (st : State σ N M) : Option (State σ N M) := do
  let st ← (List.range st.tsmU.L).foldlM (phTimeSlice32 sys ph noHS neqlt) st
  let st ← iterateM (blockUpdate32 sys ph) ph.nBlock st
  iterateM (flipUpdate32 sys ph) ph.nBlock st

/-- one iteration of the main loop (monte_carlo.c:833-850) -/
noncomputable def simBody32 [NeZero N] (it : ℤ) (st : State σ N M) : Option (State σ N M) := do
  let st ← if cfg.usePhonons then phIteration32 sys ph cfg.noHS (effNeqlt cfg it) st
    else dqmcIteration sys (effNeqlt cfg it) st
  measureUneq sys cfg it st

/-- `DQMCSimulation` (monte_carlo.c:741-862) -/
noncomputable def simulate32 [NeZero N] (stop : ℤ → Bool) (it : ℤ) (rng : σ) (s : ℕ → Fin N → Fin 2)
    (X expX : ℕ → Fin N → ℝ) (cnt : Counters) (meas : M) : Option (LoopResult (State σ N M)) := do
  let st ← startState sys cfg rng s X expX cnt meas
  simLoop (simBody32 sys ph cfg) stop (cfg.nequil + cfg.nsampl - it).toNat it st
    (update it (start cfg.nequil cfg.nsampl))

end Verif.MonteCarlo
