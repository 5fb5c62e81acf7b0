import Verif.Model.MonteCarlo
import Verif.Model.Progress

/-!
# Model of `DQMCSimulation` (src/monte_carlo.c:741-862)

Requests to stop (SIGINT or the time limit) are an arbitrary function of the iteration at which they
are tested.
-/

set_option autoImplicit false

namespace Verif.MonteCarlo

open Matrix Verif.Lapack Verif.TimeFlow Verif.Greens Verif.Stratonovich Verif.Progress

variable {σ : Type} {N : ℕ} {M : Type}

/-- control parameters of a simulation -/
structure Cfg where
  L : ℕ
  prodBlen : ℕ
  usePhonons : Bool
  /-- all `U` are zero (monte_carlo.c:759-768) -/
  noHS : Bool
  nequil : ℤ
  nsampl : ℤ
  neqlt : ℤ
  nuneqlt : ℤ

variable (sys : Sys σ N M) (ph : Phonon) (cfg : Cfg)

/-- initial time step matrices of one spin (monte_carlo.c:773-797) -/
noncomputable def startMatrices (expV : Fin 2 → ℕ → ℝ) (s : ℕ → Fin N → Fin 2)
    (expX : ℕ → Fin N → ℝ) : TSM N :=
  let tsm := allocate cfg.L cfg.prodBlen sys.junk
  if cfg.usePhonons then initWith (sys.phB expV s expX) (sys.phInvB expV s expX) sys.W0 tsm
  else initWith (fun l => timeStepMatrix sys.Ncell sys.expK expV (s l))
    (fun l => invTimeStepMatrix sys.Ncell sys.invExpK expV (s l)) sys.W0 tsm

/-- set-up before the iterations (monte_carlo.c:773-812) -/
noncomputable def startState [NeZero N] (rng : σ) (s : ℕ → Fin N → Fin 2) (X expX : ℕ → Fin N → ℝ)
    (cnt : Counters) (meas : M) : Option (State σ N M) := do
  let tU := startMatrices sys cfg sys.hs.expVu s expX
  let tD := startMatrices sys cfg sys.hs.expVd s expX
  let gu ← greenConstruct sys.lp tU 0
  let gd ← greenConstruct sys.lp tD 0
  return { rng := rng, s := s, X := X, expX := expX, tsmU := tU, tsmD := tD, Gu := gu, Gd := gd,
           cnt := cnt, meas := meas }

/-- the unequal time measurement (monte_carlo.c:845-850) -/
def measureUneq (it : ℤ) (st : State σ N M) : Option (State σ N M) :=
  if it ≥ cfg.nequil ∧ cfg.nuneqlt > 0 ∧ it.tmod cfg.nuneqlt = 0 then do
    let m ← sys.meas.uneq (st.Gu.sgndet * st.Gd.sgndet) st.tsmU st.tsmD st.meas
    return { st with meas := m }
  else some st

/-- number of slices between equal time measurements in iteration `it` (monte_carlo.c:834) -/
def effNeqlt (it : ℤ) : ℕ := (if it ≥ cfg.nequil then cfg.neqlt else 0).toNat

/-- one iteration of the main loop (monte_carlo.c:833-850) -/
noncomputable def simBody [NeZero N] (it : ℤ) (st : State σ N M) : Option (State σ N M) := do
  let st ← if cfg.usePhonons then phIteration sys ph cfg.noHS (effNeqlt cfg it) st
    else dqmcIteration sys (effNeqlt cfg it) st
  measureUneq sys cfg it st

/-- end of a main loop -/
structure LoopResult (S : Type) where
  iteration : ℤ
  state : S
  prog : Prog
  /-- left through the `break` -/
  broke : Bool

/-- the main loop (monte_carlo.c:821-853); `k` is the number of iterations left,
`stop it` is the value of `stopped` tested at iteration `it` -/
def simLoop {S : Type} (body : ℤ → S → Option S) (stop : ℤ → Bool) :
    ℕ → ℤ → S → Prog → Option (LoopResult S)
  | 0, it, st, p => some ⟨it, st, p, false⟩
  | k + 1, it, st, p =>
    if stop it then some ⟨it, st, p, true⟩
    else do
      let st ← body it st
      simLoop body stop k (it + 1) st (update it p)

/-- `DQMCSimulation` (monte_carlo.c:741-862), starting at iteration `it` -/
noncomputable def simulate [NeZero N] (stop : ℤ → Bool) (it : ℤ) (rng : σ) (s : ℕ → Fin N → Fin 2)
    (X expX : ℕ → Fin N → ℝ) (cnt : Counters) (meas : M) :
    Option (LoopResult (State σ N M)) := do
  let st ← startState sys cfg rng s X expX cnt meas
  simLoop (simBody sys ph cfg) stop (cfg.nequil + cfg.nsampl - it).toNat it st
    (update it (start cfg.nequil cfg.nsampl))

end Verif.MonteCarlo
