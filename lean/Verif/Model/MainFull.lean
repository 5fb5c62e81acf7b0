import Verif.Model.Main
import Verif.Model.MeasurementFull

/-!
# Model of `src/main.c` linked with `src/measurement_full.c`

Both files with measurement functions implement `include/measurement.h`; `main.c` and `monte_carlo.c`
are the same.  The acceptance counters start at zero here, although `AllocatePhononData` of
`measurement_full.c` does not initialise them; they are neither saved nor printed by this build.
-/

set_option autoImplicit false

namespace Verif.Main.Full

open Verif.Random Verif.Measurement Verif.MonteCarlo Verif.Files Verif.Params

/-- the measurement functions of `measurement_full.c` -/
noncomputable def realMeas {N : ℕ} (Norb Ncell L : ℕ) (mp : Maps) (alg : BlockCyclic.QRs N)
    (tau : BlockCyclic.Buf) (old : GreensUneq.Arrays) : Meas N MeasData where
  eq Gu Gd m := (Measurement.Full.accumulateEq Norb Ncell mp Gu Gd m.eq).map fun e => { m with eq := e }
  phonon Gu Gd _ X m :=
    (Measurement.Full.accumulatePh Norb Ncell L Gu Gd X m.ph).map fun e => { m with ph := e }
  uneq sign tU tD m := do
    let u ← GreensUneq.compute alg tU L tau old
    let d ← GreensUneq.compute alg tD L tau old
    let e ← Measurement.Full.accumulateUneq Norb Ncell L mp (sign : ℝ) (u.toCur N L) (d.toCur N L) m.uneq
    return { m with uneq := e }

variable {N : ℕ} (su : Setup N)

/-- measurement data at a resumed start (main.c:185-189) -/
noncomputable def loadMeas (fs : FS) : MeasData where
  eq := Measurement.Full.loadEq su.Norb su.Ncell su.F fs su.fnbase EqData.allocate
  uneq := if su.cfg.nuneqlt > 0 then
      Measurement.Full.loadUneq su.Norb su.Ncell su.cfg.L su.F fs su.fnbase UneqData.allocate
    else UneqData.allocate
  ph := PhData.allocate su.maxNsampl

/-- start from scratch or from a checkpoint (main.c:138-192) -/
noncomputable def startup (fs : FS) : Option (Start N) :=
  if searchCheckpoint fs su.fnbase ≠ 0 then
    let r := drawField su.rng su.LxN (seedInit su.seed)
    some (.go 0 r.2 (unflat r.1) (MeasData.allocate su.maxNsampl))
  else
    let r := loadCheckpoint su.F fs su.fnbase su.LxN { su.junk with iteration := 0 }
    if r.1 < 0 then some (.refuse (-5))
    else if r.2.iteration = su.total then some (.refuse (-6))
    else (bytesField su.LxN N r.2.s).map fun s => .go r.2.iteration r.2.seed s (loadMeas su fs)

/-- normalisation at the end of all iterations (main.c:239-256) -/
noncomputable def normalized (it : ℤ) (m : MeasData) : MeasData :=
  if it = su.total then
    { eq := Measurement.Full.normalizeEq su.Norb su.Ncell m.eq
      uneq := if su.cfg.nuneqlt > 0 then
          Measurement.Full.normalizeUneq su.Norb su.Ncell su.cfg.L m.uneq
        else m.uneq
      ph := if su.cfg.usePhonons then Measurement.Full.normalizePh su.Norb m.ph else m.ph }
  else m

/-- the writes of the results (main.c:271-281) -/
noncomputable def resultWrites (m : MeasData) : List Write :=
  Measurement.Full.eqWrites su.Norb su.Ncell su.fnbase m.eq
  ++ (if su.cfg.nuneqlt > 0 then
        Measurement.Full.uneqWrites su.Norb su.Ncell su.cfg.L su.fnbase m.uneq
      else [])
  ++ (if su.cfg.usePhonons then Measurement.Full.phWrites su.Norb su.fnbase m.ph else [])

/-- end of a process (main.c:239-310): files and exit code -/
noncomputable def finish (inp : RunInput) (fs : FS) (r : LoopResult (State Seed N MeasData)) :
    FS × ℤ :=
  let c := saveCheckpoint inp.ckptFault fs su.fnbase su.LxN (ckptOf r.iteration r.state)
  if c.2 < 0 then (c.1, -7)
  else (writeAll inp.resFault c.1 (resultWrites su (normalized su r.iteration r.state.meas)),
    if r.broke ∨ inp.late then 1 else 0)

/-- a process after the parameters have been read (main.c:113-310): files left behind and exit code -/
noncomputable def process [NeZero N] (inp : RunInput) (fs : FS) : Option (FS × ℤ) := do
  match ← startup su fs with
  | .refuse code => return (fs, code)
  | .go it seed s meas =>
    let r ← perform su inp.stop it seed s meas
    return finish su inp fs r

/-- constant data of the simulation (monte_carlo.c:745-772) -/
noncomputable def sysOf (mc : Machine) (p : SimParams ℝ) : Option (Sys Seed (sites p) MeasData) :=
  (Main.sysOf mc p).map fun sys => { sys with
    meas := realMeas p.Norb.toNat (p.Nx.toNat * p.Ny.toNat) p.L.toNat
      (Measurement.Full.maps p.Nx.toNat p.Ny.toNat mc.maps) (mc.qrs _) mc.tau mc.green }

/-- everything the parameters determine (main.c:105-152) -/
noncomputable def mkSetup (mc : Machine) (p : SimParams ℝ) (fnbase : String) : Setup (sites p) :=
  { Main.mkSetup mc p fnbase with sys := sysOf mc p }

/-- set-up for given parameters; with phonons `neqlt = 0` is a division by zero (main.c:129) -/
noncomputable def setupOf (mc : Machine) (p : SimParams ℝ) (fnbase : String) :
    Option (Setup (sites p)) :=
  if p.usePhonons = true ∧ p.neqlt = 0 then none else some (mkSetup mc p fnbase)

open Classical in
/-- `main` with at least one argument (main.c:44-310) -/
noncomputable def program (mc : Machine) (inp : Input) (fs : FS) : Option (FS × ℤ) := do
  let r ← parse mc.conv inp.file (initialParams inp.ticks)
  let p := r.2
  if r.1 < 0 then return (fs, -1)
  if validate p < 0 then return (fs, -2)
  let fnbase := baseName mc p inp.dir
  if fnbase.utf8ByteSize + 27 > 1023 then none
  if inp.logFails then return (fs, -3)
  if p.nuneqlt > 0 ∧ inp.uneqFails then return (fs, -4)
  let su ← setupOf mc p fnbase
  if h : sites p ≠ 0 then
    haveI : NeZero (sites p) := ⟨h⟩
    process su inp.run fs
  else none

end Verif.Main.Full
