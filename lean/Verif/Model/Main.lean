import Verif.Model.Files
import Verif.Model.Simulation
import Verif.Model.GreensUneq
import Verif.Model.Kinetic

/-!
# Model of `src/main.c`

A process maps the files it finds to the files it leaves and an exit code.  `none` is an undefined
outcome.  Requests to stop and failures of the file system are inputs.  Log output is not modelled.
-/

set_option autoImplicit false

namespace Verif.Main

open Verif.Random Verif.Measurement Verif.MonteCarlo Verif.Files Verif.Params

/-! ## Measurements -/

/-- the three data structures -/
structure MeasData where
  eq : EqData
  uneq : UneqData
  ph : PhData

/-- the data structures as allocated (main.c:113-131) -/
def MeasData.allocate (maxNsampl : ℕ) : MeasData :=
  ⟨EqData.allocate, UneqData.allocate, PhData.allocate maxNsampl⟩

/-- the measurement functions.  The arrays for the time dependent Green's functions are overwritten
by every measurement; `old` is their previous content, `tau` that of a fresh array (neither has an
influence, see `compute_toCur`). -/
noncomputable def realMeas {N : ℕ} (Norb Ncell L : ℕ) (mp : Maps) (dt : ℝ) (omega : ℕ → ℝ)
    (alg : BlockCyclic.QRs N) (tau : BlockCyclic.Buf) (old : GreensUneq.Arrays) : Meas N MeasData where
  eq Gu Gd m := (accumulateEq Norb Ncell mp Gu Gd m.eq).map fun e => { m with eq := e }
  phonon Gu Gd l X m :=
    (accumulatePh Norb Ncell L dt omega Gu Gd l X m.ph).map fun e => { m with ph := e }
  uneq sign tU tD m := do
    let u ← GreensUneq.compute alg tU L tau old
    let d ← GreensUneq.compute alg tD L tau old
    let e ← accumulateUneq Norb Ncell L mp (sign : ℝ) (u.toCur N L) (d.toCur N L) m.uneq
    return { m with uneq := e }

/-! ## Initial fields -/

/-- the loop that draws the initial field (main.c:156-159) -/
noncomputable def drawField {σ : Type} (rng : Rng σ) (LxN : ℕ) (seed : σ) : (ℕ → Fin 2) × σ :=
  (List.range LxN).foldl (fun a i =>
    let r := rng.uniform a.2
    (Function.update a.1 i (if r.1 < 0.5 then 0 else 1), r.2)) (fun _ => 0, seed)

/-- the flat array as a field: `s[i + l*N]` -/
def unflat {N : ℕ} {α : Type} (s : ℕ → α) : ℕ → Fin N → α := fun l i => s (i + l * N)

/-- the bytes of a field (`spin_field_t` is an unsigned char) -/
def fieldBytes {N : ℕ} (s : ℕ → Fin N → Fin 2) (k : ℕ) : BitVec 8 :=
  if h : 0 < N then BitVec.ofNat 8 (s (k / N) ⟨k % N, Nat.mod_lt _ h⟩).val else 0

/-- a field from its bytes; `none` if an entry is neither 0 nor 1, since it is used as an index of
arrays of length two -/
def bytesField (LxN N : ℕ) (b : ℕ → BitVec 8) : Option (ℕ → Fin N → Fin 2) :=
  if ∀ k < LxN, b k = 0#8 ∨ b k = 1#8 then
    some (unflat fun k => if k < LxN ∧ b k = 1#8 then 1 else 0)
  else none

open Classical in
/-- the loop that draws the initial phonon field (main.c:199-216) -/
noncomputable def drawPhonons {σ : Type} (rng : Rng σ) (ph : Phonon) (Ncell N L : ℕ) (seed : σ) :
    (ℕ → ℝ) × σ :=
  (List.range (L * N)).foldl (fun a k =>
    if ph.g (k % N / Ncell) = 0 then (Function.update a.1 k 0, a.2)
    else
      let r := rng.uniform a.2
      (Function.update a.1 k ((r.1 - 0.5) * ph.localBox), r.2)) (fun _ => 0, seed)

/-- exponential of the phonon field (main.c:214) -/
noncomputable def expPhonons {N : ℕ} (ph : Phonon) (Ncell L : ℕ) (X : ℕ → Fin N → ℝ) :
    ℕ → Fin N → ℝ :=
  fun l i => if l < L then Real.exp (-ph.dt * ph.g (i / Ncell) * X l i) else 0

/-! ## A process -/

/-- everything given by the parameters and the machine -/
structure Setup (N : ℕ) where
  rng : Rng Seed
  /-- result of the set-up in `DQMCSimulation`; `none` if that is undefined -/
  sys : Option (Sys Seed N MeasData)
  ph : Phonon
  cfg : Cfg
  Norb : ℕ
  Ncell : ℕ
  maxNsampl : ℕ
  /-- argument of `Random_SeedInit` -/
  seed : BitVec 64
  F : Float64
  fnbase : String
  /-- content of the variables before `LoadCheckpoint` -/
  junk : Ckpt

variable {N : ℕ} (su : Setup N)

/-- number of iterations -/
def Setup.total : ℤ := su.cfg.nequil + su.cfg.nsampl

/-- number of entries of the field -/
def Setup.LxN : ℕ := su.cfg.L * N

/-- how a process starts -/
inductive Start (N : ℕ)
  | refuse (code : ℤ)
  | go (iteration : ℤ) (seed : Seed) (s : ℕ → Fin N → Fin 2) (meas : MeasData)

/-- measurement data at a resumed start (main.c:185-189) -/
noncomputable def loadMeas (fs : FS) : MeasData where
  eq := loadEq su.Norb su.Ncell su.F fs su.fnbase EqData.allocate
  uneq := if su.cfg.nuneqlt > 0 then
      loadUneq su.Norb su.Ncell su.cfg.L su.F fs su.fnbase UneqData.allocate
    else UneqData.allocate
  ph := PhData.allocate su.maxNsampl

/-- start from scratch or from a checkpoint (main.c:138-192) -/
noncomputable def startup (fs : FS) : Option (Start N) :=
  if searchCheckpoint fs su.fnbase ≠ 0 then
    let r := drawField su.rng su.LxN (seedInit su.seed)
    some (.go 0 r.2 (unflat r.1) (MeasData.allocate su.maxNsampl))
  else
    let r := loadCheckpoint su.F fs su.fnbase su.LxN { su.junk with iteration := 0 }
    if r.1 < 0 then some (.refuse (-5))
    else if r.2.iteration = su.total then some (.refuse (-6))
    else (bytesField su.LxN N r.2.s).map fun s => .go r.2.iteration r.2.seed s (loadMeas su fs)

/-- counters at the start (measurement.c:935-966) -/
def zeroCounters : Counters := ⟨0, 0, 0, 0, 0, 0⟩

/-- phonon field and simulation (main.c:195-231) -/
noncomputable def perform [NeZero N] (stop : ℤ → Bool) (it : ℤ) (seed : Seed)
    (s : ℕ → Fin N → Fin 2) (meas : MeasData) : Option (LoopResult (State Seed N MeasData)) := do
  let r := if su.cfg.usePhonons then drawPhonons su.rng su.ph su.Ncell N su.cfg.L seed
    else (fun _ => 0, seed)
  let X := unflat r.1
  let expX := expPhonons su.ph su.Ncell su.cfg.L X
  let sys ← su.sys
  simulate sys su.ph su.cfg stop it r.2 s X expX zeroCounters meas

/-- normalisation at the end of all iterations (main.c:239-256) -/
noncomputable def normalized (it : ℤ) (m : MeasData) : MeasData :=
  if it = su.total then
    { eq := normalizeEq su.Norb su.Ncell m.eq
      uneq := if su.cfg.nuneqlt > 0 then normalizeUneq su.Norb su.Ncell su.cfg.L m.uneq else m.uneq
      ph := if su.cfg.usePhonons then normalizePh su.Norb m.ph else m.ph }
  else m

/-- the variables saved by `SaveCheckpoint` -/
def ckptOf (it : ℤ) (st : State Seed N MeasData) : Ckpt := ⟨it, st.rng, fieldBytes st.s⟩

/-- the writes of the results (main.c:271-281) -/
noncomputable def resultWrites (m : MeasData) (c : Counters) : List Write :=
  eqWrites su.Norb su.Ncell su.fnbase m.eq
  ++ (if su.cfg.nuneqlt > 0 then uneqWrites su.Norb su.Ncell su.cfg.L su.fnbase m.uneq else [])
  ++ (if su.cfg.usePhonons then phWrites su.Norb su.fnbase m.ph c else [])

/-- all writes of a process at its end (main.c:258-281) -/
noncomputable def finalWrites (r : LoopResult (State Seed N MeasData)) : List Write :=
  checkpointWrites su.fnbase su.LxN (ckptOf r.iteration r.state)
  ++ resultWrites su (normalized su r.iteration r.state.meas) r.state.cnt

/-- inputs of a run -/
structure RunInput where
  /-- value of `stopped` tested before iteration `it` -/
  stop : ℤ → Bool
  /-- a signal arrives after the last test -/
  late : Bool
  /-- faults while the checkpoint is written -/
  ckptFault : ℕ → Fault
  /-- faults while the results are written -/
  resFault : ℕ → Fault

/-- end of a process (main.c:239-310): files and exit code -/
noncomputable def finish (inp : RunInput) (fs : FS) (r : LoopResult (State Seed N MeasData)) :
    FS × ℤ :=
  let c := saveCheckpoint inp.ckptFault fs su.fnbase su.LxN (ckptOf r.iteration r.state)
  if c.2 < 0 then (c.1, -7)
  else (writeAll inp.resFault c.1 (resultWrites su (normalized su r.iteration r.state.meas)
      r.state.cnt), if r.broke ∨ inp.late then 1 else 0)

/-- a process after the parameters have been read (main.c:113-310): files left behind and exit code -/
noncomputable def process [NeZero N] (inp : RunInput) (fs : FS) : Option (FS × ℤ) := do
  match ← startup su fs with
  | .refuse code => return (fs, code)
  | .go it seed s meas =>
    let r ← perform su inp.stop it seed s meas
    return finish su inp fs r

/-! ## The whole program -/

/-- what the program does not determine: libraries, contents of fresh memory -/
structure Machine where
  conv : Conv ℝ
  rnd : ℝ → ℝ
  F : Float64
  lp : (N : ℕ) → Lapack N
  es : (N : ℕ) → Kinetic.Eigensolver N
  qrs : (N : ℕ) → BlockCyclic.QRs N
  mats : (N : ℕ) → ℕ → Mat N
  work : (N : ℕ) → Mat N
  order : ℕ → ℤ
  maps : ℤ → ℤ
  tau : BlockCyclic.Buf
  green : GreensUneq.Arrays
  vars : Ckpt
  /-- name of the default output directory (main.c:84-90) -/
  defaultDir : SimParams ℝ → String

/-- number of sites -/
def sites (p : SimParams ℝ) : ℕ := p.Norb.toNat * (p.Nx.toNat * p.Ny.toNat)

/-- control parameters -/
def cfgOf (p : SimParams ℝ) (noHS : Bool) : Cfg where
  L := p.L.toNat
  prodBlen := p.prodBlen.toNat
  usePhonons := p.usePhonons
  noHS := noHS
  nequil := p.nequil
  nsampl := p.nsampl
  neqlt := p.neqlt
  nuneqlt := p.nuneqlt

/-- phonon parameters -/
def phOf (p : SimParams ℝ) : Phonon where
  dt := p.dt
  mu := p.mu
  g := fun o => p.phonon.g o
  omega := fun o => p.phonon.omega o
  localBox := p.phonon.localBoxWidth
  blockBox := p.phonon.blockBoxWidth
  nLocal := p.phonon.nLocalUpdates.toNat
  nBlock := p.phonon.nBlockUpdates.toNat

/-- constant data of the simulation (monte_carlo.c:745-772) -/
noncomputable def sysOf (mc : Machine) (p : SimParams ℝ) : Option (Sys Seed (sites p) MeasData) := do
  let Norb := p.Norb.toNat
  let Ncell := p.Nx.toNat * p.Ny.toNat
  let k ← Kinetic.kineticExponential Norb p.Nx.toNat p.Ny.toNat p.pbcShift p.t p.eps p.mu p.dt
    (mc.es _)
  let hs ← Stratonovich.fill Norb (fun o => p.U o) p.dt
  return {
    rng := xorshift mc.rnd mc.order
    lp := mc.lp _
    Ncell := Ncell
    expK := k.expK
    invExpK := k.invExpK
    hs := hs
    nwraps := p.nwraps.toNat
    meas := realMeas Norb Ncell p.L.toNat
      (Maps.construct p.Nx.toNat p.Ny.toNat p.pbcShift mc.maps) p.dt (fun o => p.phonon.omega o)
      (mc.qrs _) mc.tau mc.green
    W0 := mc.work _
    junk := mc.mats _ }

open Classical in
/-- everything the parameters determine (main.c:105-152) -/
noncomputable def mkSetup (mc : Machine) (p : SimParams ℝ) (fnbase : String) : Setup (sites p) where
  rng := xorshift mc.rnd mc.order
  sys := sysOf mc p
  ph := phOf p
  cfg := cfgOf p ((List.range p.Norb.toNat).all fun o => p.U o = 0)
  Norb := p.Norb.toNat
  Ncell := p.Nx.toNat * p.Ny.toNat
  maxNsampl := ((p.nsampl * p.L).tdiv p.neqlt).toNat
  seed := 1865811235122147685#64 * p.itime
  F := mc.F
  fnbase := fnbase
  junk := mc.vars

/-- set-up for given parameters; with phonons `neqlt = 0` is a division by zero (main.c:129) -/
noncomputable def setupOf (mc : Machine) (p : SimParams ℝ) (fnbase : String) :
    Option (Setup (sites p)) :=
  if p.usePhonons = true ∧ p.neqlt = 0 then none else some (mkSetup mc p fnbase)

/-- inputs of the program -/
structure Input where
  /-- content of the parameter file, if it can be opened -/
  file : Option (List UInt8)
  /-- second argument -/
  dir : Option String
  /-- time at the start -/
  ticks : BitVec 64
  /-- the log file cannot be opened -/
  logFails : Bool
  /-- no memory for the unequal time measurements -/
  uneqFails : Bool
  run : RunInput

/-- the parameters before the file is read (main.c:63-64) -/
def initialParams (ticks : BitVec 64) : SimParams ℝ where
  Norb := 0
  Nx := 0
  Ny := 0
  pbcShift := 0
  t := ⟨fun _ => 0, fun _ => 0, fun _ => 0, fun _ => 0, fun _ => 0⟩
  U := fun _ => 0
  eps := fun _ => 0
  mu := 0
  usePhonons := false
  phonon := ⟨fun _ => 0, fun _ => 0, 0, 0, 0, 0⟩
  dt := 0
  L := 0
  prodBlen := 0
  nwraps := 0
  nequil := 0
  nsampl := 0
  neqlt := 0
  nuneqlt := 0
  itime := ticks
  maxTime := 0

/-- base of the names of all files (main.c:82-99) -/
def baseName (mc : Machine) (p : SimParams ℝ) (dir : Option String) : String :=
  dir.getD (mc.defaultDir p) ++ "/sim_" ++ toString p.itime.toNat

open Classical in
/-- `main` with at least one argument (main.c:44-310).  Names of files are built in arrays of 1024
bytes; the longest is `fnbase` with 27 more characters, and the model calls every longer `fnbase`
undefined. -/
noncomputable def program (mc : Machine) (inp : Input) (fs : FS) : Option (FS × ℤ) := do
  let r ← parse mc.conv inp.file (initialParams inp.ticks)
  let p := r.2
  if r.1 < 0 then return (fs, -1)
  if validate p < 0 then return (fs, -2)
  let fnbase := baseName mc p inp.dir
  if fnbase.utf8ByteSize + 27 > 1023 then none
  if inp.logFails then return (fs, -3)
  if p.nuneqlt > 0 ∧ inp.uneqFails then return (fs, -4)
  let su ← setupOf mc p fnbase
  if h : sites p ≠ 0 then
    haveI : NeZero (sites p) := ⟨h⟩
    process su inp.run fs
  else none

end Verif.Main
