import Verif.Model.Greens
import Verif.Model.Random
import Mathlib.Analysis.SpecialFunctions.Exp

/-!
# Model of `src/monte_carlo.c`

`none` is an undefined outcome: a random draw that never returns, a singular matrix in
`GreenConstruct`, or an undefined measurement.  The two OpenMP sections of each parallel region are
executed one after the other here; that the order does not matter is the subject of C58.
Arrays indexed by time slice and site are functions `ℕ → Fin N → _`.
Measurements are a parameter (`Meas`), instantiated in `Verif/Model/Measurement.lean`.
-/

set_option autoImplicit false

namespace Verif.MonteCarlo

open Matrix Verif.Lapack Verif.TimeFlow Verif.Greens Verif.Stratonovich

/-- A source of random numbers with state `σ` (random.c). -/
structure Rng (σ : Type) where
  /-- `Random_GetUniform` -/
  uniform : σ → ℝ × σ
  /-- `Random_Shuffle` of the numbers `0..N-1` -/
  shuffle : (N : ℕ) → σ → Option (List (Fin N) × σ)
  /-- `(int)Random_GetBoundedUint(seed, N)` -/
  site : (N : ℕ) → σ → Option (Fin N × σ)

/-- array entry as a site number; `none` if out of range -/
def toSite (N : ℕ) (z : ℤ) : Option (Fin N) :=
  if h : 0 ≤ z ∧ z < N then some ⟨z.toNat, by omega⟩ else none

/-- the generator of random.c, with rounding `rnd` of binary64 operations; the array to be shuffled
contains arbitrary data `junk` -/
noncomputable def xorshift (rnd : ℝ → ℝ) (junk : ℕ → ℤ) : Rng Random.Seed where
  uniform := Random.getUniform rnd
  shuffle := fun N sd => do
    let (seq, sd) ← Random.shuffle sd N junk
    let l ← (List.range N).mapM fun j => toSite N (seq j)
    return (l, sd)
  site := fun N sd => do
    let (r, sd) ← Random.boundedUint (BitVec.ofNat 64 N) sd
    let i ← toSite N r.toNat
    return (i, sd)

variable {σ : Type} {N : ℕ} {M : Type}

/-- acceptance counters of `measurement_data_phonon_t` (measurement.h) -/
structure Counters where
  localAccept : ℕ
  localTotal : ℕ
  blockAccept : ℕ
  blockTotal : ℕ
  flipAccept : ℕ
  flipTotal : ℕ

/-- everything a sweep changes -/
structure State (σ : Type) (N : ℕ) (M : Type) where
  rng : σ
  /-- Hubbard-Stratonovich field, slice and site -/
  s : ℕ → Fin N → Fin 2
  /-- phonon field -/
  X : ℕ → Fin N → ℝ
  /-- its exponential -/
  expX : ℕ → Fin N → ℝ
  tsmU : TSM N
  tsmD : TSM N
  Gu : GreensFn N
  Gd : GreensFn N
  cnt : Counters
  meas : M

/-- measurement routines -/
structure Meas (N : ℕ) (M : Type) where
  /-- `AccumulateMeasurement` -/
  eq : GreensFn N → GreensFn N → M → Option M
  /-- `AccumulatePhononData` at slice `l` -/
  phonon : GreensFn N → GreensFn N → ℕ → (ℕ → Fin N → ℝ) → M → Option M
  /-- `AccumulateUnequalTimeMeasurement` -/
  uneq : ℤ → TSM N → TSM N → M → Option M

/-- `phonon_params_t` (param_parser.h) and the time step -/
structure Phonon where
  dt : ℝ
  mu : ℝ
  /-- coupling of the orbitals -/
  g : ℕ → ℝ
  omega : ℕ → ℝ
  localBox : ℝ
  blockBox : ℝ
  nLocal : ℕ
  nBlock : ℕ

/-- everything that is constant during a simulation -/
structure Sys (σ : Type) (N : ℕ) (M : Type) where
  rng : Rng σ
  lp : Lapack N
  Ncell : ℕ
  expK : Mat N
  invExpK : Mat N
  hs : HSParams
  nwraps : ℕ
  meas : Meas N M
  /-- content of fresh work space -/
  W0 : Mat N
  /-- content of freshly allocated matrices -/
  junk : ℕ → Mat N

variable (sys : Sys σ N M)

/-- orbital of a site -/
def Sys.orb (i : Fin N) : ℕ := i.val / sys.Ncell

/-! ## Hubbard-Stratonovich updates -/

/-- wrap both Green's functions (monte_carlo.c:66-73, 546-552) -/
noncomputable def wrap (l : ℕ) (st : State σ N M) : State σ N M :=
  { st with
    Gu := { st.Gu with mat := timeSliceWrap (st.tsmU.B l) (st.tsmU.invB l) st.Gu.mat }
    Gd := { st.Gd with mat := timeSliceWrap (st.tsmD.B l) (st.tsmD.invB l) st.Gd.mat } }

/-- acceptance factor of a row change (monte_carlo.c:88-89) -/
noncomputable def ratio (G : GreensFn N) (i : Fin N) (delta : ℝ) : ℝ := 1 + (1 - G.mat i i) * delta

/-- rank one update of a Green's function and its determinant (monte_carlo.c:93-104) -/
noncomputable def applyUpdate (G : GreensFn N) (i : Fin N) (delta d : ℝ) : GreensFn N :=
  { mat := shermanMorrison delta i G.mat
    logdet := G.logdet - Real.log |d|
    sgndet := if d < 0 then -G.sgndet else G.sgndet }

/-- proposal to flip `s[i + l*N]` (monte_carlo.c:81-109, 561-590) -/
noncomputable def hsSite (l : ℕ) (st : State σ N M) (i : Fin N) : State σ N M :=
  let o := sys.orb i
  let deltaU := sys.hs.delta (st.s l i) o
  let deltaD := sys.hs.delta (1 - st.s l i) o
  let du := ratio st.Gu i deltaU
  let dd := ratio st.Gd i deltaD
  let r := sys.rng.uniform st.rng
  if r.1 < |du * dd| then
    { st with
      rng := r.2
      Gu := applyUpdate st.Gu i deltaU du
      Gd := applyUpdate st.Gd i deltaD dd
      s := Function.update st.s l (Function.update (st.s l) i (1 - st.s l i)) }
  else { st with rng := r.2 }

/-- all sites of a slice in random order (monte_carlo.c:77-110) -/
noncomputable def hsSlice (l : ℕ) (st : State σ N M) : Option (State σ N M) := do
  let (order, r) ← sys.rng.shuffle N st.rng
  return order.foldl (hsSite sys l) { st with rng := r }

/-- recompute both Green's functions (monte_carlo.c:126-143) -/
noncomputable def recompute [NeZero N] (shift : ℕ) (st : State σ N M) : Option (State σ N M) := do
  let gu ← greenConstruct sys.lp st.tsmU shift
  let gd ← greenConstruct sys.lp st.tsmD shift
  return { st with Gu := gu, Gd := gd }

/-- recompute after several wraps (monte_carlo.c:124-143, 664-683) -/
noncomputable def maybeRecompute [NeZero N] (l : ℕ) (st : State σ N M) : Option (State σ N M) :=
  if (l + 1) % sys.nwraps = 0 then recompute sys ((l + 1) % st.tsmU.L) st else some st

/-- `UpdateTimeStepMatrices` for both spins (monte_carlo.c:114-121) -/
noncomputable def updateB (l : ℕ) (st : State σ N M) : State σ N M :=
  { st with
    tsmU := updateWith (fun l => timeStepMatrix sys.Ncell sys.expK sys.hs.expVu (st.s l))
      (fun l => invTimeStepMatrix sys.Ncell sys.invExpK sys.hs.expVu (st.s l)) sys.W0 l st.tsmU
    tsmD := updateWith (fun l => timeStepMatrix sys.Ncell sys.expK sys.hs.expVd (st.s l))
      (fun l => invTimeStepMatrix sys.Ncell sys.invExpK sys.hs.expVd (st.s l)) sys.W0 l st.tsmD }

/-- equal time measurement (monte_carlo.c:165-171); `neqlt = 0` stands for all values ≤ 0 -/
def measureEq (neqlt l : ℕ) (st : State σ N M) : Option (State σ N M) :=
  if neqlt > 0 ∧ (l + 1) % neqlt = 0 then do
    let m ← sys.meas.eq st.Gu st.Gd st.meas
    return { st with meas := m }
  else some st

/-- one time slice of `DQMCIteration` (monte_carlo.c:64-172) -/
noncomputable def hsTimeSlice [NeZero N] (neqlt : ℕ) (st : State σ N M) (l : ℕ) :
    Option (State σ N M) := do
  let st := wrap l st
  let st ← hsSlice sys l st
  let st := updateB sys l st
  let st ← maybeRecompute sys l st
  measureEq sys neqlt l st

/-- `DQMCIteration` (monte_carlo.c:31-180) -/
noncomputable def dqmcIteration [NeZero N] (neqlt : ℕ) (st : State σ N M) : Option (State σ N M) :=
  (List.range st.tsmU.L).foldlM (hsTimeSlice sys neqlt) st

/-! ## Phonon updates -/

variable (ph : Phonon)

/-- set the phonon field of one site and its exponential -/
noncomputable def setX (l : ℕ) (i : Fin N) (x : ℝ) (st : State σ N M) : State σ N M :=
  { st with
    X := Function.update st.X l (Function.update (st.X l) i x)
    expX := Function.update st.expX l
      (Function.update (st.expX l) i (Real.exp (-ph.dt * ph.g (sys.orb i) * x))) }

/-- change of the phonon energy (monte_carlo.c:534, 622) -/
noncomputable def localEnergyChange (L l : ℕ) (X : ℕ → Fin N → ℝ) (i : Fin N) (dx : ℝ) : ℝ :=
  let lNext := (l + 1) % L
  let lPrev := (l + L - 1) % L
  let invDtSq := 1.0 / ph.dt ^ 2
  dx * (0.5 * ph.omega (sys.orb i) ^ 2 * (dx + 2 * X l i)
    + invDtSq * (dx - (X lNext i - 2 * X l i + X lPrev i)))

open Classical in
/-- local phonon update of site `i` (monte_carlo.c:599-650) -/
noncomputable def localSite (l : ℕ) (st : State σ N M) (i : Fin N) : State σ N M :=
  let o := sys.orb i
  if ph.g o = 0 then st
  else
    let r1 := sys.rng.uniform st.rng
    let dx := (r1.1 - 0.5) * ph.localBox
    let delta := Real.exp (-ph.dt * ph.g o * dx) - 1
    let du := ratio st.Gu i delta
    let dd := ratio st.Gd i delta
    let dE := localEnergyChange sys ph st.tsmU.L l st.X i dx
    let r2 := sys.rng.uniform r1.2
    let cnt := { st.cnt with localTotal := st.cnt.localTotal + 1 }
    if r2.1 < |du * dd| * Real.exp (-ph.dt * dE) then
      setX sys ph l i (st.X l i + dx)
        { st with
          rng := r2.2
          cnt := { cnt with localAccept := cnt.localAccept + 1 }
          Gu := applyUpdate st.Gu i delta du
          Gd := applyUpdate st.Gd i delta dd }
    else { st with rng := r2.2, cnt := cnt }

/-- the sites visited by the local updates: `order[j % N]` for `j < n_local_updates` -/
def localOrder (order : List (Fin N)) (n : ℕ) : Option (List (Fin N)) :=
  (List.range n).mapM fun j => order[j % N]?

/-- all local updates of a slice (monte_carlo.c:593-651) -/
noncomputable def localSlice (l : ℕ) (st : State σ N M) : Option (State σ N M) := do
  let (order, r) ← sys.rng.shuffle N st.rng
  let sites ← localOrder order ph.nLocal
  return sites.foldl (localSite sys ph l) { st with rng := r }

/-- time step matrices of slice `l` with phonons -/
noncomputable def Sys.phB (expV : Fin 2 → ℕ → ℝ) (s : ℕ → Fin N → Fin 2) (expX : ℕ → Fin N → ℝ)
    (l : ℕ) : Mat N :=
  phononTimeStepMatrix sys.Ncell sys.expK expV (s l) (expX l)

/-- their inverses -/
noncomputable def Sys.phInvB (expV : Fin 2 → ℕ → ℝ) (s : ℕ → Fin N → Fin 2)
    (expX : ℕ → Fin N → ℝ) (l : ℕ) : Mat N :=
  invPhononTimeStepMatrix sys.Ncell sys.invExpK expV (s l) (expX l)

/-- `UpdatePhononTimeStepMatrices` for both spins (monte_carlo.c:654-661) -/
noncomputable def updatePhB (l : ℕ) (st : State σ N M) : State σ N M :=
  { st with
    tsmU := updateWith (sys.phB sys.hs.expVu st.s st.expX) (sys.phInvB sys.hs.expVu st.s st.expX)
      sys.W0 l st.tsmU
    tsmD := updateWith (sys.phB sys.hs.expVd st.s st.expX) (sys.phInvB sys.hs.expVd st.s st.expX)
      sys.W0 l st.tsmD }

/-- both measurements of `DQMCPhononIteration` (monte_carlo.c:696-708) -/
def measurePh (neqlt l : ℕ) (st : State σ N M) : Option (State σ N M) :=
  if neqlt > 0 ∧ (l + 1) % neqlt = 0 then do
    let m ← sys.meas.eq st.Gu st.Gd st.meas
    let m ← sys.meas.phonon st.Gu st.Gd l st.X m
    return { st with meas := m }
  else some st

/-- one time slice of `DQMCPhononIteration` (monte_carlo.c:544-709) -/
noncomputable def phTimeSlice [NeZero N] (noHS : Bool) (neqlt : ℕ) (st : State σ N M) (l : ℕ) :
    Option (State σ N M) := do
  let st := wrap l st
  let st ← if noHS then some st else hsSlice sys l st
  let st ← localSlice sys ph l st
  let st := updatePhB sys l st
  let st ← maybeRecompute sys l st
  measurePh sys neqlt l st

/-- new phonon field with the entries of site `i` replaced, and its exponential -/
noncomputable def moveX (L : ℕ) (i : Fin N) (f : ℕ → ℝ) (st : State σ N M) : State σ N M :=
  { st with
    X := fun l k => if l < L ∧ k = i then f l else st.X l k
    expX := fun l k =>
      if l < L ∧ k = i then Real.exp (-ph.dt * ph.g (sys.orb i) * f l) else st.expX l k }

/-- put back the entries of site `i` saved before (monte_carlo.c:308-313, 452-457) -/
def restoreX (L : ℕ) (i : Fin N) (X_i expX_i : ℕ → ℝ) (st : State σ N M) : State σ N M :=
  { st with
    X := fun l k => if l < L ∧ k = i then X_i l else st.X l k
    expX := fun l k => if l < L ∧ k = i then expX_i l else st.expX l k }

/-- which of the two kinds of global phonon updates -/
inductive Kind
  | block
  | flip

/-- count an attempt / an acceptance -/
def Counters.attempt (c : Counters) : Kind → Counters
  | .block => { c with blockTotal := c.blockTotal + 1 }
  | .flip => { c with flipTotal := c.flipTotal + 1 }

/-- count an acceptance -/
def Counters.accept (c : Counters) : Kind → Counters
  | .block => { c with blockAccept := c.blockAccept + 1 }
  | .flip => { c with flipAccept := c.flipAccept + 1 }

/-- common tail of a block or flip update: new matrices and Green's functions for the field in
`st`, decision, roll-back (monte_carlo.c:277-314, 421-458) -/
noncomputable def decide [NeZero N] (kind : Kind) (i : Fin N) (X_i expX_i : ℕ → ℝ) (dE : ℝ)
    (st : State σ N M) : Option (State σ N M) := do
  let L := st.tsmU.L
  let tU := initWith (sys.phB sys.hs.expVu st.s st.expX) (sys.phInvB sys.hs.expVu st.s st.expX)
    sys.W0 (allocate L st.tsmU.prodBlen sys.junk)
  let tD := initWith (sys.phB sys.hs.expVd st.s st.expX) (sys.phInvB sys.hs.expVd st.s st.expX)
    sys.W0 (allocate L st.tsmD.prodBlen sys.junk)
  let gu ← greenConstruct sys.lp tU 0
  let gd ← greenConstruct sys.lp tD 0
  let cnt := st.cnt.attempt kind
  let r := sys.rng.uniform st.rng
  if r.1 < Real.exp ((st.Gu.logdet + st.Gd.logdet) - (gu.logdet + gd.logdet) - ph.dt * dE) then
    return { st with
      rng := r.2
      cnt := cnt.accept kind
      Gu := Greens.copy gu st.Gu
      Gd := Greens.copy gd st.Gd
      tsmU := TimeFlow.copy tU st.tsmU
      tsmD := TimeFlow.copy tD st.tsmD }
  else
    return restoreX L i X_i expX_i { st with rng := r.2, cnt := cnt }

/-- sum over the time slices -/
def sliceSum (L : ℕ) (f : ℕ → ℝ) : ℝ := ((List.range L).map f).sum

open Classical in
/-- one pass of the loop of `PhononBlockUpdates` (monte_carlo.c:238-315) -/
noncomputable def blockUpdate [NeZero N] (st : State σ N M) : Option (State σ N M) := do
  let (i, r) ← sys.rng.site N st.rng
  let o := sys.orb i
  if ph.g o = 0 then return { st with rng := r }
  else
    let L := st.tsmU.L
    let r1 := sys.rng.uniform r
    let dx := (r1.1 - 0.5) * ph.blockBox
    let dE := sliceSum L (fun l => dx + 2 * st.X l i) * (0.5 * ph.omega o ^ 2 * dx)
    decide sys ph .block i (fun l => st.X l i) (fun l => st.expX l i) dE
      (moveX sys ph L i (fun l => st.X l i + dx) { st with rng := r1.2 })

open Classical in
/-- one pass of the loop of `PhononFlipUpdates` (monte_carlo.c:387-459) -/
noncomputable def flipUpdate [NeZero N] (st : State σ N M) : Option (State σ N M) := do
  let (i, r) ← sys.rng.site N st.rng
  let o := sys.orb i
  if ph.g o = 0 then return { st with rng := r }
  else
    let L := st.tsmU.L
    let flip := 2 * ph.mu / ph.g o
    let dE := sliceSum L (fun l => 0.5 * ph.omega o ^ 2 * (-flip) * (-flip + 2 * st.X l i))
    decide sys ph .flip i (fun l => st.X l i) (fun l => st.expX l i) dE
      (moveX sys ph L i (fun l => flip - st.X l i) { st with rng := r })

/-- repeat an operation -/
def iterateM {α : Type} (f : α → Option α) : ℕ → α → Option α
  | 0, a => some a
  | n + 1, a => f a >>= iterateM f n

/-- `DQMCPhononIteration` (monte_carlo.c:495-724), with `PhononBlockUpdates` and
`PhononFlipUpdates` (both perform `n_block_updates` passes) -/
noncomputable def phIteration [NeZero N] (noHS : Bool) (neqlt : ℕ) (st : State σ N M) :
    Option (State σ N M) := do
  let st ← (List.range st.tsmU.L).foldlM (phTimeSlice sys ph noHS neqlt) st
  let st ← iterateM (blockUpdate sys ph) ph.nBlock st
  iterateM (flipUpdate sys ph) ph.nBlock st

end Verif.MonteCarlo
