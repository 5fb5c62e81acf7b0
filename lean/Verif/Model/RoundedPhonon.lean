import Verif.Model.RoundedTables
import Verif.Model.RoundedUneq

/-!
# Runs with phonons in rounded arithmetic

The functions of `Verif/Model/MonteCarlo.lean`, `Verif/Model/Simulation.lean` and `AccumulatePhononData` with the operations of
the program in the order in which it performs them, every operation replaced by an arbitrary function (see
`Verif/Model/Rounded.lean`; the same simplifications apply).  The random numbers are those of the exact model: `Random_GetUniform`
returns the same number in both.
-/

set_option autoImplicit false

namespace Verif.Rounded.Ph

open Matrix Verif.Lapack Verif.TimeFlow Verif.Greens Verif.Stratonovich Verif.MonteCarlo Verif.Measurement

/-- what a run in rounded arithmetic consists of: the platform, the tables of exponentials computed on it, and the measurement
routines -/
structure Comp (N : ℕ) (M : Type) where
  pl : Platform N
  tab : Tables N
  ms : Meas N M

variable {σ : Type} {N : ℕ} {M : Type} (c : Comp N M) (sys : Sys σ N M) (ph : Phonon) (cfg : Cfg)

/-! ## Time step matrices -/

/-- `ComputePhononTimeStepMatrix` (time_flow.c:65-84) -/
def phB (expV : Fin 2 → ℕ → ℝ) (s : ℕ → Fin N → Fin 2) (expX : ℕ → Fin N → ℝ) (l : ℕ) : Mat N :=
  Matrix.of fun i j => c.pl.mul (c.pl.mul (expV (s l i) (i / sys.Ncell)) (expX l i)) (c.tab.expK i j)

/-- `ComputeInversePhononTimeStepMatrix` (time_flow.c:90-109) -/
def phInvB (expV : Fin 2 → ℕ → ℝ) (s : ℕ → Fin N → Fin 2) (expX : ℕ → Fin N → ℝ) (l : ℕ) : Mat N :=
  Matrix.of fun j i => c.pl.mul (c.pl.div (expV (1 - s l i) (i / sys.Ncell)) (expX l i)) (c.tab.invExpK j i)

/-! ## Hubbard-Stratonovich updates -/

/-- wrap both Green's functions (monte_carlo.c:546-552) -/
def wrap (l : ℕ) (st : State σ N M) : State σ N M :=
  { st with
    Gu := { st.Gu with mat := timeSliceWrap c.pl.toArith (st.tsmU.B l) (st.tsmU.invB l) st.Gu.mat }
    Gd := { st.Gd with mat := timeSliceWrap c.pl.toArith (st.tsmD.B l) (st.tsmD.invB l) st.Gd.mat } }

/-- proposal to flip `s[i + l*N]` (monte_carlo.c:561-590) -/
noncomputable def hsSite (l : ℕ) (st : State σ N M) (i : Fin N) : State σ N M :=
  let o := sys.orb i
  let deltaU := c.tab.hs.delta (st.s l i) o
  let deltaD := c.tab.hs.delta (1 - st.s l i) o
  let du := ratio c.pl.toArith st.Gu i deltaU
  let dd := ratio c.pl.toArith st.Gd i deltaD
  let r := sys.rng.uniform st.rng
  if r.1 < |c.pl.mul du dd| then
    { st with
      rng := r.2
      Gu := applyUpdate c.pl.toArith st.Gu i deltaU du
      Gd := applyUpdate c.pl.toArith st.Gd i deltaD dd
      s := Function.update st.s l (Function.update (st.s l) i (1 - st.s l i)) }
  else { st with rng := r.2 }

/-- all sites of a slice in random order (monte_carlo.c:556-591) -/
noncomputable def hsSlice (l : ℕ) (st : State σ N M) : Option (State σ N M) := do
  let (order, r) ← sys.rng.shuffle N st.rng
  return order.foldl (hsSite c sys l) { st with rng := r }

/-! ## Local phonon updates -/

/-- `exp(-dt*g*x)` (monte_carlo.c:265, 412, 647, main.c:208) -/
def expOf (i : Fin N) (x : ℝ) : ℝ := c.pl.exp (c.pl.mul (c.pl.mul (-ph.dt) (ph.g (sys.orb i))) x)

/-- set the phonon field of one site and its exponential (monte_carlo.c:646-647) -/
def setX (l : ℕ) (i : Fin N) (x : ℝ) (st : State σ N M) : State σ N M :=
  { st with
    X := Function.update st.X l (Function.update (st.X l) i x)
    expX := Function.update st.expX l (Function.update (st.expX l) i (expOf c sys ph i x)) }

/-- `0.5*square(omega[o])` -/
noncomputable def halfSq (o : ℕ) : ℝ := c.pl.mul 0.5 (c.pl.mul (ph.omega o) (ph.omega o))

/-- change of the phonon energy (monte_carlo.c:534, 622) -/
noncomputable def localEnergyChange (L l : ℕ) (X : ℕ → Fin N → ℝ) (i : Fin N) (dx : ℝ) : ℝ :=
  let lNext := (l + 1) % L
  let lPrev := (l + L - 1) % L
  let invDtSq := c.pl.div 1.0 (c.pl.mul ph.dt ph.dt)
  c.pl.mul dx (c.pl.add
    (c.pl.mul (halfSq c ph (sys.orb i)) (c.pl.add dx (c.pl.mul 2 (X l i))))
    (c.pl.mul invDtSq (c.pl.sub dx (c.pl.add (c.pl.sub (X lNext i) (c.pl.mul 2 (X l i))) (X lPrev i)))))

open Classical in
/-- local phonon update of site `i` (monte_carlo.c:599-650) -/
noncomputable def localSite (l : ℕ) (st : State σ N M) (i : Fin N) : State σ N M :=
  let o := sys.orb i
  if ph.g o = 0 then st
  else
    let r1 := sys.rng.uniform st.rng
    let dx := c.pl.mul (c.pl.sub r1.1 0.5) ph.localBox
    let delta := c.pl.expm1 (c.pl.mul (c.pl.mul (-ph.dt) (ph.g o)) dx)
    let du := ratio c.pl.toArith st.Gu i delta
    let dd := ratio c.pl.toArith st.Gd i delta
    let dE := localEnergyChange c sys ph st.tsmU.L l st.X i dx
    let r2 := sys.rng.uniform r1.2
    let cnt := { st.cnt with localTotal := st.cnt.localTotal + 1 }
    if r2.1 < c.pl.mul |c.pl.mul du dd| (c.pl.exp (c.pl.mul (-ph.dt) dE)) then
      setX c sys ph l i (c.pl.add (st.X l i) dx)
        { st with
          rng := r2.2
          cnt := { cnt with localAccept := cnt.localAccept + 1 }
          Gu := applyUpdate c.pl.toArith st.Gu i delta du
          Gd := applyUpdate c.pl.toArith st.Gd i delta dd }
    else { st with rng := r2.2, cnt := cnt }

/-- all local updates of a slice (monte_carlo.c:593-651) -/
noncomputable def localSlice (l : ℕ) (st : State σ N M) : Option (State σ N M) := do
  let (order, r) ← sys.rng.shuffle N st.rng
  let sites ← localOrder order ph.nLocal
  return sites.foldl (localSite c sys ph l) { st with rng := r }

/-! ## A time slice -/

/-- `UpdatePhononTimeStepMatrices` for both spins (monte_carlo.c:654-661) -/
def updatePhB (l : ℕ) (st : State σ N M) : State σ N M :=
  { st with
    tsmU := updateWith c.pl.toArith (phB c sys c.tab.hs.expVu st.s st.expX) (phInvB c sys c.tab.hs.expVu st.s st.expX)
      sys.W0 l st.tsmU
    tsmD := updateWith c.pl.toArith (phB c sys c.tab.hs.expVd st.s st.expX) (phInvB c sys c.tab.hs.expVd st.s st.expX)
      sys.W0 l st.tsmD }

/-- recompute after several wraps (monte_carlo.c:664-683) -/
noncomputable def maybeRecompute [NeZero N] (l : ℕ) (st : State σ N M) : Option (State σ N M) :=
  if (l + 1) % sys.nwraps = 0 then do
    let gu ← greenConstruct c.pl.toArith st.tsmU ((l + 1) % st.tsmU.L)
    let gd ← greenConstruct c.pl.toArith st.tsmD ((l + 1) % st.tsmU.L)
    return { st with Gu := gu, Gd := gd }
  else some st

/-- both measurements (monte_carlo.c:696-708) -/
def measurePh (neqlt l : ℕ) (st : State σ N M) : Option (State σ N M) :=
  if neqlt > 0 ∧ (l + 1) % neqlt = 0 then do
    let m ← c.ms.eq st.Gu st.Gd st.meas
    let m ← c.ms.phonon st.Gu st.Gd l st.X m
    return { st with meas := m }
  else some st

/-- one time slice of `DQMCPhononIteration` (monte_carlo.c:544-709) -/
noncomputable def phTimeSlice [NeZero N] (noHS : Bool) (neqlt : ℕ) (st : State σ N M) (l : ℕ) :
    Option (State σ N M) := do
  let st := wrap c l st
  let st ← if noHS then some st else hsSlice c sys l st
  let st ← localSlice c sys ph l st
  let st := updatePhB c sys l st
  let st ← maybeRecompute c sys l st
  measurePh c neqlt l st

/-! ## Block and flip updates -/

/-- new phonon field with the entries of site `i` replaced, and its exponential (monte_carlo.c:261-266, 407-413) -/
noncomputable def moveX (L : ℕ) (i : Fin N) (f : ℕ → ℝ) (st : State σ N M) : State σ N M :=
  { st with
    X := fun l k => if l < L ∧ k = i then f l else st.X l k
    expX := fun l k => if l < L ∧ k = i then expOf c sys ph i (f l) else st.expX l k }

/-- common tail of a block or flip update (monte_carlo.c:277-314, 421-458) -/
noncomputable def decide [NeZero N] (kind : Kind) (i : Fin N) (X_i expX_i : ℕ → ℝ) (dE : ℝ)
    (st : State σ N M) : Option (State σ N M) := do
  let L := st.tsmU.L
  let tU := initWith c.pl.toArith (phB c sys c.tab.hs.expVu st.s st.expX) (phInvB c sys c.tab.hs.expVu st.s st.expX)
    sys.W0 (allocate L st.tsmU.prodBlen sys.junk)
  let tD := initWith c.pl.toArith (phB c sys c.tab.hs.expVd st.s st.expX) (phInvB c sys c.tab.hs.expVd st.s st.expX)
    sys.W0 (allocate L st.tsmD.prodBlen sys.junk)
  let gu ← greenConstruct c.pl.toArith tU 0
  let gd ← greenConstruct c.pl.toArith tD 0
  let cnt := st.cnt.attempt kind
  let r := sys.rng.uniform st.rng
  if r.1 < c.pl.exp (c.pl.sub (c.pl.sub (c.pl.add st.Gu.logdet st.Gd.logdet) (c.pl.add gu.logdet gd.logdet))
      (c.pl.mul ph.dt dE)) then
    return { st with
      rng := r.2
      cnt := cnt.accept kind
      Gu := Greens.copy gu st.Gu
      Gd := Greens.copy gd st.Gd
      tsmU := TimeFlow.copy tU st.tsmU
      tsmD := TimeFlow.copy tD st.tsmD }
  else
    return restoreX L i X_i expX_i { st with rng := r.2, cnt := cnt }

/-- sum over the time slices, added up one after the other -/
def sliceSum (L : ℕ) (f : ℕ → ℝ) : ℝ := (List.range L).foldl (fun a l => c.pl.add a (f l)) 0

open Classical in
/-- one pass of the loop of `PhononBlockUpdates` (monte_carlo.c:238-315) -/
noncomputable def blockUpdate [NeZero N] (st : State σ N M) : Option (State σ N M) := do
  let (i, r) ← sys.rng.site N st.rng
  let o := sys.orb i
  if ph.g o = 0 then return { st with rng := r }
  else
    let L := st.tsmU.L
    let r1 := sys.rng.uniform r
    let dx := c.pl.mul (c.pl.sub r1.1 0.5) ph.blockBox
    let dE := c.pl.mul (sliceSum c L fun l => c.pl.add dx (c.pl.mul 2 (st.X l i))) (c.pl.mul (halfSq c ph o) dx)
    decide c sys ph .block i (fun l => st.X l i) (fun l => st.expX l i) dE
      (moveX c sys ph L i (fun l => c.pl.add (st.X l i) dx) { st with rng := r1.2 })

open Classical in
/-- one pass of the loop of `PhononFlipUpdates` (monte_carlo.c:387-459) -/
noncomputable def flipUpdate [NeZero N] (st : State σ N M) : Option (State σ N M) := do
  let (i, r) ← sys.rng.site N st.rng
  let o := sys.orb i
  if ph.g o = 0 then return { st with rng := r }
  else
    let L := st.tsmU.L
    let flip := c.pl.div (c.pl.mul 2 ph.mu) (ph.g o)
    let dE := sliceSum c L fun l =>
      c.pl.mul (c.pl.mul (halfSq c ph o) (-flip)) (c.pl.add (-flip) (c.pl.mul 2 (st.X l i)))
    decide c sys ph .flip i (fun l => st.X l i) (fun l => st.expX l i) dE
      (moveX c sys ph L i (fun l => c.pl.sub flip (st.X l i)) { st with rng := r })

/-- `DQMCPhononIteration` (monte_carlo.c:495-724) -/
noncomputable def phIteration [NeZero N] (noHS : Bool) (neqlt : ℕ) (st : State σ N M) :
    Option (State σ N M) := do
  let st ← (List.range st.tsmU.L).foldlM (phTimeSlice c sys ph noHS neqlt) st
  let st ← iterateM (blockUpdate c sys ph) ph.nBlock st
  iterateM (flipUpdate c sys ph) ph.nBlock st

/-! ## The simulation -/

/-- initial time step matrices of one spin (monte_carlo.c:773-797) -/
def startMatrices (expV : Fin 2 → ℕ → ℝ) (s : ℕ → Fin N → Fin 2) (expX : ℕ → Fin N → ℝ) : TSM N :=
  initWith c.pl.toArith (phB c sys expV s expX) (phInvB c sys expV s expX) sys.W0 (allocate cfg.L cfg.prodBlen sys.junk)

/-- set-up before the iterations (monte_carlo.c:773-812) -/
noncomputable def startState [NeZero N] (rng : σ) (s : ℕ → Fin N → Fin 2) (X expX : ℕ → Fin N → ℝ)
    (cnt : Counters) (meas : M) : Option (State σ N M) := do
  let tU := startMatrices c sys cfg c.tab.hs.expVu s expX
  let tD := startMatrices c sys cfg c.tab.hs.expVd s expX
  let gu ← greenConstruct c.pl.toArith tU 0
  let gd ← greenConstruct c.pl.toArith tD 0
  return { rng := rng, s := s, X := X, expX := expX, tsmU := tU, tsmD := tD, Gu := gu, Gd := gd,
           cnt := cnt, meas := meas }

/-- the unequal time measurement (monte_carlo.c:845-850) -/
def measureUneq (it : ℤ) (st : State σ N M) : Option (State σ N M) :=
  if it ≥ cfg.nequil ∧ cfg.nuneqlt > 0 ∧ it.tmod cfg.nuneqlt = 0 then do
    let m ← c.ms.uneq (st.Gu.sgndet * st.Gd.sgndet) st.tsmU st.tsmD st.meas
    return { st with meas := m }
  else some st

/-- one iteration of the main loop of a run with phonons (monte_carlo.c:833-850) -/
noncomputable def simBody [NeZero N] (it : ℤ) (st : State σ N M) : Option (State σ N M) := do
  let st ← phIteration c sys ph cfg.noHS (effNeqlt cfg it) st
  measureUneq c cfg it st

/-- `DQMCSimulation` with phonons (monte_carlo.c:741-862), starting at iteration `it` -/
noncomputable def simulate [NeZero N] (stop : ℤ → Bool) (it : ℤ) (rng : σ) (s : ℕ → Fin N → Fin 2)
    (X expX : ℕ → Fin N → ℝ) (cnt : Counters) (meas : M) :
    Option (LoopResult (State σ N M)) := do
  let st ← startState c sys cfg rng s X expX cnt meas
  simLoop (simBody c sys ph cfg) stop (cfg.nequil + cfg.nsampl - it).toNat it st
    (Progress.update it (Progress.start cfg.nequil cfg.nsampl))

/-! ## `AccumulatePhononData` -/

section measure

variable (op : Ops) (Norb Ncell L : ℕ) (u d : ℤ → Option ℝ) (X : ℤ → Option ℝ) (dt : ℝ) (omega : ℕ → ℝ)

/-- the local variable `signfac` (measurement.c:1011) -/
def signfac (sign : ℝ) : ℝ := op.div (op.div sign Ncell) L

/-- main loop for one time slice and orbital (measurement.c:1014-1030), without `cur_X_avg` -/
noncomputable def phSliceAdds (sign : ℝ) (nsampl l o : ℕ) : Option (List (Measurement.Add PhF)) := do
  let N : ℤ := Ncell * Norb
  let sf := signfac op Ncell L sign
  let lplus : ℕ := (l + 1) % L
  let a : List (Measurement.Add PhF) ← loopM Ncell fun i => do
    let x ← X (i + o * Ncell + l * N)
    let y ← X (i + o * Ncell + lplus * N)
    let v := op.sub y x
    return [(.xSqAvg, o, op.mul sf (op.mul x x)),
      (.iterXAvg, o + nsampl * Norb, op.mul sf x),
      (.vAvg, o, op.mul (op.div sf dt) v),
      (.vSqAvg, o, op.mul (op.div sf (op.mul dt dt)) (op.mul v v)),
      (.pe, o, op.mul (op.mul (op.mul 0.5 (op.mul (omega o) (omega o))) sf) (op.mul x x)),
      (.ke, o, -(op.mul (op.mul (op.div 0.5 (op.mul dt dt)) sf) (op.mul v v)))]
  let x0 ← X (o * Ncell + l * N)
  return a ++ [(PhF.iterX0, ((o + nsampl * Norb : ℕ) : ℤ), op.mul (op.div sign L) x0)]

/-- `cur_X_avg[o]` is added up over slices and sites (measurement.c:1013-1021) -/
noncomputable def curXAvg (sign : ℝ) (o : ℕ) : Option ℝ :=
  (List.range L).foldlM (fun a (l : ℕ) => (List.range Ncell).foldlM (fun a (i : ℕ) =>
    (X (i + o * Ncell + l * (Ncell * Norb : ℤ))).map fun x => op.add a (op.mul (signfac op Ncell L sign) x)) a) 0

/-- second loop (measurement.c:1032-1037) -/
noncomputable def phOrbAdds (sign : ℝ) (o : ℕ) : Option (List (Measurement.Add PhF)) := do
  let c ← curXAvg op Norb Ncell L X sign o
  return [(.xAvg, o, c), (.xAvgSq, o, op.mul c c), (.ke, 0, op.div (op.mul sign 0.5) dt)]

/-- third loop (measurement.c:1040-1054) -/
noncomputable def phNXAdds (sign : ℝ) (lGreen o : ℕ) : Option (List (Measurement.Add PhF)) := do
  let N : ℤ := Ncell * Norb
  let s ← sumM op Ncell fun i => do
    let io : ℤ := i + Ncell * o
    let nu := op.sub 1 (← u (io + N * io))
    let nd := op.sub 1 (← d (io + N * io))
    return op.mul (op.add nu nd) (← X (i + o * Ncell + lGreen * N))
  return [(.nX, o, op.mul s (op.div sign Ncell))]

/-- all additions of `AccumulatePhononData` (measurement.c:1013-1054) -/
noncomputable def phAdds (sign : ℝ) (nsampl lGreen : ℕ) : Option (List (Measurement.Add PhF)) := do
  let a ← loopM L fun l => loopM Norb fun o => phSliceAdds op Norb Ncell L X dt omega sign nsampl l o
  let b ← loopM Norb fun o => phOrbAdds op Norb Ncell L X dt sign o
  let c ← loopM Norb fun o => phNXAdds op Norb Ncell u d X sign lGreen o
  return a ++ b ++ c

end measure

/-- `AccumulatePhononData` (measurement.c:992-1061) -/
noncomputable def accumulatePh (op : Ops) (Norb Ncell L : ℕ) (dt : ℝ) (omega : ℕ → ℝ)
    (Gu Gd : GreensFn N) (lGreen : ℕ) (X : ℕ → Fin N → ℝ) (m : PhData) : Option PhData := do
  let sign : ℝ := ((Gu.sgndet * Gd.sgndet : ℤ) : ℝ)
  let ws ← phAdds op Norb Ncell L (flat Gu.mat) (flat Gd.mat) (flatX L X) dt omega sign m.nsampl lGreen
  let arr ← execute op (PhF.size Norb m.maxNsampl) m.arr ws
  return { m with arr := arr, sign := op.add m.sign sign, nsampl := m.nsampl + 1 }

/-- the measurement routines of a run with phonons in rounded arithmetic -/
noncomputable def roundMeas (Norb Ncell L : ℕ) (mp : Maps) (dt : ℝ) (omega : ℕ → ℝ) (tau : BlockCyclic.Buf) (old : GreensUneq.Arrays)
    (ar : Arith N) (bl : BlockArith) : Meas N Main.MeasData where
  eq Gu Gd m := (Rounded.accumulateEq ar.toOps Norb Ncell mp Gu Gd m.eq).map fun e => { m with eq := e }
  phonon Gu Gd l X m := (accumulatePh ar.toOps Norb Ncell L dt omega Gu Gd l X m.ph).map fun e => { m with ph := e }
  uneq sign tU tD m := do
    let u ← compute ar bl tU L tau old
    let d ← compute ar bl tD L tau old
    let e ← Rounded.accumulateUneq ar.toOps Norb Ncell L mp (u.toCur N L) (d.toCur N L) (sign : ℝ) m.uneq
    return { m with uneq := e }

/-! ## Start of a run -/

open Classical in
/-- the loop that draws the initial phonon field (main.c:197-212) -/
noncomputable def drawPhonons (op : Ops) (rng : Rng σ) (ph : Phonon) (Ncell N L : ℕ) (seed : σ) : (ℕ → ℝ) × σ :=
  (List.range (L * N)).foldl (fun a k =>
    if ph.g (k % N / Ncell) = 0 then (Function.update a.1 k 0, a.2)
    else
      let r := rng.uniform a.2
      (Function.update a.1 k (op.mul (op.sub r.1 0.5) ph.localBox), r.2)) (fun _ => 0, seed)

/-- exponential of the phonon field (main.c:213) -/
noncomputable def expPhonons (pl : Platform N) (ph : Phonon) (Ncell L : ℕ) (X : ℕ → Fin N → ℝ) : ℕ → Fin N → ℝ :=
  fun l i => if l < L then pl.exp (pl.mul (pl.mul (-ph.dt) (ph.g (i / Ncell))) (X l i)) else 0

end Verif.Rounded.Ph
