import Verif.Model.MonteCarlo
import Verif.Model.GreensUneq
import Verif.Model.Profiler
import Mathlib.Data.Set.Basic

/-!
# The OpenMP sections of `src/monte_carlo.c` and `src/measurement.c`

A section is run by a thread, which is an arbitrary transition system with private data (its stack, its
own allocations and all its work arrays) on the shared memory.  The shared memory consists of the
objects below; a thread may read and write parts of them in steps of any size.  Two sections are run
by interleaving the steps of two threads.  The table of the profiler is shared by all threads; it is
changed under `#pragma omp critical` (profiler.c:52, 89), which makes each change one step, and it has
no influence on the computation.  BLAS and LAPACK are assumed to have no shared state.
-/

set_option autoImplicit false

namespace Verif.Parallel

open Verif.Lapack Verif.TimeFlow Verif.Greens Verif.Stratonovich Verif.MonteCarlo

/-! ## Threads -/

/-- shared memory with objects `κ` -/
abbrev Mem {κ : Type} (V : κ → Type) := (c : κ) → V c

variable {κ : Type} {V : κ → Type}

/-- a thread: private data and possible steps -/
structure Thread (V : κ → Type) where
  Local : Type
  init : Local
  Step : Local → Mem V → Local → Mem V → Prop

/-- `n` steps of a thread that runs alone -/
inductive Thread.Steps (T : Thread V) : ℕ → T.Local → Mem V → T.Local → Mem V → Prop
  | refl (a : T.Local) (m : Mem V) : Steps T 0 a m a m
  | snoc {n : ℕ} {a b c : T.Local} {m m' m'' : Mem V} :
      Steps T n a m b m' → T.Step b m' c m'' → Steps T (n + 1) a m c m''

/-- the thread has ended -/
def Thread.Final (T : Thread V) (a : T.Local) (m : Mem V) : Prop := ∀ b m', ¬ T.Step a m b m'

/-- `n` steps of two threads, interleaved in any way -/
inductive Par (P Q : Thread V) : ℕ → P.Local → Q.Local → Mem V → P.Local → Q.Local → Mem V → Prop
  | refl (a : P.Local) (b : Q.Local) (m : Mem V) : Par P Q 0 a b m a b m
  | left {n : ℕ} {a a' a'' : P.Local} {b b' : Q.Local} {m m' m'' : Mem V} :
      Par P Q n a b m a' b' m' → P.Step a' m' a'' m'' → Par P Q (n + 1) a b m a'' b' m''
  | right {n : ℕ} {a a' : P.Local} {b b' b'' : Q.Local} {m m' m'' : Mem V} :
      Par P Q n a b m a' b' m' → Q.Step b' m' b'' m'' → Par P Q (n + 1) a b m a' b'' m''

/-! ## Sections -/

/-- a section: the objects it reads and writes, and the result of running it alone (`none` if
undefined) -/
structure Sect (V : κ → Type) where
  reads : List κ
  writes : List κ
  effect : Mem V → Option (Mem V)

/-- no section writes what the other one uses -/
def conflictFree [DecidableEq κ] (A B : Sect V) : Bool :=
  A.writes.all (fun c => ¬ c ∈ B.reads ++ B.writes) && B.writes.all fun c => ¬ c ∈ A.reads ++ A.writes

/-! ## The objects shared by the threads of the simulation -/

/-- the objects which are passed to the sections by pointers, except constant ones -/
inductive Cell
  | s | expX | tsmU | tsmD | Gu | Gd
  /-- new matrices and Green's functions of block and flip updates -/
  | newTsmU | newTsmD | newGu | newGd
  /-- the current unequal time Green's functions -/
  | curU | curD
  /-- the table of the profiler -/
  | prof
  deriving DecidableEq

/-- their contents -/
def Cell.Val (N : ℕ) : Cell → Type
  | .s => ℕ → Fin N → Fin 2
  | .expX => ℕ → Fin N → ℝ
  | .tsmU | .tsmD | .newTsmU | .newTsmD => TSM N
  | .Gu | .Gd | .newGu | .newGd => GreensFn N
  | .curU | .curD => GreensUneq.Arrays
  | .prof => HashTable.Table Profiler.Entry

variable {N : ℕ}

/-- the memory of the simulation -/
abbrev Memory (N : ℕ) := Mem (Cell.Val N)

/-- the memory for a state of the simulation, with given contents of the other objects -/
def memory {σ M : Type} (st : State σ N M) (nU nD : TSM N) (gU gD : GreensFn N) (cU cD : GreensUneq.Arrays)
    (prof : HashTable.Table Profiler.Entry) : Memory N
  | .s => st.s
  | .expX => st.expX
  | .tsmU => st.tsmU
  | .tsmD => st.tsmD
  | .Gu => st.Gu
  | .Gd => st.Gd
  | .newTsmU => nU
  | .newTsmD => nD
  | .newGu => gU
  | .newGd => gD
  | .curU => cU
  | .curD => cD
  | .prof => prof

/-- a section that reads `r`, and writes `w` -/
def sect (r : List Cell) (w : Cell) (f : Memory N → Option (w.Val N)) : Sect (Cell.Val N) :=
  ⟨r, [w], fun m => (f m).map fun v => Function.update m w v⟩

/-- `GreenTimeSliceWrap` (monte_carlo.c:67-73, 537-543) -/
noncomputable def wrapU (l : ℕ) : Sect (Cell.Val N) := sect [.tsmU] .Gu fun m =>
  let G : GreensFn N := m .Gu
  let t : TSM N := m .tsmU
  some { G with mat := timeSliceWrap (t.B l) (t.invB l) G.mat }

/-- the same for spin down -/
noncomputable def wrapD (l : ℕ) : Sect (Cell.Val N) := sect [.tsmD] .Gd fun m =>
  let G : GreensFn N := m .Gd
  let t : TSM N := m .tsmD
  some { G with mat := timeSliceWrap (t.B l) (t.invB l) G.mat }

/-- `GreenShermanMorrisonUpdate`; the argument is evaluated in the section and may depend on the field
(monte_carlo.c:94-100, 566-572, 623-629) -/
noncomputable def smU (delta : (ℕ → Fin N → Fin 2) → ℝ) (i : Fin N) : Sect (Cell.Val N) :=
  sect [.s] .Gu fun m =>
    let G : GreensFn N := m .Gu
    some { G with mat := shermanMorrison (delta (m .s)) i G.mat }

/-- the same for spin down -/
noncomputable def smD (delta : (ℕ → Fin N → Fin 2) → ℝ) (i : Fin N) : Sect (Cell.Val N) :=
  sect [.s] .Gd fun m =>
    let G : GreensFn N := m .Gd
    some { G with mat := shermanMorrison (delta (m .s)) i G.mat }

variable {σ M : Type} (sys : Sys σ N M)

/-- `UpdateTimeStepMatrices` (monte_carlo.c:115-121) -/
noncomputable def updU (l : ℕ) : Sect (Cell.Val N) := sect [.s] .tsmU fun m =>
  let s : ℕ → Fin N → Fin 2 := m .s
  some (updateWith (fun l => timeStepMatrix sys.Ncell sys.expK sys.hs.expVu (s l))
    (fun l => invTimeStepMatrix sys.Ncell sys.invExpK sys.hs.expVu (s l)) sys.W0 l (m .tsmU))

/-- the same for spin down -/
noncomputable def updD (l : ℕ) : Sect (Cell.Val N) := sect [.s] .tsmD fun m =>
  let s : ℕ → Fin N → Fin 2 := m .s
  some (updateWith (fun l => timeStepMatrix sys.Ncell sys.expK sys.hs.expVd (s l))
    (fun l => invTimeStepMatrix sys.Ncell sys.invExpK sys.hs.expVd (s l)) sys.W0 l (m .tsmD))

/-- `UpdatePhononTimeStepMatrices` (monte_carlo.c:645-651) -/
noncomputable def updPhU (l : ℕ) : Sect (Cell.Val N) := sect [.s, .expX] .tsmU fun m =>
  some (updateWith (sys.phB sys.hs.expVu (m .s) (m .expX)) (sys.phInvB sys.hs.expVu (m .s) (m .expX))
    sys.W0 l (m .tsmU))

/-- the same for spin down -/
noncomputable def updPhD (l : ℕ) : Sect (Cell.Val N) := sect [.s, .expX] .tsmD fun m =>
  some (updateWith (sys.phB sys.hs.expVd (m .s) (m .expX)) (sys.phInvB sys.hs.expVd (m .s) (m .expX))
    sys.W0 l (m .tsmD))

/-- `GreenConstruct` (monte_carlo.c:134-140, 664-670, 802-808) -/
noncomputable def conU [NeZero N] (shift : ℕ) : Sect (Cell.Val N) := sect [.tsmU] .Gu fun m =>
  greenConstruct sys.lp (m .tsmU) shift

/-- the same for spin down -/
noncomputable def conD [NeZero N] (shift : ℕ) : Sect (Cell.Val N) := sect [.tsmD] .Gd fun m =>
  greenConstruct sys.lp (m .tsmD) shift

/-- `InitPhononTimeStepMatrices` of the new matrices (monte_carlo.c:278-284, 420-426) -/
noncomputable def initNewU : Sect (Cell.Val N) := sect [.s, .expX] .newTsmU fun m =>
  some (initWith (sys.phB sys.hs.expVu (m .s) (m .expX)) (sys.phInvB sys.hs.expVu (m .s) (m .expX))
    sys.W0 (m .newTsmU))

/-- the same for spin down -/
noncomputable def initNewD : Sect (Cell.Val N) := sect [.s, .expX] .newTsmD fun m =>
  some (initWith (sys.phB sys.hs.expVd (m .s) (m .expX)) (sys.phInvB sys.hs.expVd (m .s) (m .expX))
    sys.W0 (m .newTsmD))

/-- `GreenConstruct` of the new Green's functions (monte_carlo.c:287-293, 429-435) -/
noncomputable def conNewU [NeZero N] : Sect (Cell.Val N) := sect [.newTsmU] .newGu fun m =>
  greenConstruct sys.lp (m .newTsmU) 0

/-- the same for spin down -/
noncomputable def conNewD [NeZero N] : Sect (Cell.Val N) := sect [.newTsmD] .newGd fun m =>
  greenConstruct sys.lp (m .newTsmD) 0

/-- `InitPhononTimeStepMatrices` (monte_carlo.c:777-783) -/
noncomputable def initPhU : Sect (Cell.Val N) := sect [.s, .expX] .tsmU fun m =>
  some (initWith (sys.phB sys.hs.expVu (m .s) (m .expX)) (sys.phInvB sys.hs.expVu (m .s) (m .expX))
    sys.W0 (m .tsmU))

/-- the same for spin down -/
noncomputable def initPhD : Sect (Cell.Val N) := sect [.s, .expX] .tsmD fun m =>
  some (initWith (sys.phB sys.hs.expVd (m .s) (m .expX)) (sys.phInvB sys.hs.expVd (m .s) (m .expX))
    sys.W0 (m .tsmD))

/-- `InitTimeStepMatrices` (monte_carlo.c:787-793) -/
noncomputable def initU : Sect (Cell.Val N) := sect [.s] .tsmU fun m =>
  let s : ℕ → Fin N → Fin 2 := m .s
  some (initWith (fun l => timeStepMatrix sys.Ncell sys.expK sys.hs.expVu (s l))
    (fun l => invTimeStepMatrix sys.Ncell sys.invExpK sys.hs.expVu (s l)) sys.W0 (m .tsmU))

/-- the same for spin down -/
noncomputable def initD : Sect (Cell.Val N) := sect [.s] .tsmD fun m =>
  let s : ℕ → Fin N → Fin 2 := m .s
  some (initWith (fun l => timeStepMatrix sys.Ncell sys.expK sys.hs.expVd (s l))
    (fun l => invTimeStepMatrix sys.Ncell sys.invExpK sys.hs.expVd (s l)) sys.W0 (m .tsmD))

/-- `ComputeUnequalTimeGreensFunction` (measurement.c:572-578) -/
noncomputable def uneqU (alg : BlockCyclic.QRs N) (L : ℕ) (tau : BlockCyclic.Buf) : Sect (Cell.Val N) :=
  sect [.tsmU] .curU fun m => GreensUneq.compute alg (m .tsmU) L tau (m .curU)

/-- the same for spin down -/
noncomputable def uneqD (alg : BlockCyclic.QRs N) (L : ℕ) (tau : BlockCyclic.Buf) : Sect (Cell.Val N) :=
  sect [.tsmD] .curD fun m => GreensUneq.compute alg (m .tsmD) L tau (m .curD)

/-- the parallel regions -/
inductive IsRegion [NeZero N] : Sect (Cell.Val N) → Sect (Cell.Val N) → Prop
  | wrap (l : ℕ) : IsRegion (wrapU l) (wrapD l)
  | shermanMorrison (du dd : (ℕ → Fin N → Fin 2) → ℝ) (i : Fin N) : IsRegion (smU du i) (smD dd i)
  | update (l : ℕ) : IsRegion (updU sys l) (updD sys l)
  | updatePh (l : ℕ) : IsRegion (updPhU sys l) (updPhD sys l)
  | construct (shift : ℕ) : IsRegion (conU sys shift) (conD sys shift)
  | initNew : IsRegion (initNewU sys) (initNewD sys)
  | constructNew : IsRegion (conNewU sys) (conNewD sys)
  | initPh : IsRegion (initPhU sys) (initPhD sys)
  | init : IsRegion (initU sys) (initD sys)
  | uneq (alg : BlockCyclic.QRs N) (L : ℕ) (tau : BlockCyclic.Buf) :
      IsRegion (uneqU alg L tau) (uneqD alg L tau)

end Verif.Parallel
