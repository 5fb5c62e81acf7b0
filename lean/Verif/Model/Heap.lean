import Verif.Model.Params
import Verif.Model.Profiler
import Mathlib.Data.Multiset.AddSub

/-!
# Ownership of memory and files

What every function of the program allocates, accesses, releases and returns, in the order of the
source.  The numbers in the arrays are not part of this model: a decision that depends on them, on the
clock, on signals or on files is an entry of a sequence of arbitrary numbers, and whether a library
function reports a failure is an entry of another sequence.  The parameters are those of
`Verif.Params`.

A resource is a block of memory or an open file.  Release of a resource that is not live (double or
invalid `free`), access to a resource that is not live (use after `free`, use of an uninitialised
pointer) and an access outside an array of pointers have no result (`none`).

`malloc` succeeds, except where the program tests it.  The two sections of `#pragma omp parallel
sections` run one after the other; the blocks which one of them allocates or releases are not known to
the other.
-/

set_option autoImplicit false

namespace Verif.Heap

open Verif.HashTable (Key Table)
open Verif.Params (SimParams Conv Token)

/-! ## Resources -/

/-- a block of memory or an open file -/
inductive Res
  | mem (n : ℕ)
  | file (n : ℕ)
deriving DecidableEq

/-- serial number -/
def Res.id : Res → ℕ
  | mem n => n
  | file n => n

/-- state of the machine -/
structure World where
  /-- resources that have been obtained and not yet released -/
  live : Multiset Res
  /-- serial number of the next resource -/
  next : ℕ
  /-- decisions that depend on numbers, time, signals, files -/
  orc : ℕ → ℤ
  /-- failures of library functions -/
  lib : ℕ → Bool

/-- a computation; `none` is undefined behaviour -/
def Mem (α : Type) : Type := World → Option (α × World)

instance : Monad Mem where
  pure a := fun w => some (a, w)
  bind m k := fun w => (m w).bind fun r => k r.1 r.2

/-- undefined behaviour -/
def ub {α : Type} : Mem α := fun _ => none

/-- `algn_malloc`, `algn_calloc` (util.h:18-48) -/
def alloc : Mem Res := fun w =>
  some (.mem w.next, { w with live := .mem w.next ::ₘ w.live, next := w.next + 1 })

/-- successful `fopen` -/
def openFd : Mem Res := fun w =>
  some (.file w.next, { w with live := .file w.next ::ₘ w.live, next := w.next + 1 })

/-- `algn_free`, `fclose` -/
def free (p : Res) : Mem Unit := fun w =>
  if p ∈ w.live then some ((), { w with live := w.live.erase p }) else none

/-- any access through a pointer -/
def use (p : Res) : Mem Unit := fun w => if p ∈ w.live then some ((), w) else none

/-- a decision -/
def ask : Mem ℤ := fun w => some (w.orc 0, { w with orc := fun n => w.orc (n + 1) })

/-- does the next call of a library function fail? -/
def fails : Mem Bool := fun w => some (w.lib 0, { w with lib := fun n => w.lib (n + 1) })

/-- accesses to several blocks -/
def uses : List Res → Mem Unit
  | [] => pure ()
  | p :: ps => do use p; uses ps

/-- release of several blocks in order -/
def frees : List Res → Mem Unit
  | [] => pure ()
  | p :: ps => do free p; frees ps

/-- `for (i = a; i < a + n; i++)` with a state -/
def loopFrom {σ : Type} : ℕ → ℕ → σ → (ℕ → σ → Mem σ) → Mem σ
  | _, 0, s, _ => pure s
  | a, n + 1, s, body => do let s ← body a s; loopFrom (a + 1) n s body

/-- `for (i = 0; i < n; i++)` -/
def loop (n : ℕ) (body : ℕ → Mem Unit) : Mem Unit := loopFrom 0 n () fun i _ => body i

/-- element `i` of an array of pointers -/
def elem (arr : Res) (xs : List Res) (i : ℕ) : Mem Res := do
  use arr
  match xs[i]? with
  | none => ub
  | some p => pure p

/-- `duprintf` (dupio.c:13-31): writes to the file in the global variable `fd_log` if that is not
`NULL`.  The variable is passed as an argument everywhere; it is assigned in `main` only. -/
def duprintf (lg : Option Res) : Mem Unit :=
  match lg with
  | none => pure ()
  | some f => use f

/-- a point at which a signal may arrive; both handlers call `duprintf` (checkpoint.c:11-15,
progress.c:34-94) -/
def signalPoint (lg : Option Res) : Mem Unit := do
  let d ← ask
  if d = 1 then duprintf lg else pure ()

/-! ## `linalg.c` -/

/-- `MatrixExp` (linalg.c:47-88) -/
def matrixExp (lg : Option Res) (A ret : Res) : Mem ℤ := do
  let w ← alloc
  let U ← alloc
  uses [A, U]
  uses [U, w]
  if ← fails then do
    duprintf lg
    pure 1
  else do
    use w
    let UexpD ← alloc
    uses [UexpD, U]
    uses [w, UexpD]
    uses [UexpD, U, ret]
    free UexpD
    free U
    free w
    pure 0

/-- `MatrixProductSequence` (linalg.c:97-142): the matrices are `num` elements of the array `arr`
from element `start` on -/
def matrixProductSequence (num : ℕ) (arr : Res) (xs : List Res) (start : ℕ) (ret : Res) : Mem Unit := do
  let W ← alloc
  let T : Res × Res := if num % 2 = 0 then (W, ret) else (ret, W)
  let A0 ← elem arr xs start
  uses [A0, T.1]
  let _ ← loopFrom 1 (num - 1) T fun i T => do
    let Ai ← elem arr xs (start + i)
    uses [Ai, T.1, T.2]
    pure (T.2, T.1)
  free W

/-- `BlockCyclicQR` (linalg.c:159-192): status -/
def blockCyclicQR (lg : Option Res) (p : ℕ) (H tau : Res) : Mem ℤ := do
  let st ← loopFrom 0 (p - 2) (0 : ℤ) fun _ st =>
    if st ≠ 0 then pure st
    else do
      uses [H, tau]
      if ← fails then do duprintf lg; pure (-1)
      else if ← fails then pure (-1)
      else if ← fails then pure (-1)
      else pure 0
  if st ≠ 0 then pure st
  else do
    uses [H, tau]
    if ← fails then do duprintf lg; pure (-1)
    else pure 0

/-- `BlockCyclicTriangularInverse` (linalg.c:209-263): status -/
def blockCyclicTriangularInverse (lg : Option Res) (p : ℕ) (R : Res) : Mem ℤ := do
  use R
  if ← fails then do duprintf lg; pure 1
  else
    loopFrom 0 (p - 3) (0 : ℤ) fun _ st =>
      if st ≠ 0 then pure st
      else do
        use R
        if ← fails then do duprintf lg; pure 1
        else pure 0

/-- `BlockCyclicInverseRotation` (linalg.c:311-345) -/
def blockCyclicInverseRotation (p : ℕ) (A tau : Res) : Mem ℤ := do
  let Q ← alloc
  uses [A, Q]
  uses [Q, tau, A]
  loop (p - 2) fun _ => do
    uses [A, Q]
    uses [Q, tau, A]
  free Q
  pure 0

/-- `BlockCyclicInverse` (linalg.c:361-376) -/
def blockCyclicInverse (lg : Option Res) (p : ℕ) (H : Res) : Mem ℤ := do
  let tau ← alloc
  let info ← blockCyclicQR lg p H tau
  if info ≠ 0 then pure info
  else do
    let info ← blockCyclicTriangularInverse lg p H
    if info ≠ 0 then pure info
    else do
      let info ← blockCyclicInverseRotation p H tau
      if info ≠ 0 then pure info
      else do
        free tau
        pure 0

/-! ## Parameters: `hash_table.c`, `param_parser.c` -/

/-- `ht_entry_t` (hash_table.h): the entry, its copy of the key, its value -/
structure Node (ν : Type) where
  entry : Res
  key : Res
  val : ν

/-- `hash_table_t`: array of buckets and the chains -/
structure HT (ν : Type) where
  buckets : Res
  tab : Table (Node ν)

section
variable {ν : Type}

/-- `AllocateHashTable` (hash_table.c:11-17) -/
def htAllocate (n : ℕ) : Mem (HT ν) := do
  let b ← alloc
  pure ⟨b, HashTable.allocate n⟩

/-- the walk along a chain up to the entry with the key (hash_table.c:71-80, 108-113, 130-136) -/
def htWalk (key : Key) : List (Key × Node ν) → Mem (Option (Node ν))
  | [] => pure none
  | (k, nd) :: rest => do
    uses [nd.entry, nd.key]
    if key = k then pure (some nd) else htWalk key rest

/-- the walk in the table -/
def htFind (t : HT ν) (key : Key) : Mem (Option (Node ν)) := do
  use t.buckets
  htWalk key (t.tab.buckets (HashTable.index t.tab key))

/-- `HashTableGet` (hash_table.c:102-117) -/
def htGet (t : HT ν) (key : Key) : Mem (Option ν) := do
  let r ← htFind t key
  pure (r.map fun nd => nd.val)

/-- `HashTableInsert` (hash_table.c:65-95) -/
def htInsert (t : HT ν) (key : Key) (val : ν) : Mem (HT ν × Option ν) := do
  match ← htFind t key with
  | some nd => do
    use nd.entry
    pure (⟨t.buckets, (HashTable.insert t.tab key { nd with val := val }).1⟩, some nd.val)
  | none => do
    let e ← alloc
    let k ← alloc
    uses [e, k]
    use t.buckets
    pure (⟨t.buckets, (HashTable.insert t.tab key ⟨e, k, val⟩).1⟩, none)

/-- `HashTableRemove` (hash_table.c:124-151) -/
def htRemove (t : HT ν) (key : Key) : Mem (HT ν × Option ν) := do
  match ← htFind t key with
  | some nd => do
    uses [t.buckets, nd.entry]
    free nd.key
    free nd.entry
    pure (⟨t.buckets, (HashTable.remove t.tab key).1⟩, some nd.val)
  | none => pure (t, none)

/-- release of a chain (hash_table.c:29-37) -/
def htDeleteChain (freeFunc : ν → Mem Unit) : List (Key × Node ν) → Mem Unit
  | [] => pure ()
  | (_, nd) :: rest => do
    use nd.entry
    free nd.key
    use nd.entry
    freeFunc nd.val
    use nd.entry
    free nd.entry
    htDeleteChain freeFunc rest

/-- `DeleteHashTable` (hash_table.c:24-41) -/
def htDelete (freeFunc : ν → Mem Unit) (t : HT ν) : Mem Unit := do
  loop t.tab.nBuckets fun i => do
    use t.buckets
    htDeleteChain freeFunc (t.tab.buckets i)
  free t.buckets

end

/-- `value_list_t` on the heap (param_parser.c:44-49): the structure and its strings -/
structure Val where
  self : Res
  strs : List (Res × Token)

/-- the strings -/
def Val.toks (v : Val) : List Token := v.strs.map fun s => s.2

/-- `AppendValues` (param_parser.c:55-65); the structure has room for 1024 pointers -/
def appendValues (v : Val) : List Token → Mem Val
  | [] => pure v
  | t :: ts =>
    if v.strs.length < 1024 then do
      use v.self
      let s ← alloc
      uses [v.self, s]
      appendValues ⟨v.self, v.strs ++ [(s, t)]⟩ ts
    else ub

/-- `DeleteValueList` (param_parser.c:71-80) and `FreeValueListMemory` (param_parser.c:87-92) -/
def freeValueList (v : Val) : Mem Unit := do
  use v.self
  frees (v.strs.map fun s => s.1)
  free v.self

/-- one line of the file (param_parser.c:169-211) -/
def addLine (t : HT Val) (buf : List UInt8) : Mem (HT Val) :=
  match Params.lineTokens buf with
  | [] => pure t
  | [_] => pure t
  | name :: v :: vs => do
    match ← htFind t name with
    | none => do
      let self ← alloc
      let l ← appendValues ⟨self, []⟩ (v :: vs)
      let r ← htInsert t name l
      pure r.1
    | some nd => do
      let l ← appendValues nd.val (v :: vs)
      -- the structure is changed in place
      pure ⟨t.buckets, (HashTable.insert t.tab name { nd with val := l }).1⟩

/-- the loop over the lines (param_parser.c:166-212) -/
def readLoop (fd : Res) : List (List UInt8) → HT Val → Mem (HT Val)
  | [], t => do use fd; pure t
  | l :: ls, t => do
    use fd
    let t ← addLine t l
    readLoop fd ls t

/-- arrays of `sim_params_t` -/
structure ParamPtrs where
  aa : Res
  ab : Res
  ac : Res
  ad : Res
  bc : Res
  U : Res
  eps : Res
  omega : Res
  g : Res

/-- `AllocateSimulationParameters` (param_parser.c:361-371) with `AllocateBondHoppings`
(param_parser.c:15-22) -/
def allocateParams : Mem ParamPtrs := do
  let aa ← alloc
  let ab ← alloc
  let ac ← alloc
  let ad ← alloc
  let bc ← alloc
  let U ← alloc
  let eps ← alloc
  let omega ← alloc
  let g ← alloc
  pure ⟨aa, ab, ac, ad, bc, U, eps, omega, g⟩

/-- `DeleteSimulationParameters` (param_parser.c:378-386) with `DeleteBondHoppings`
(param_parser.c:29-36) -/
def deleteParams (p : ParamPtrs) : Mem Unit :=
  frees [p.g, p.omega, p.eps, p.U, p.bc, p.ad, p.ac, p.ab, p.aa]

/-- names looked up after `Norb` (param_parser.c:234-348) -/
def names : List String :=
  ["Nx", "Ny", "pbc_shift", "t_aa", "t_ab", "t_ac", "t_ad", "t_bc", "U", "eps", "mu", "use_phonons",
    "phonon_omega", "phonon_g", "phonon_local_box_width", "phonon_n_local_updates",
    "phonon_block_box_width", "phonon_n_block_updates", "dt", "L", "prodBlen", "nwraps", "nequil",
    "nsampl", "neqlt", "nuneqlt", "itime", "max_time"]

/-- lookup of a value and access to its strings -/
def lookup (t : HT Val) (key : Key) : Mem Unit := do
  match ← htGet t key with
  | none => pure ()
  | some v => uses (v.self :: v.strs.map fun s => s.1)

/-- the lookups (param_parser.c:234-348).  After an error the remaining ones are not made; they change
nothing. -/
def lookups (t : HT Val) : List String → Mem Unit
  | [] => pure ()
  | n :: ns => do lookup t (Params.nm n); lookups t ns

/-- result of `ParseParameterFile`: status, parameters, arrays (if they have been allocated) -/
structure Parsed (F : Type) where
  status : ℤ
  params : SimParams F
  ptrs : Option ParamPtrs

/-- `ParseParameterFile` (param_parser.c:153-354) -/
def parse {F : Type} [Zero F] (cv : Conv F) (file : Option (List UInt8)) (p : SimParams F) :
    Mem (Parsed F) :=
  match file with
  | none => do duprintf none; pure ⟨-1, p, none⟩
  | some f => do
    let fd ← openFd
    let t ← htAllocate 64
    let t ← readLoop fd (Params.readLines f) t
    free fd
    let r := Params.interpret cv (fun k => (HashTable.get t.tab k).map fun nd => nd.val.toks) p
    lookup t (Params.nm "Norb")
    if r.1 = -2 then pure ⟨r.1, r.2, none⟩
    else do
      let ps ← allocateParams
      lookups t names
      uses [ps.aa, ps.ab, ps.ac, ps.ad, ps.bc, ps.U, ps.eps, ps.omega, ps.g]
      if r.1 ≠ 0 then pure ⟨r.1, r.2, some ps⟩
      else do
        htDelete freeValueList t
        pure ⟨r.1, r.2, some ps⟩

/-! ## `kinetic.c`, `stratonovich.c` -/

/-- `kinetic_t` -/
structure Kin where
  expK : Res
  invExpK : Res

/-- `RectangularKineticExponential` (kinetic.c:11-105) -/
def kineticExponential (lg : Option Res) (pp : ParamPtrs) : Mem Kin := do
  let T ← alloc
  uses [pp.aa, pp.ab, pp.ac, pp.ad, pp.bc, pp.eps, T]
  let expK ← alloc
  let invExpK ← alloc
  let _ ← matrixExp lg T expK
  use T
  let _ ← matrixExp lg T invExpK
  free T
  pure ⟨expK, invExpK⟩

/-- `DeleteKineticExponential` (kinetic.c:112-116) -/
def deleteKinetic (k : Kin) : Mem Unit := frees [k.invExpK, k.expK]

/-- `stratonovich_params_t` -/
structure HS where
  expVu0 : Res
  expVu1 : Res
  expVd0 : Res
  expVd1 : Res
  delta0 : Res
  delta1 : Res

/-- `FillStratonovichParameters` (stratonovich.c:10-45) -/
def fillHS (U : Res) : Mem HS := do
  let expVu0 ← alloc
  let expVu1 ← alloc
  let expVd0 ← alloc
  let expVd1 ← alloc
  let delta0 ← alloc
  let delta1 ← alloc
  uses [U, expVu0, expVu1, expVd0, expVd1, delta0, delta1]
  pure ⟨expVu0, expVu1, expVd0, expVd1, delta0, delta1⟩

/-- `DeleteStratonovichParameters` (stratonovich.c:52-60) -/
def deleteHS (h : HS) : Mem Unit :=
  frees [h.delta1, h.delta0, h.expVd1, h.expVd0, h.expVu1, h.expVu0]

/-! ## `time_flow.c` -/

/-- `time_step_matrices_t`: three arrays of pointers and the matrices -/
structure Tsm where
  L : ℕ
  prodBlen : ℕ
  numBprod : ℕ
  Bs : Res
  invBs : Res
  Bprods : Res
  B : List Res
  invB : List Res
  Bprod : List Res

/-- `AllocateTimeStepMatrices` (time_flow.c:117-143) -/
def allocTsm (L prodBlen : ℕ) : Mem Tsm := do
  let numBprod := L / prodBlen
  let Bs ← alloc
  let invBs ← alloc
  let Bprods ← alloc
  let m ← loopFrom 0 L (([], []) : List Res × List Res) fun _ m => do
    use Bs
    let b ← alloc
    use invBs
    let i ← alloc
    pure (m.1 ++ [b], m.2 ++ [i])
  let q ← loopFrom 0 numBprod ([] : List Res) fun _ q => do
    use Bprods
    let b ← alloc
    pure (q ++ [b])
  pure ⟨L, prodBlen, numBprod, Bs, invBs, Bprods, m.1, m.2, q⟩

/-- `DeleteTimeStepMatrices` (time_flow.c:150-169) -/
def deleteTsm (t : Tsm) : Mem Unit := do
  loop t.numBprod fun l => do
    let p ← elem t.Bprods t.Bprod l
    free p
  loop t.L fun l => do
    let i ← elem t.invBs t.invB l
    free i
    let b ← elem t.Bs t.B l
    free b
  frees [t.Bprods, t.invBs, t.Bs]

/-- `CopyTimeStepMatrices` (time_flow.c:176-212) -/
def copyTsm (src dst : Tsm) : Mem Unit := do
  loop src.L fun l => do
    let a ← elem src.Bs src.B l
    let b ← elem dst.Bs dst.B l
    uses [b, a]
    let a ← elem src.invBs src.invB l
    let b ← elem dst.invBs dst.invB l
    uses [b, a]
  loop src.numBprod fun l => do
    let a ← elem src.Bprods src.Bprod l
    let b ← elem dst.Bprods dst.Bprod l
    uses [b, a]

/-- what the matrices of one spin are made of: kinetic exponentials, `expV`, the field and, with
phonons, the exponential of the phonon field -/
structure Src where
  kin : Kin
  e0 : Res
  e1 : Res
  s : Res
  expX : Option Res

/-- the blocks which are read -/
def Src.list (c : Src) : List Res :=
  [c.kin.expK, c.kin.invExpK, c.e0, c.e1, c.s] ++ c.expX.toList

/-- `InitTimeStepMatrices` (time_flow.c:219-237), `InitPhononTimeStepMatrices` (time_flow.c:243-261)
with the functions of time_flow.c:16-110 -/
def initTsm (c : Src) (t : Tsm) : Mem Unit := do
  loop t.L fun l => do
    let b ← elem t.Bs t.B l
    uses (b :: c.list)
    let i ← elem t.invBs t.invB l
    uses (i :: c.list)
  loop t.numBprod fun l => do
    let r ← elem t.Bprods t.Bprod l
    matrixProductSequence t.prodBlen t.Bs t.B (l * t.prodBlen) r

/-- `UpdateTimeStepMatrices` (time_flow.c:269-282), `UpdatePhononTimeStepMatrices`
(time_flow.c:289-302) -/
def updateTsm (c : Src) (l : ℕ) (t : Tsm) : Mem Unit := do
  let b ← elem t.Bs t.B l
  uses (b :: c.list)
  let i ← elem t.invBs t.invB l
  uses (i :: c.list)
  if l % t.prodBlen = t.prodBlen - 1 then do
    let lstart := l - (t.prodBlen - 1)
    let r ← elem t.Bprods t.Bprod (lstart / t.prodBlen)
    matrixProductSequence t.prodBlen t.Bs t.B lstart r
  else pure ()

/-- `TimeFlowMap` (time_flow.c:327-495) -/
def timeFlowMap (t : Tsm) (shift : ℕ) (Q tau d T : Res) : Mem Unit := do
  let W ← alloc
  let norms ← alloc
  let jpvt ← alloc
  let v ← alloc
  let src ← elem t.Bprods t.Bprod (shift / t.prodBlen % t.numBprod)
  uses [Q, src]
  uses [Q, jpvt, tau, d, v, T]
  let _ ← loopFrom 1 (t.numBprod - 1) () fun l _ => do
    let src ← elem t.Bprods t.Bprod ((l + shift / t.prodBlen) % t.numBprod)
    uses [W, src]
    uses [Q, tau, W, d, norms, jpvt, v, T]
  free v
  free norms
  free jpvt
  free W

/-! ## `greens_func.c` -/

/-- `AllocateGreensFunction` (greens_func.c:14-20); the structure has one array -/
def allocGreen : Mem Res := alloc

/-- `DeleteGreensFunction` (greens_func.c:27-30) -/
def deleteGreen (G : Res) : Mem Unit := free G

/-- `CopyGreensFunction` (greens_func.c:37-47) -/
def copyGreen (src dst : Res) : Mem Unit := uses [dst, src]

/-- `GreenConstruct` (greens_func.c:62-162) -/
def greenConstruct (t : Tsm) (shift : ℕ) (G : Res) : Mem Unit := do
  let Q ← alloc
  let tau ← alloc
  let d ← alloc
  let T ← alloc
  timeFlowMap t shift Q tau d T
  uses [G, d]
  uses [Q, tau, G]
  uses [d, T]
  uses [G, T]
  let ipiv ← alloc
  uses [T, ipiv, d, tau, G]
  free ipiv
  free T
  free d
  free tau
  free Q

/-- `GreenShermanMorrisonUpdate` (greens_func.c:169-195) -/
def greenUpdate (G : Res) : Mem Unit := do
  let c ← alloc
  uses [c, G]
  let d ← alloc
  uses [d, G]
  uses [d, c, G]
  free d
  free c

/-- `GreenTimeSliceWrap` (greens_func.c:202-215) -/
def greenWrap (B invB G : Res) : Mem Unit := do
  let T ← alloc
  uses [B, G, T]
  uses [T, invB, G]
  free T

/-- the wrap at slice `l` (monte_carlo.c:66, 68) -/
def wrapAt (t : Tsm) (l : ℕ) (G : Res) : Mem Unit := do
  let b ← elem t.Bs t.B l
  let i ← elem t.invBs t.invB l
  greenWrap b i G

/-- `ComputeUnequalTimeGreensFunction` (greens_func.c:237-327) -/
def uneqGreen (lg : Option Res) (L : ℕ) (t : Tsm) (H Gtau0 G0tau Geqlt : Res) : Mem Unit := do
  use H
  loop t.numBprod fun i => do
    let b ← elem t.Bprods t.Bprod i
    uses [b, H]
  let _ ← blockCyclicInverse lg t.numBprod H
  loop L fun i => do
    if i % t.prodBlen = 0 then uses [H, Gtau0]
    else do
      let b ← elem t.Bs t.B (i - 1)
      uses [b, Gtau0]
  loop L fun i => do
    if i % t.prodBlen = 0 then uses [H, G0tau]
    else if i = 1 then do
      let T ← alloc
      uses [H, T]
      let b ← elem t.invBs t.invB (i - 1)
      uses [T, b, G0tau]
      free T
    else do
      let b ← elem t.invBs t.invB (i - 1)
      uses [b, G0tau]
  loop L fun i => do
    if i % t.prodBlen = 0 then uses [H, Geqlt]
    else do
      use Geqlt
      let b ← elem t.Bs t.B (i - 1)
      let i ← elem t.invBs t.invB (i - 1)
      greenWrap b i Geqlt

/-! ## `measurement.c` -/

/-- `measurement_data_t` -/
structure EqD where
  densityU : Res
  densityD : Res
  doubleocc : Res
  grfunU : Res
  grfunD : Res
  uu : Res
  dd : Res
  ud : Res
  ff : Res
  zz : Res
  xx : Res
  scSw : Res
  scDw : Res
  scSx : Res
  lattSum : Res
  lattXp1 : Res
  lattXm1 : Res
  lattYp1 : Res
  lattYm1 : Res

/-- `AllocateMeasurementData` (measurement.c:83-127) -/
def allocEq : Mem EqD := do
  let densityU ← alloc
  let densityD ← alloc
  let doubleocc ← alloc
  let grfunU ← alloc
  let grfunD ← alloc
  let uu ← alloc
  let dd ← alloc
  let ud ← alloc
  let ff ← alloc
  let zz ← alloc
  let xx ← alloc
  let scSw ← alloc
  let scDw ← alloc
  let scSx ← alloc
  let lattSum ← alloc
  use lattSum
  let lattXp1 ← alloc
  let lattXm1 ← alloc
  let lattYp1 ← alloc
  let lattYm1 ← alloc
  uses [lattXp1, lattXm1, lattYp1, lattYm1]
  pure ⟨densityU, densityD, doubleocc, grfunU, grfunD, uu, dd, ud, ff, zz, xx, scSw, scDw, scSx, lattSum,
    lattXp1, lattXm1, lattYp1, lattYm1⟩

/-- `DeleteMeasurementData` (measurement.c:134-162) -/
def deleteEq (m : EqD) : Mem Unit :=
  frees [m.lattYm1, m.lattYp1, m.lattXm1, m.lattXp1, m.lattSum, m.scSw, m.scDw, m.scSx, m.xx, m.zz,
    m.ff, m.ud, m.dd, m.uu, m.grfunD, m.grfunU, m.doubleocc, m.densityD, m.densityU]

/-- the accumulated arrays -/
def EqD.data (m : EqD) : List Res :=
  [m.densityU, m.densityD, m.doubleocc, m.grfunU, m.grfunD, m.uu, m.dd, m.ud, m.ff, m.zz, m.xx, m.scSw,
    m.scDw, m.scSx]

/-- the lattice maps -/
def EqD.maps (m : EqD) : List Res := [m.lattSum, m.lattXp1, m.lattXm1, m.lattYp1, m.lattYm1]

/-- `AccumulateMeasurement` (measurement.c:169-319) -/
def accumulateEq (Gu Gd : Res) (m : EqD) : Mem Unit := uses ([Gu, Gd] ++ m.data ++ m.maps)

/-- `measurement_data_unequal_time_t` -/
structure UneqD where
  Hu : Res
  Hd : Res
  Gtau0U : Res
  G0tauU : Res
  GeqltU : Res
  Gtau0D : Res
  G0tauD : Res
  GeqltD : Res
  nn : Res
  zz : Res
  xx : Res
  scSw : Res
  scDw : Res
  scSx : Res
  jX : Res
  jY : Res
  ramB1g : Res
  ramB2g : Res
  lattSum : Res
  lattXp1 : Res
  lattXm1 : Res
  lattYp1 : Res
  lattYm1 : Res

/-- `AllocateUnequalTimeMeasurementData` (measurement.c:445-505); `none` is the status `-1` for lack of
memory -/
def allocUneq : Mem (Option UneqD) := do
  if ← fails then pure none
  else do
    let Hu ← alloc
    if ← fails then pure none
    else do
      let Hd ← alloc
      let Gtau0U ← alloc
      let G0tauU ← alloc
      let GeqltU ← alloc
      let Gtau0D ← alloc
      let G0tauD ← alloc
      let GeqltD ← alloc
      let nn ← alloc
      let zz ← alloc
      let xx ← alloc
      let scSw ← alloc
      let scDw ← alloc
      let scSx ← alloc
      let jX ← alloc
      let jY ← alloc
      let ramB1g ← alloc
      let ramB2g ← alloc
      let lattSum ← alloc
      use lattSum
      let lattXp1 ← alloc
      let lattXm1 ← alloc
      let lattYp1 ← alloc
      let lattYm1 ← alloc
      uses [lattXp1, lattXm1, lattYp1, lattYm1]
      pure (some ⟨Hu, Hd, Gtau0U, G0tauU, GeqltU, Gtau0D, G0tauD, GeqltD, nn, zz, xx, scSw, scDw, scSx,
        jX, jY, ramB1g, ramB2g, lattSum, lattXp1, lattXm1, lattYp1, lattYm1⟩)

/-- `DeleteUnequalTimeMeasurementData` (measurement.c:512-545) -/
def deleteUneq (m : UneqD) : Mem Unit :=
  frees [m.lattYm1, m.lattYp1, m.lattXm1, m.lattXp1, m.lattSum, m.Hd, m.Hu, m.ramB2g, m.ramB1g, m.jY,
    m.jX, m.scSw, m.scDw, m.scSx, m.xx, m.zz, m.nn, m.GeqltD, m.G0tauD, m.Gtau0D, m.GeqltU, m.G0tauU,
    m.Gtau0U]

/-- the accumulated arrays -/
def UneqD.data (m : UneqD) : List Res :=
  [m.Gtau0U, m.G0tauU, m.GeqltU, m.Gtau0D, m.G0tauD, m.GeqltD, m.nn, m.zz, m.xx, m.scSw, m.scDw, m.scSx,
    m.jX, m.jY, m.ramB1g, m.ramB2g]

/-- the lattice maps -/
def UneqD.maps (m : UneqD) : List Res := [m.lattSum, m.lattXp1, m.lattXm1, m.lattYp1, m.lattYm1]

/-- `AccumulateUnequalTimeMeasurement` (measurement.c:549-811) -/
def accumulateUneq (lg : Option Res) (L : ℕ) (tu td : Tsm) (m : UneqD) : Mem Unit := do
  let gtau0u ← alloc
  let g0tauu ← alloc
  let geqltu ← alloc
  let gtau0d ← alloc
  let g0taud ← alloc
  let geqltd ← alloc
  uneqGreen lg L tu m.Hu gtau0u g0tauu geqltu
  uneqGreen lg L td m.Hd gtau0d g0taud geqltd
  uses ([geqltu, geqltd, gtau0u, gtau0d, g0tauu, g0taud] ++ m.data ++ m.maps)
  free geqltd
  free g0taud
  free gtau0d
  free geqltu
  free g0tauu
  free gtau0u

/-- `measurement_data_phonon_t` -/
structure PhD where
  Xavg : Res
  XavgSq : Res
  XsqAvg : Res
  Vavg : Res
  VsqAvg : Res
  PE : Res
  KE : Res
  nX : Res
  itXavg : Res
  itX0 : Res

/-- `AllocatePhononData` (measurement.c:935-966) -/
def allocPh : Mem PhD := do
  let Xavg ← alloc
  let XavgSq ← alloc
  let XsqAvg ← alloc
  let Vavg ← alloc
  let VsqAvg ← alloc
  let PE ← alloc
  let KE ← alloc
  let nX ← alloc
  let itXavg ← alloc
  let itX0 ← alloc
  pure ⟨Xavg, XavgSq, XsqAvg, Vavg, VsqAvg, PE, KE, nX, itXavg, itX0⟩

/-- `DeletePhononData` (measurement.c:973-985) -/
def deletePh (m : PhD) : Mem Unit :=
  frees [m.itX0, m.itXavg, m.nX, m.KE, m.PE, m.VsqAvg, m.Vavg, m.XsqAvg, m.XavgSq, m.Xavg]

/-- all arrays -/
def PhD.data (m : PhD) : List Res :=
  [m.Xavg, m.XavgSq, m.XsqAvg, m.Vavg, m.VsqAvg, m.PE, m.KE, m.nX, m.itXavg, m.itX0]

/-- `AccumulatePhononData` (measurement.c:992-1062): the block `cur_X_avg` (line 1011) is not released -/
def accumulatePh (Gu Gd X omega : Res) (m : PhD) : Mem Unit := do
  let curXavg ← alloc
  uses ([curXavg, X, omega] ++ m.data)
  uses [Gu, Gd, X, m.nX]

/-! ## `util.c`, `checkpoint.c`: files -/

/-- `ReadData` (util.c:13-43); `data` is a block or (`none`) a variable on the stack -/
def readData (lg : Option Res) (data : Option Res) : Mem ℤ := do
  if ← fails then do duprintf lg; pure (-1)
  else do
    let fd ← openFd
    use fd
    if ← fails then do duprintf lg; pure (-2)
    else do
      uses data.toList
      if ← fails then do duprintf lg; pure (-3)
      else do
        free fd
        pure 0

/-- `WriteData` (util.c:50-72) -/
def writeData (lg : Option Res) (data : Option Res) : Mem ℤ := do
  if ← fails then do duprintf lg; pure (-1)
  else do
    let fd ← openFd
    use fd
    uses data.toList
    if ← fails then do duprintf lg; pure (-3)
    else do
      free fd
      pure 0

/-- a sequence of `ReadData` whose status is ignored -/
def readAll (lg : Option Res) : List (Option Res) → Mem Unit
  | [] => pure ()
  | d :: ds => do let _ ← readData lg d; readAll lg ds

/-- a sequence of `WriteData` whose status is ignored -/
def writeAll (lg : Option Res) : List (Option Res) → Mem Unit
  | [] => pure ()
  | d :: ds => do let _ ← writeData lg d; writeAll lg ds

/-- `LoadCheckpoint` (checkpoint.c:42-62) -/
def loadCheckpoint (lg : Option Res) (s : Res) : Mem ℤ := do
  let st ← readData lg none
  if st < 0 then pure st
  else do
    let st ← readData lg none
    if st < 0 then pure st
    else do
      let st ← readData lg (some s)
      if st < 0 then pure st else pure 0

/-- `SaveCheckpoint` (checkpoint.c:65-91) -/
def saveCheckpoint (lg : Option Res) (s : Res) : Mem ℤ := do
  let st ← writeData lg none
  if st < 0 then pure st
  else do
    let st ← writeData lg none
    if st < 0 then pure st
    else do
      let st ← writeData lg (some s)
      if st < 0 then pure st else pure 0

/-- `sign` and `nsampl` are part of the structure on the stack, the arrays are blocks -/
def EqD.files (m : EqD) : List (Option Res) := [none, none] ++ m.data.map some

/-- the files of the unequal time data -/
def UneqD.files (m : UneqD) : List (Option Res) := [none, none] ++ m.data.map some

/-- the files of `SavePhononData` (measurement.c:1119-1145) -/
def PhD.files (m : PhD) : List (Option Res) :=
  [none, none] ++ [m.Xavg, m.XavgSq, m.XsqAvg, m.VsqAvg, m.KE, m.PE, m.nX, m.itXavg, m.itX0].map some
    ++ [none, none, none, none]

/-! ## `monte_carlo.c` -/

/-- the data of a simulation -/
structure Sim where
  kin : Kin
  hs : HS
  s : Res
  tu : Tsm
  td : Tsm
  Gu : Res
  Gd : Res

/-- what the spin-up matrices are made of -/
def Sim.srcU (c : Sim) (expX : Option Res) : Src := ⟨c.kin, c.hs.expVu0, c.hs.expVu1, c.s, expX⟩

/-- what the spin-down matrices are made of -/
def Sim.srcD (c : Sim) (expX : Option Res) : Src := ⟨c.kin, c.hs.expVd0, c.hs.expVd1, c.s, expX⟩

/-- the updates of the Hubbard-Stratonovich field at one slice (monte_carlo.c:72-106, 546-586) -/
def siteUpdates (c : Sim) (N : ℕ) (order : Res) : Mem Unit := do
  use order
  loop N fun _ => do
    uses [order, c.Gu, c.Gd, c.hs.delta0, c.hs.delta1, c.s]
    let d ← ask
    if d = 1 then do
      greenUpdate c.Gu
      greenUpdate c.Gd
      uses [c.Gu, c.Gd, c.s]
    else pure ()

/-- allocation of the copies of the Green's functions in a debug build (monte_carlo.c:49-55) -/
def allocOld (dbg : Bool) : Mem (Option (Res × Res)) :=
  if dbg then do
    let u ← allocGreen
    let d ← allocGreen
    pure (some (u, d))
  else pure none

/-- release of the copies (monte_carlo.c:173-176) -/
def deleteOld (old : Option (Res × Res)) : Mem Unit :=
  match old with
  | none => pure ()
  | some (u, d) => do deleteGreen d; deleteGreen u

/-- recomputation of the Green's functions (monte_carlo.c:119-158, 654-692) -/
def recompute (lg : Option Res) (c : Sim) (old : Option (Res × Res)) (shift : ℕ) : Mem Unit := do
  match old with
  | none => pure ()
  | some (u, d) => do copyGreen c.Gu u; copyGreen c.Gd d
  greenConstruct c.tu shift c.Gu
  greenConstruct c.td shift c.Gd
  match old with
  | none => pure ()
  | some (u, d) => do
    uses [u, c.Gu]
    uses [d, c.Gd]
    let e ← ask
    if e = 1 then duprintf lg else pure ()

/-- `DQMCIteration` (monte_carlo.c:31-178) -/
def iteration (lg : Option Res) (dbg : Bool) (c : Sim) (N nwraps : ℕ) (neqlt : ℤ) (m : EqD) :
    Mem Unit := do
  let old ← allocOld dbg
  let order ← alloc
  loop c.tu.L fun l => do
    signalPoint lg
    wrapAt c.tu l c.Gu
    wrapAt c.td l c.Gd
    siteUpdates c N order
    updateTsm (c.srcU none) l c.tu
    updateTsm (c.srcD none) l c.td
    if (l + 1) % nwraps = 0 then recompute lg c old ((l + 1) % c.tu.L) else pure ()
    if neqlt > 0 ∧ ((l : ℤ) + 1) % neqlt = 0 then accumulateEq c.Gu c.Gd m else pure ()
  free order
  deleteOld old

/-- the phonon field, its exponential, and the arrays of the phonon parameters -/
structure Phon where
  X : Res
  expX : Res
  g : Res
  omega : Res

/-- `PhononBlockUpdates` (monte_carlo.c:202-326) and `PhononFlipUpdates` (monte_carlo.c:350-469): both
have the same sequence of allocations, accesses and releases -/
def globalUpdates (c : Sim) (f : Phon) (nBlock : ℤ) : Mem Unit := do
  if nBlock ≤ 0 then pure ()
  else do
    let Xi ← alloc
    let expXi ← alloc
    let Gu ← allocGreen
    let Gd ← allocGreen
    let tu ← allocTsm c.tu.L c.tu.prodBlen
    let td ← allocTsm c.tu.L c.td.prodBlen
    loop nBlock.toNat fun _ => do
      use f.g
      let skip ← ask
      if skip = 1 then pure ()
      else do
        uses [Xi, expXi, f.X, f.expX]
        uses [f.omega, f.g, f.X, f.expX]
        initTsm (c.srcU (some f.expX)) tu
        initTsm (c.srcD (some f.expX)) td
        greenConstruct tu 0 Gu
        greenConstruct td 0 Gd
        let d ← ask
        if d = 1 then do
          copyGreen Gu c.Gu
          copyGreen Gd c.Gd
          copyTsm tu c.tu
          copyTsm td c.td
        else uses [f.X, Xi, f.expX, expXi]
    deleteTsm td
    deleteTsm tu
    deleteGreen Gd
    deleteGreen Gu
    free expXi
    free Xi

/-- the local updates of the phonon field at one slice (monte_carlo.c:593-645) -/
def phononLocal (c : Sim) (f : Phon) (nLocal : ℤ) (order : Res) : Mem Unit := do
  use order
  loop nLocal.toNat fun _ => do
    uses [order, f.g]
    let skip ← ask
    if skip = 1 then pure ()
    else do
      uses [f.g, f.omega, c.Gu, c.Gd, f.X]
      let d ← ask
      if d = 1 then do
        greenUpdate c.Gu
        greenUpdate c.Gd
        uses [c.Gu, c.Gd, f.X, f.expX]
      else pure ()

/-- `DQMCPhononIteration` (monte_carlo.c:495-725) -/
def phononIteration (lg : Option Res) (dbg noHS : Bool) (c : Sim) (f : Phon) (N nwraps : ℕ)
    (nLocal nBlock neqlt : ℤ) (m : EqD) (mp : PhD) : Mem Unit := do
  let old ← allocOld dbg
  let order ← alloc
  loop c.tu.L fun l => do
    signalPoint lg
    wrapAt c.tu l c.Gu
    wrapAt c.td l c.Gd
    if noHS then pure () else siteUpdates c N order
    phononLocal c f nLocal order
    updateTsm (c.srcU (some f.expX)) l c.tu
    updateTsm (c.srcD (some f.expX)) l c.td
    if (l + 1) % nwraps = 0 then recompute lg c old ((l + 1) % c.tu.L) else pure ()
    if neqlt > 0 ∧ ((l : ℤ) + 1) % neqlt = 0 then do
      accumulateEq c.Gu c.Gd m
      accumulatePh c.Gu c.Gd f.X f.omega mp
    else pure ()
  globalUpdates c f nBlock
  globalUpdates c f nBlock
  free order
  deleteOld old

/-- a pointer to a structure that is initialised under a condition only -/
def deref {α : Type} (x : Option α) : Mem α :=
  match x with
  | none => ub
  | some a => pure a

/-- measurement data; those that are not allocated are uninitialised variables in `main` -/
structure Data where
  eq : EqD
  uneq : Option UneqD
  ph : Option PhD

variable {F : Type}

/-- statements under the condition `nuneqlt > 0` -/
def withUneq (p : SimParams F) (m : Data) (k : UneqD → Mem Unit) : Mem Unit :=
  if p.nuneqlt > 0 then do
    let mu ← deref m.uneq
    k mu
  else pure ()

/-- statements under the condition `use_phonons` -/
def withPh (p : SimParams F) (m : Data) (k : PhD → Mem Unit) : Mem Unit :=
  if p.usePhonons then do
    let mp ← deref m.ph
    k mp
  else pure ()

/-- number of sites -/
def sites (p : SimParams F) : ℕ := p.Norb.toNat * (p.Nx.toNat * p.Ny.toNat)

/-- the loop over the iterations (monte_carlo.c:818-853) with at most `fuel` rounds; the result is the
value of `*iteration` -/
def iterations (lg : Option Res) (dbg noHS : Bool) (p : SimParams F) (c : Sim) (f : Option Phon)
    (m : Data) : ℕ → ℤ → Mem ℤ
  | 0, it => pure it
  | fuel + 1, it => do
    signalPoint lg
    -- time limit or signal
    let stop ← ask
    if stop = 1 then do
      duprintf lg
      pure it
    else do
      let neqlt := if it ≥ p.nequil then p.neqlt else 0
      if p.usePhonons then do
        let f ← deref f
        let mp ← deref m.ph
        phononIteration lg dbg noHS c f (sites p) p.nwraps.toNat p.phonon.nLocalUpdates
          p.phonon.nBlockUpdates neqlt m.eq mp
      else iteration lg dbg c (sites p) p.nwraps.toNat neqlt m.eq
      if it ≥ p.nequil ∧ p.nuneqlt > 0 ∧ it.tmod p.nuneqlt = 0 then do
        let mu ← deref m.uneq
        accumulateUneq lg p.L.toNat c.tu c.td mu
      else pure ()
      iterations lg dbg noHS p c f m fuel (it + 1)

/-- initialisation of the time step matrices (monte_carlo.c:762-781) -/
def initMatrices (p : SimParams F) (kin : Kin) (hs : HS) (s : Res) (f : Option Phon) (tu td : Tsm) :
    Mem Unit :=
  if p.usePhonons then do
    let f ← deref f
    initTsm ⟨kin, hs.expVu0, hs.expVu1, s, some f.expX⟩ tu
    initTsm ⟨kin, hs.expVd0, hs.expVd1, s, some f.expX⟩ td
  else do
    initTsm ⟨kin, hs.expVu0, hs.expVu1, s, none⟩ tu
    initTsm ⟨kin, hs.expVd0, hs.expVd1, s, none⟩ td

/-- `DQMCSimulation` (monte_carlo.c:741-862): the value of `iteration` at the end -/
def simulate (lg : Option Res) (dbg : Bool) (p : SimParams F) (pp : ParamPtrs) (m : Data)
    (s : Res) (f : Option Phon) (it : ℤ) : Mem ℤ := do
  let kin ← kineticExponential lg pp
  use pp.U
  let noHS ← ask
  let hs ← fillHS pp.U
  let tu ← allocTsm p.L.toNat p.prodBlen.toNat
  let td ← allocTsm p.L.toNat p.prodBlen.toNat
  initMatrices p kin hs s f tu td
  let Gu ← allocGreen
  let Gd ← allocGreen
  greenConstruct tu 0 Gu
  greenConstruct td 0 Gd
  signalPoint lg
  duprintf lg
  let it ← iterations lg dbg (noHS = 1) p ⟨kin, hs, s, tu, td, Gu, Gd⟩ f m
    (p.nequil + p.nsampl - it).toNat it
  deleteGreen Gd
  deleteGreen Gu
  deleteTsm td
  deleteTsm tu
  deleteHS hs
  deleteKinetic kin
  pure it

/-! ## `main.c` -/

/-- result of a run: exit code, value of `iteration` before and after the simulation -/
structure Out where
  code : ℤ
  first : ℤ
  last : ℤ

/-- start from scratch or from a checkpoint (main.c:148-192): an exit code, or 0 and the iteration -/
def startup (lg : Option Res) (p : SimParams F) (m : Data) (s : Res) : Mem (ℤ × ℤ) := do
  let found ← ask
  if found ≠ 0 then do
    use s
    duprintf lg
    pure (0, 0)
  else do
    let st ← loadCheckpoint lg s
    if st < 0 then do
      duprintf lg
      pure (-5, 0)
    else do
      duprintf lg
      let it ← ask
      if it = p.nequil + p.nsampl then do
        duprintf lg
        pure (-6, it)
      else do
        readAll lg m.eq.files
        withUneq p m fun mu => readAll lg mu.files
        duprintf lg
        pure (0, it)

/-- initial phonon field (main.c:195-217) -/
def phononField (p : SimParams F) (pp : ParamPtrs) : Mem (Option Phon) := do
  if p.usePhonons then do
    let X ← alloc
    let expX ← alloc
    uses [pp.g, X, expX]
    pure (some ⟨X, expX, pp.g, pp.omega⟩)
  else pure none

/-- normalisation and summary (main.c:235-256) -/
def summarize (lg : Option Res) (p : SimParams F) (m : Data) (it : ℤ) : Mem Unit := do
  duprintf lg
  if it = p.nequil + p.nsampl then do
    uses m.eq.data
    withUneq p m fun mu => uses mu.data
    duprintf lg
    withPh p m fun mp => do
      uses mp.data
      duprintf lg
  else pure ()

/-- results and release of everything (main.c:269-292).  `late`: a signal arrives after the log file
has been closed. -/
def cleanup (lg : Res) (late : Bool) (p : SimParams F) (pp : ParamPtrs) (m : Data) (s : Res)
    (f : Option Phon) : Mem Unit := do
  writeAll (some lg) m.eq.files
  withUneq p m fun mu => writeAll (some lg) mu.files
  withPh p m fun mp => writeAll (some lg) mp.files
  duprintf (some lg)
  free lg
  if late then duprintf (some lg) else pure ()
  withPh p m fun mp => do
    let f ← deref f
    free f.expX
    free f.X
    deletePh mp
  free s
  withUneq p m deleteUneq
  deleteEq m.eq
  deleteParams pp

/-- main.c:132-310, after the allocation of the measurement data -/
def run (lg : Res) (dbg late : Bool) (p : SimParams F) (pp : ParamPtrs) (m : Data) : Mem Out := do
  let s ← alloc
  let st ← startup (some lg) p m s
  if st.1 < 0 then pure ⟨st.1, st.2, st.2⟩
  else do
    let f ← phononField p pp
    let it ← simulate (some lg) dbg p pp m s f st.2
    signalPoint (some lg)
    summarize (some lg) p m it
    duprintf (some lg)
    let sv ← saveCheckpoint (some lg) s
    if sv < 0 then do
      duprintf (some lg)
      pure ⟨-7, st.2, it⟩
    else do
      duprintf (some lg)
      cleanup lg late p pp m s f
      let stopped ← ask
      pure ⟨if stopped = 1 then 1 else 0, st.2, it⟩

/-- unequal time data, if they are wanted (main.c:117-124): a status and the data -/
def allocUneqIf (p : SimParams F) : Mem (Bool × Option UneqD) :=
  if p.nuneqlt > 0 then do
    let r ← allocUneq
    pure (r.isSome, r)
  else pure (true, none)

/-- phonon data, if they are wanted (main.c:126-130); division by zero in the number of samples -/
def allocPhIf (p : SimParams F) : Mem (Option PhD) :=
  if p.usePhonons then
    if p.neqlt = 0 then ub
    else do
      let r ← allocPh
      pure (some r)
  else pure none

/-- main.c:113-131: the measurement data, then the rest -/
def setup (lg : Res) (dbg late : Bool) (p : SimParams F) (pp : ParamPtrs) : Mem Out := do
  let eq ← allocEq
  let un ← allocUneqIf p
  if un.1 = false then do
    duprintf (some lg)
    pure ⟨-4, 0, 0⟩
  else do
    let ph ← allocPhIf p
    run lg dbg late p pp ⟨eq, un.2, ph⟩

/-- `main` with at least one argument (main.c:44-310) -/
def program [Zero F] [DecidableEq F] (cv : Conv F) (dbg late : Bool) (file : Option (List UInt8))
    (p₀ : SimParams F) : Mem Out := do
  duprintf none
  let r ← parse cv file p₀
  if r.status < 0 then do
    duprintf none
    pure ⟨-1, 0, 0⟩
  else do
    let pp ← deref r.ptrs
    use pp.aa
    if Params.validate r.params < 0 then do
      duprintf none
      pure ⟨-2, 0, 0⟩
    else do
      duprintf none
      if ← fails then do
        duprintf none
        pure ⟨-3, 0, 0⟩
      else do
        let lg ← openFd
        setup lg dbg late r.params pp

/-! ## `profiler.c` -/

/-- `Profile_Start` (profiler.c:29-34) -/
def profileStart : Mem (HT Res) := htAllocate 32

/-- `Profile_Begin` (profiler.c:41-71) and `Profile_End` (profiler.c:78-101) under the name that
belongs to the thread -/
def profileStep (t : HT Res) (call : Profiler.Call) (key : Key) : Mem (HT Res) := do
  match ← htGet t key with
  | none =>
    match call with
    | .enter => do
      let p ← alloc
      let r ← htInsert t key p
      use p
      pure r.1
    | .leave => pure t
  | some p => do
    use p
    pure t

/-- a sequence of calls -/
def profileRun (t : HT Res) : List (Profiler.Call × Key) → Mem (HT Res)
  | [] => pure t
  | (c, k) :: rest => do
    let t ← profileStep t c k
    profileRun t rest

/-- access to all entries in the report (profiler.c:141-161) -/
def profileReport (entries : Res) : List (Key × Node Res) → Mem Unit
  | [] => pure ()
  | (_, nd) :: rest => do
    uses [entries, nd.entry, nd.key, nd.val]
    profileReport entries rest

/-- `Profile_Stop` (profiler.c:131-168) -/
def profileStop (lg : Option Res) (t : HT Res) : Mem Unit := do
  let entries ← alloc
  use t.buckets
  profileReport entries (HashTable.delete t.tab)
  duprintf lg
  free entries
  htDelete free t

end Verif.Heap
