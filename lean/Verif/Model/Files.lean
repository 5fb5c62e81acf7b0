import Verif.Model.Random
import Verif.Model.Measurement

/-!
# Model of `ReadData` and `WriteData` (src/util.c), `src/checkpoint.c` and the load and save functions
of `src/measurement.c`

A file system maps paths to contents.  Integers are stored as little endian bytes.  Since numbers of
type `double` are real numbers in this model, the bytes of a stored `double` remember which number
they are a part of; taken as an integer they have the value given by `Float64.byte`, and eight bytes
which are not those of one stored number are the number given by `Float64.ofBytes`.  Both functions
are arbitrary.

A write is not atomic: opening a file for writing makes it empty, then the data arrive one byte after
the other.  `Crash` describes the contents which a process may leave when it dies.
-/

set_option autoImplicit false

namespace Verif.Files

open Verif.Random Verif.Measurement

/-! ## Bytes -/

/-- one byte of a file -/
inductive Byte
  | raw (b : BitVec 8)
  /-- byte number `k` of the number `x` -/
  | part (x : ℝ) (k : Fin 8)

/-- the representation of numbers of type `double` -/
structure Float64 where
  byte : ℝ → Fin 8 → BitVec 8
  ofBytes : List (BitVec 8) → ℝ

/-- value of a byte -/
def Float64.val (F : Float64) : Byte → BitVec 8
  | .raw b => b
  | .part x k => F.byte x k

/-- the `n` low bytes of a number, lowest first -/
def encNat (n v : ℕ) : List Byte := (List.range n).map fun k => .raw (BitVec.ofNat 8 (v / 256 ^ k))

/-- the number stored in a list of bytes -/
def decNat (F : Float64) (bs : List Byte) : ℕ := bs.foldr (fun b a => (F.val b).toNat + 256 * a) 0

/-- an `int` -/
def encInt (v : ℤ) : List Byte := encNat 4 (BitVec.ofInt 32 v).toNat

/-- read an `int` -/
def decInt (F : Float64) (bs : List Byte) : ℤ := (BitVec.ofNat 32 (decNat F bs)).toInt

/-- a `uint64_t` -/
def encWord (w : BitVec 64) : List Byte := encNat 8 w.toNat

/-- read a `uint64_t` -/
def decWord (F : Float64) (bs : List Byte) : BitVec 64 := BitVec.ofNat 64 (decNat F bs)

/-- a `double` -/
def encDouble (x : ℝ) : List Byte := (List.finRange 8).map (Byte.part x)

open Classical in
/-- read a `double` -/
noncomputable def decDouble (F : Float64) (bs : List Byte) : ℝ :=
  if h : ∃ x, bs = encDouble x then h.choose else F.ofBytes (bs.map F.val)

/-- an array of `n` entries -/
def encArray {α : Type} (enc : α → List Byte) (n : ℕ) (a : ℕ → α) : List Byte :=
  (List.range n).flatMap fun i => enc (a i)

/-- entry `i` of an array with entries of `size` bytes -/
def entry {α : Type} (dec : List Byte → α) (size : ℕ) (bs : List Byte) (i : ℕ) : α :=
  dec ((bs.drop (size * i)).take size)

/-! ## Files -/

/-- contents of the files -/
abbrev FS := String → Option (List Byte)

/-- the file `path` has the content `c` -/
def FS.put (fs : FS) (path : String) (c : List Byte) : FS := Function.update fs path (some c)

/-- `ReadData` (util.c:13-43) for `n` items of `size` bytes: status and the data, if the destination
is written.  The stream is not closed after an error (a leak without effect on the result). -/
def readData (fs : FS) (path : String) (size n : ℕ) : ℤ × Option (List Byte) :=
  match fs path with
  | none => (-1, none)
  | some c => if c.length ≠ n * size then (-2, none) else (0, some c)

/-- what may go wrong in `WriteData` -/
inductive Fault
  | none
  /-- `fopen` fails -/
  | openFails
  /-- `fwrite` reports an error after `k` bytes -/
  | writeFails (k : ℕ)
  /-- `fwrite` succeeds, but only `k` of the buffered bytes reach the disk in `fclose` -/
  | closeFails (k : ℕ)

/-- `WriteData` (util.c:50-71) -/
def writeData (f : Fault) (fs : FS) (path : String) (data : List Byte) (append : Bool) : FS × ℤ :=
  let old := if append then (fs path).getD [] else []
  match f with
  | .none => (fs.put path (old ++ data), 0)
  | .openFails => (fs, -1)
  | .writeFails k => (fs.put path (old ++ data.take k), -3)
  | .closeFails k => (fs.put path (old ++ data.take k), 0)

/-- a file to be written and its new content -/
abbrev Write := String × List Byte

/-- consecutive calls of `WriteData` without `append`, ended by the first error; `f i` is the fault of
call `i` -/
def writeUntilError (f : ℕ → Fault) : FS → List Write → FS × ℤ
  | fs, [] => (fs, 0)
  | fs, w :: ws =>
    let r := writeData (f 0) fs w.1 w.2 false
    if r.2 < 0 then r else writeUntilError (fun i => f (i + 1)) r.1 ws

/-- consecutive calls of `WriteData` without `append` whose results are ignored -/
def writeAll (f : ℕ → Fault) : FS → List Write → FS
  | fs, [] => fs
  | fs, w :: ws => writeAll (fun i => f (i + 1)) (writeData (f 0) fs w.1 w.2 false).1 ws

/-- contents left behind by a process which dies before or during some writes -/
inductive Crash : FS → List Write → FS → Prop
  | before (fs : FS) (ws : List Write) : Crash fs ws fs
  | inside (fs : FS) (w : Write) (ws : List Write) (k : ℕ) :
      Crash fs (w :: ws) (fs.put w.1 (w.2.take k))
  | later (fs fs' : FS) (w : Write) (ws : List Write) :
      Crash (fs.put w.1 w.2) ws fs' → Crash fs (w :: ws) fs'

/-! ## Checkpoints -/

/-- the variables stored in a checkpoint -/
structure Ckpt where
  iteration : ℤ
  seed : Seed
  /-- the bytes of the field -/
  s : ℕ → BitVec 8

/-- the words written by `SaveCheckpoint` (checkpoint.c:74-80); the subtraction in `Fin 16` is
`(i - p + 16) % 16` -/
def savedWords (sd : Seed) : Fin 16 → BitVec 64 := fun i => sd.s (i - sd.p)

/-- an entry of the field -/
def encSpin (b : BitVec 8) : List Byte := [.raw b]

/-- read an entry of the field -/
def decSpin (F : Float64) (bs : List Byte) : BitVec 8 := BitVec.ofNat 8 (decNat F bs)

/-- the files written by `SaveCheckpoint` (checkpoint.c:64-89) -/
def checkpointWrites (fnbase : String) (LxN : ℕ) (c : Ckpt) : List Write :=
  [(fnbase ++ "_iteration.dat", encInt c.iteration),
   (fnbase ++ "_randseed.dat", encArray encWord 16 fun i => savedWords c.seed (Fin.ofNat 16 i)),
   (fnbase ++ "_hsfield.dat", encArray encSpin LxN c.s)]

/-- `SaveCheckpoint` (checkpoint.c:64-89) -/
def saveCheckpoint (f : ℕ → Fault) (fs : FS) (fnbase : String) (LxN : ℕ) (c : Ckpt) : FS × ℤ :=
  writeUntilError f fs (checkpointWrites fnbase LxN c)

/-- `SearchCheckpoint` (checkpoint.c:24-39) -/
def searchCheckpoint (fs : FS) (fnbase : String) : ℤ :=
  if (fs (fnbase ++ "_iteration.dat")).isNone then -1
  else if (fs (fnbase ++ "_randseed.dat")).isNone then -1
  else if (fs (fnbase ++ "_hsfield.dat")).isNone then -1
  else 0

/-- first part of `LoadCheckpoint` (checkpoint.c:47-49) -/
def loadIteration (F : Float64) (fs : FS) (fnbase : String) (old : Ckpt) : ℤ × Ckpt :=
  match readData fs (fnbase ++ "_iteration.dat") 4 1 with
  | (st, none) => (st, old)
  | (st, some c) => (st, { old with iteration := decInt F c })

/-- second part of `LoadCheckpoint` (checkpoint.c:51-54) -/
def loadSeed (F : Float64) (fs : FS) (fnbase : String) (old : Ckpt) : ℤ × Ckpt :=
  match readData fs (fnbase ++ "_randseed.dat") 8 16 with
  | (st, none) => (st, old)
  | (st, some c) => (st, { old with seed := { s := fun i => entry (decWord F) 8 c i, p := 0 } })

/-- third part of `LoadCheckpoint` (checkpoint.c:56-58) -/
def loadField (F : Float64) (fs : FS) (fnbase : String) (LxN : ℕ) (old : Ckpt) : ℤ × Ckpt :=
  match readData fs (fnbase ++ "_hsfield.dat") 1 LxN with
  | (st, none) => (st, old)
  | (st, some c) =>
    (st, { old with s := fun i => if i < LxN then entry (decSpin F) 1 c i else old.s i })

/-- `LoadCheckpoint` (checkpoint.c:42-61): status and variables -/
def loadCheckpoint (F : Float64) (fs : FS) (fnbase : String) (LxN : ℕ) (old : Ckpt) : ℤ × Ckpt :=
  let r := loadIteration F fs fnbase old
  if r.1 < 0 then r
  else
    let r := loadSeed F fs fnbase r.2
    if r.1 < 0 then r else loadField F fs fnbase LxN r.2

/-! ## Measurement data -/

/-- the writes of the arrays of a data structure -/
def arrayWrites {A : Type} (pre : String) (files : List (A × String)) (size : A → ℤ) (m : Arrays A) :
    List Write :=
  files.map fun f => (pre ++ f.2, encArray encDouble (size f.1).toNat fun i => m f.1 i)

/-- read an array, keeping its content if `ReadData` fails -/
noncomputable def loadArray (F : Float64) (fs : FS) (path : String) (size : ℤ) (old : ℤ → ℝ) :
    ℤ → ℝ :=
  match (readData fs path 8 size.toNat).2 with
  | none => old
  | some c => fun z => if 0 ≤ z ∧ z < size then entry (decDouble F) 8 c z.toNat else old z

/-- read the arrays of a data structure -/
noncomputable def loadArrays {A : Type} [DecidableEq A] (F : Float64) (fs : FS) (pre : String)
    (files : List (A × String)) (size : A → ℤ) (old : Arrays A) : Arrays A :=
  files.foldl (fun m f => Function.update m f.1 (loadArray F fs (pre ++ f.2) (size f.1) (m f.1))) old

/-- read a `double`, keeping its value if `ReadData` fails -/
noncomputable def loadDouble (F : Float64) (fs : FS) (path : String) (old : ℝ) : ℝ :=
  match (readData fs path 8 1).2 with
  | none => old
  | some c => decDouble F c

/-- read an `int` that is a count, keeping its value if `ReadData` fails.  Negative counts, which only
a file not written by this program can contain, are replaced by 0. -/
def loadCount (F : Float64) (fs : FS) (path : String) (old : ℕ) : ℕ :=
  match (readData fs path 4 1).2 with
  | none => old
  | some c => (decInt F c).toNat

/-- names of the files written by `SaveMeasurementData` (measurement.c:426-437) -/
def eqSaveFiles : List (EqF × String) :=
  [(.densityU, "_eqlt_density_u.dat"), (.densityD, "_eqlt_density_d.dat"),
   (.doubleocc, "_eqlt_doubleocc.dat"), (.grfunU, "_eqlt_grfun_u.dat"),
   (.grfunD, "_eqlt_grfun_d.dat"), (.uu, "_eqlt_uu_corr.dat"), (.dd, "_eqlt_dd_corr.dat"),
   (.ud, "_eqlt_ud_corr.dat"), (.ff, "_eqlt_ff_corr.dat"), (.zz, "_eqlt_zz_corr.dat"),
   (.xx, "_eqlt_xx_corr.dat"), (.scSw, "_eqlt_sc_c_sw.dat"), (.scDw, "_eqlt_sc_c_dw.dat"),
   (.scSx, "_eqlt_sc_c_sx.dat")]

/-- names of the files read by `LoadMeasurementData` (measurement.c:394-409) -/
def eqLoadFiles : List (EqF × String) :=
  [(.densityU, "_eqlt_density_u.dat"), (.densityD, "_eqlt_density_d.dat"),
   (.doubleocc, "_eqlt_doubleocc.dat"), (.grfunU, "_eqlt_grfun_u.dat"),
   (.grfunD, "_eqlt_grfun_d.dat"), (.uu, "_eqlt_uu_corr.dat"), (.dd, "_eqlt_dd_corr.dat"),
   (.ud, "_eqlt_ud_corr.dat"), (.ff, "_eqlt_ff_corr.dat"), (.zz, "_eqlt_zz_corr.dat"),
   (.xx, "_eqlt_xx_corr.dat"), (.scSw, "_eqlt_sc_c_sw.dat"), (.scDw, "_eqlt_sc_c_dw.dat"),
   (.scSx, "_eqlt_sc_c_sx.dat")]

/-- the writes of `SaveMeasurementData` (measurement.c:417-438) -/
def eqWrites (Norb Ncell : ℕ) (fnbase : String) (m : EqData) : List Write :=
  [(fnbase ++ "_eqlt_sign.dat", encDouble m.sign),
   (fnbase ++ "_eqlt_nsampl.dat", encInt m.nsampl)]
  ++ arrayWrites fnbase eqSaveFiles (EqF.size Norb Ncell) m.arr

/-- `SaveMeasurementData` (measurement.c:417-438) -/
def saveEq (Norb Ncell : ℕ) (f : ℕ → Fault) (fs : FS) (fnbase : String) (m : EqData) : FS :=
  writeAll f fs (eqWrites Norb Ncell fnbase m)

/-- `LoadMeasurementData` (measurement.c:385-410) -/
noncomputable def loadEq (Norb Ncell : ℕ) (F : Float64) (fs : FS) (fnbase : String) (old : EqData) :
    EqData where
  sign := loadDouble F fs (fnbase ++ "_eqlt_sign.dat") old.sign
  nsampl := loadCount F fs (fnbase ++ "_eqlt_nsampl.dat") old.nsampl
  arr := loadArrays F fs fnbase eqLoadFiles (EqF.size Norb Ncell) old.arr

/-- names of the files written by `SaveUnequalTimeMeasurementData` (measurement.c:908-927) -/
def uneqSaveFiles : List (UneqF × String) :=
  [(.gtau0U, "_uneqlt_Gtau0_u.dat"), (.g0tauU, "_uneqlt_G0tau_u.dat"),
   (.geqltU, "_uneqlt_Geqlt_u.dat"), (.gtau0D, "_uneqlt_Gtau0_d.dat"),
   (.g0tauD, "_uneqlt_G0tau_d.dat"), (.geqltD, "_uneqlt_Geqlt_d.dat"),
   (.nn, "_uneqlt_nn_corr.dat"), (.zz, "_uneqlt_zz_corr.dat"), (.xx, "_uneqlt_xx_corr.dat"),
   (.scSw, "_uneqlt_sc_c_sw.dat"), (.scDw, "_uneqlt_sc_c_dw.dat"), (.scSx, "_uneqlt_sc_c_sx.dat"),
   (.jx, "_uneqlt_Jcorr_x.dat"), (.jy, "_uneqlt_Jcorr_y.dat"), (.b1g, "_uneqlt_ram_b1g.dat"),
   (.b2g, "_uneqlt_ram_b2g.dat")]

/-- names of the files read by `LoadUnequalTimeMeasurementData` (measurement.c:867-892) -/
def uneqLoadFiles : List (UneqF × String) :=
  [(.gtau0U, "_uneqlt_Gtau0_u.dat"), (.g0tauU, "_uneqlt_G0tau_u.dat"),
   (.geqltU, "_uneqlt_Geqlt_u.dat"), (.gtau0D, "_uneqlt_Gtau0_d.dat"),
   (.g0tauD, "_uneqlt_G0tau_d.dat"), (.geqltD, "_uneqlt_Geqlt_d.dat"),
   (.nn, "_uneqlt_nn_corr.dat"), (.zz, "_uneqlt_zz_corr.dat"), (.xx, "_uneqlt_xx_corr.dat"),
   (.scSw, "_uneqlt_sc_c_sw.dat"), (.scDw, "_uneqlt_sc_c_dw.dat"), (.scSx, "_uneqlt_sc_c_sx.dat"),
   (.jx, "_uneqlt_Jcorr_x.dat"), (.jy, "_uneqlt_Jcorr_y.dat"), (.b1g, "_uneqlt_ram_b1g.dat"),
   (.b2g, "_uneqlt_ram_b2g.dat")]

/-- the writes of `SaveUnequalTimeMeasurementData` (measurement.c:900-928) -/
def uneqWrites (Norb Ncell L : ℕ) (fnbase : String) (m : UneqData) : List Write :=
  [(fnbase ++ "_uneqlt_sign.dat", encDouble m.sign),
   (fnbase ++ "_uneqlt_nsampl.dat", encInt m.nsampl)]
  ++ arrayWrites fnbase uneqSaveFiles (UneqF.size Norb Ncell L) m.arr

/-- `SaveUnequalTimeMeasurementData` (measurement.c:900-928) -/
def saveUneq (Norb Ncell L : ℕ) (f : ℕ → Fault) (fs : FS) (fnbase : String) (m : UneqData) : FS :=
  writeAll f fs (uneqWrites Norb Ncell L fnbase m)

/-- `LoadUnequalTimeMeasurementData` (measurement.c:859-893) -/
noncomputable def loadUneq (Norb Ncell L : ℕ) (F : Float64) (fs : FS) (fnbase : String)
    (old : UneqData) : UneqData where
  sign := loadDouble F fs (fnbase ++ "_uneqlt_sign.dat") old.sign
  nsampl := loadCount F fs (fnbase ++ "_uneqlt_nsampl.dat") old.nsampl
  arr := loadArrays F fs fnbase uneqLoadFiles (UneqF.size Norb Ncell L) old.arr

/-- names of the files with phonon data (measurement.c:1131-1140) -/
def phFiles : List (PhF × String) :=
  [(.xAvg, "_phonon_X_avg.dat"), (.xAvgSq, "_phonon_X_avg_sq.dat"),
   (.xSqAvg, "_phonon_X_sq_avg.dat"), (.vSqAvg, "_phonon_V_sq_avg.dat"), (.ke, "_phonon_KE.dat"),
   (.pe, "_phonon_PE.dat"), (.nX, "_phonon_nX.dat"),
   (.iterXAvg, "_phonon_iteration_X_avg.dat"), (.iterX0, "_phonon_iteration_X0.dat")]

/-- the writes of `SavePhononData` (measurement.c:1123-1145); there is no function that reads these
files -/
def phWrites (Norb : ℕ) (fnbase : String) (m : PhData) (c : MonteCarlo.Counters) : List Write :=
  [(fnbase ++ "_phonon_sign.dat", encDouble m.sign),
   (fnbase ++ "_phonon_nsampl.dat", encInt m.nsampl)]
  ++ arrayWrites fnbase phFiles (PhF.size Norb m.maxNsampl) m.arr
  ++ [(fnbase ++ "_phonon_n_local_accept.dat", encInt c.localAccept),
      (fnbase ++ "_phonon_n_local_total.dat", encInt c.localTotal),
      (fnbase ++ "_phonon_n_block_accept.dat", encInt c.blockAccept),
      (fnbase ++ "_phonon_n_block_total.dat", encInt c.blockTotal)]

/-- `SavePhononData` (measurement.c:1123-1145) -/
def savePh (Norb : ℕ) (f : ℕ → Fault) (fs : FS) (fnbase : String) (m : PhData)
    (c : MonteCarlo.Counters) : FS :=
  writeAll f fs (phWrites Norb fnbase m c)

end Verif.Files
