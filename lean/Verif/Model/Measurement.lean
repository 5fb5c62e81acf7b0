import Verif.Model.MonteCarlo
import Verif.Model.Lattice

/-!
# Model of `src/measurement.c`: accumulation and normalisation

A data structure is a family of arrays of doubles indexed by an enumeration of its fields.  A loop
nest is modelled by the list of its additions `field[index] += value` in program order; since no
accumulator is read except by its own `+=`, the list is computed first and then executed.  Every
array access is checked: `none` is an access outside of the allocated memory.
Sums and differences of many terms in one expression are lists of terms with coefficients.
-/

set_option autoImplicit false

namespace Verif.Measurement

open Matrix Verif.Lapack Verif.TimeFlow Verif.Greens Verif.Mem

/-! ## Memory -/

/-- read an array of `size` integers -/
def rdInt (size : ℤ) (m : ℤ → ℤ) (z : ℤ) : Option ℤ :=
  if 0 ≤ z ∧ z < size then some (m z) else none

/-- read `A[z]` for a square matrix stored column by column -/
def flat {N : ℕ} (A : Mat N) (z : ℤ) : Option ℝ :=
  if h : 0 ≤ z ∧ z < N * N then
    some (A ⟨(z % N).toNat, by
        have hN : (0 : ℤ) < N := by
          rcases Nat.eq_zero_or_pos N with h0 | h0
          · rw [h0] at h; norm_num at h; omega
          · exact_mod_cast h0
        have := Int.emod_lt_of_pos z hN
        have := Int.emod_nonneg z hN.ne'
        omega⟩
      ⟨(z / N).toNat, by
        have hN : (0 : ℤ) < N := by
          rcases Nat.eq_zero_or_pos N with h0 | h0
          · rw [h0] at h; norm_num at h; omega
          · exact_mod_cast h0
        have := Int.ediv_lt_of_lt_mul hN h.2
        have := Int.ediv_nonneg h.1 hN.le
        omega⟩)
  else none

/-- an addition `field[index] += value` -/
abbrev Add (A : Type) := A × ℤ × ℝ

/-- the arrays of a data structure -/
abbrev Arrays (A : Type) := A → ℤ → ℝ

/-- execute one addition -/
def addTo {A : Type} [DecidableEq A] (size : A → ℤ) (m : Arrays A) (w : Add A) : Option (Arrays A) :=
  if 0 ≤ w.2.1 ∧ w.2.1 < size w.1 then
    some (Function.update m w.1 (Function.update (m w.1) w.2.1 (m w.1 w.2.1 + w.2.2)))
  else none

/-- execute additions in order -/
def execute {A : Type} [DecidableEq A] (size : A → ℤ) (m : Arrays A) (ws : List (Add A)) :
    Option (Arrays A) := ws.foldlM (addTo size) m

/-- a C loop `for (i = 0; i < n; i++)` whose body contributes additions -/
def loopM {β : Type} (n : ℕ) (f : ℕ → Option (List β)) : Option (List β) :=
  ((List.range n).mapM f).map List.flatten

/-- a C loop summing up doubles -/
def sumM (n : ℕ) (f : ℕ → Option ℝ) : Option ℝ :=
  (List.range n).foldlM (fun a i => (f i).map (a + ·)) 0

/-- an expression `± f(r,c) ± f(r',c') ...` -/
def sumTerms (ts : List (ℝ × ℤ × ℤ)) (f : ℤ → ℤ → Option ℝ) : Option ℝ :=
  ts.foldlM (fun a t => (f t.2.1 t.2.2).map (a + t.1 * ·)) 0

/-- `cblas_dscal` on all arrays (every call passes the whole length of the array) -/
def scale {A : Type} (size : A → ℤ) (c : ℝ) (m : Arrays A) : Arrays A :=
  fun a i => if 0 ≤ i ∧ i < size a then c * m a i else m a i

/-! ## Lattice maps -/

/-- the maps stored in the measurement data structures -/
structure Maps where
  sum : ℤ → ℤ
  xp1 : ℤ → ℤ
  xm1 : ℤ → ℤ
  yp1 : ℤ → ℤ
  ym1 : ℤ → ℤ

/-- the maps constructed by the allocation functions (measurement.c:120-129, 486-495) -/
def Maps.construct (Nx Ny : ℕ) (pbcShift : ℤ) (junk : ℤ → ℤ) : Maps where
  sum := Lattice.sumMap Nx Ny pbcShift junk
  xp1 := Lattice.xp1Map Nx Ny junk
  xm1 := Lattice.xm1Map Nx Ny junk
  yp1 := Lattice.yp1Map Nx Ny junk
  ym1 := Lattice.ym1Map Nx Ny junk

/-- the four neighbours of a cell -/
structure Nbrs where
  px : ℤ
  mx : ℤ
  py : ℤ
  my : ℤ

/-- read the four neighbour maps (measurement.c:262-265, 273-276, 661-664, 678-681) -/
def Maps.nbrs (mp : Maps) (Ncell : ℕ) (c : ℤ) : Option Nbrs := do
  let px ← rdInt Ncell mp.xp1 c
  let mx ← rdInt Ncell mp.xm1 c
  let py ← rdInt Ncell mp.yp1 c
  let my ← rdInt Ncell mp.ym1 c
  return ⟨px, mx, py, my⟩

/-- d-wave: the 16 combinations with their signs (measurement.c:285-289, 696-700) -/
def dwTerms (i j : Nbrs) : List (ℝ × ℤ × ℤ) :=
  [(1, i.px, j.px), (1, i.px, j.mx), (-1, i.px, j.py), (-1, i.px, j.my),
   (1, i.mx, j.px), (1, i.mx, j.mx), (-1, i.mx, j.py), (-1, i.mx, j.my),
   (-1, i.py, j.px), (-1, i.py, j.mx), (1, i.py, j.py), (1, i.py, j.my),
   (-1, i.my, j.px), (-1, i.my, j.mx), (1, i.my, j.py), (1, i.my, j.my)]

/-- extended s-wave: the 16 combinations without signs (measurement.c:292-296, 703-707) -/
def sxTerms (i j : Nbrs) : List (ℝ × ℤ × ℤ) :=
  [(1, i.px, j.px), (1, i.px, j.mx), (1, i.px, j.py), (1, i.px, j.my),
   (1, i.mx, j.px), (1, i.mx, j.mx), (1, i.mx, j.py), (1, i.mx, j.my),
   (1, i.py, j.px), (1, i.py, j.mx), (1, i.py, j.py), (1, i.py, j.my),
   (1, i.my, j.px), (1, i.my, j.mx), (1, i.my, j.py), (1, i.my, j.my)]

/-! ## Equal time measurements -/

/-- the arrays of `measurement_data_t` (measurement.h:12-34) -/
inductive EqF
  | densityU | densityD | doubleocc | grfunU | grfunD
  | uu | dd | ud | ff | zz | xx | scSw | scDw | scSx
  deriving DecidableEq

/-- allocated lengths (measurement.c:96-118) -/
def EqF.size (Norb Ncell : ℕ) : EqF → ℤ
  | densityU | densityD | doubleocc => Norb
  | grfunU | grfunD => (Ncell * Norb) * (Ncell * Norb)
  | uu | dd | ud | ff | zz | xx => Ncell * Norb * Norb
  | scSw | scDw | scSx => Ncell * Norb

/-- `measurement_data_t` -/
structure EqData where
  arr : Arrays EqF
  sign : ℝ
  nsampl : ℕ

/-- `AllocateMeasurementData` (measurement.c:83-130) -/
def EqData.allocate : EqData := ⟨fun _ _ => 0, 0, 0⟩

section Equal

variable (Norb Ncell : ℕ) (mp : Maps) (u d : ℤ → Option ℝ)

/-- densities and double occupancy (measurement.c:188-204) -/
noncomputable def densityAdds (sf : ℝ) : Option (List (Add EqF)) :=
  loopM Norb fun o => do
    let N : ℤ := Ncell * Norb
    let nu ← sumM Ncell fun i => do
      let io : ℤ := i + Ncell * o
      return 1 - (← u (io + N * io))
    let nd ← sumM Ncell fun i => do
      let io : ℤ := i + Ncell * o
      return 1 - (← d (io + N * io))
    let oc ← sumM Ncell fun i => do
      let io : ℤ := i + Ncell * o
      return (1 - (← u (io + N * io))) * (1 - (← d (io + N * io)))
    return [(.densityU, o, sf * nu), (.densityD, o, sf * nd), (.doubleocc, o, sf * oc)]

/-- `cblas_daxpy` of the Green's functions (measurement.c:207-208) -/
noncomputable def grfunAdds (sign : ℝ) : Option (List (Add EqF)) := do
  let a ← loopM ((Ncell * Norb) * (Ncell * Norb)) fun z => do
    return [(EqF.grfunU, (z : ℤ), sign * (← u z))]
  let b ← loopM ((Ncell * Norb) * (Ncell * Norb)) fun z => do
    return [(EqF.grfunD, (z : ℤ), sign * (← d z))]
  return a ++ b

/-- body of the correlation loops (measurement.c:221-250) -/
noncomputable def corrAdds (sf : ℝ) (o p i k : ℕ) : Option (List (Add EqF)) := do
  let N : ℤ := Ncell * Norb
  let offset : ℤ := Ncell * (o + Norb * p)
  let io : ℤ := i + Ncell * o
  let Gu_ii ← u (io + N * io)
  let Gd_ii ← d (io + N * io)
  let j ← rdInt (Ncell * Ncell) mp.sum (k + Ncell * i)
  let jp : ℤ := j + p * Ncell
  let Gu_jj ← u (jp + N * jp)
  let Gd_jj ← d (jp + N * jp)
  let Gu_ij ← u (io + N * jp)
  let Gd_ij ← d (io + N * jp)
  let Gu_ji ← u (jp + N * io)
  let Gd_ji ← d (jp + N * io)
  return (if k = 0 ∧ o = p then
      [(.uu, k + offset, sf * (1 - Gu_ii)),
       (.dd, k + offset, sf * (1 - Gd_ii)),
       (.ff, k + offset, sf * (Gu_ii * (1 - Gu_ii) + Gd_ii * (1 - Gd_ii))),
       (.zz, k + offset, sf * (Gu_ii - 2 * Gu_ii * Gd_ii + Gd_ii)),
       (.xx, k + offset, sf * (Gu_ii - 2 * Gu_ii * Gd_ii + Gd_ii))]
    else
      [(.uu, k + offset, sf * ((1 - Gu_ii) * (1 - Gu_jj) - Gu_ij * Gu_ji)),
       (.dd, k + offset, sf * ((1 - Gd_ii) * (1 - Gd_jj) - Gd_ij * Gd_ji)),
       (.ff, k + offset, sf * (-(Gu_ij * Gu_ji + Gd_ij * Gd_ji))),
       (.zz, k + offset, sf * ((Gu_ii - Gd_ii) * (Gu_jj - Gd_jj) - (Gu_ij * Gu_ji + Gd_ij * Gd_ji))),
       (.xx, k + offset, sf * (-(Gu_ij * Gd_ji + Gd_ij * Gu_ji)))])
    ++ [(.ud, k + offset, sf * ((1 - Gu_ii) * (1 - Gd_jj) + (1 - Gd_ii) * (1 - Gu_jj)))]

/-- body of the loops for the superconducting susceptibilities (measurement.c:252-298) -/
noncomputable def pairAdds (sf : ℝ) (o i k : ℕ) : Option (List (Add EqF)) := do
  let N : ℤ := Ncell * Norb
  let base : ℤ := Ncell * o + N * (Ncell * o)
  let ni ← mp.nbrs Ncell i
  let j ← rdInt (Ncell * Ncell) mp.sum (k + Ncell * i)
  let nj ← mp.nbrs Ncell j
  let Gu_ij ← u (base + (i + N * j))
  let Gd_ij ← d (base + (i + N * j))
  let dw ← sumTerms (dwTerms ni nj) fun r c => d (base + (r + N * c))
  let sx ← sumTerms (sxTerms ni nj) fun r c => d (base + (r + N * c))
  return [(.scSw, k + Ncell * o, sf * (Gu_ij * Gd_ij)),
    (.scDw, k + Ncell * o, sf * 0.25 * Gu_ij * dw),
    (.scSx, k + Ncell * o, sf * 0.25 * Gu_ij * sx)]

/-- all additions of `AccumulateMeasurement` in program order (measurement.c:188-300) -/
noncomputable def eqAdds (sign : ℝ) : Option (List (Add EqF)) := do
  let sf := sign / Ncell
  let a ← densityAdds Norb Ncell u d sf
  let b ← grfunAdds Norb Ncell u d sign
  let c ← loopM Norb fun o => loopM Norb fun p => loopM Ncell fun i => loopM Ncell fun k =>
    corrAdds Norb Ncell mp u d sf o p i k
  let e ← loopM Norb fun o => loopM Ncell fun i => loopM Ncell fun k =>
    pairAdds Norb Ncell mp u d sf o i k
  return a ++ b ++ c ++ e

end Equal

/-- `AccumulateMeasurement` (measurement.c:170-313) -/
noncomputable def accumulateEq (Norb Ncell : ℕ) (mp : Maps) {N : ℕ} (Gu Gd : GreensFn N)
    (m : EqData) : Option EqData := do
  let sign : ℝ := ((Gu.sgndet * Gd.sgndet : ℤ) : ℝ)
  let ws ← eqAdds Norb Ncell mp (flat Gu.mat) (flat Gd.mat) sign
  let arr ← execute (EqF.size Norb Ncell) m.arr ws
  return { arr := arr, sign := m.sign + sign, nsampl := m.nsampl + 1 }

/-- `NormalizeMeasurementData` (measurement.c:320-349).  In the model `1.0 / 0 = 0`; the C code gets
an infinity. -/
noncomputable def normalizeEq (Norb Ncell : ℕ) (m : EqData) : EqData :=
  let nfac : ℝ := 1.0 / m.nsampl
  { arr := scale (EqF.size Norb Ncell) nfac m.arr, sign := m.sign * nfac, nsampl := m.nsampl }

/-! ## Unequal time measurements -/

/-- the arrays of `measurement_data_unequal_time_t` (measurement.h:72-98) -/
inductive UneqF
  | gtau0U | g0tauU | geqltU | gtau0D | g0tauD | geqltD
  | nn | zz | xx | scSw | scDw | scSx | jx | jy | b1g | b2g
  deriving DecidableEq

/-- allocated lengths (measurement.c:460-484) -/
def UneqF.size (Norb Ncell L : ℕ) : UneqF → ℤ
  | gtau0U | g0tauU | geqltU | gtau0D | g0tauD | geqltD | nn | zz | xx => Ncell * Norb * Norb * L
  | scSw | scDw | scSx | jx | jy | b1g | b2g => Ncell * Norb * L

/-- `measurement_data_unequal_time_t` -/
structure UneqData where
  arr : Arrays UneqF
  sign : ℝ
  nsampl : ℕ

/-- `AllocateUnequalTimeMeasurementData` (measurement.c:445-504) -/
def UneqData.allocate : UneqData := ⟨fun _ _ => 0, 0, 0⟩

/-- the arrays filled by `ComputeUnequalTimeGreensFunction` for one spin -/
structure Cur where
  tau0 : ℤ → Option ℝ
  zerotau : ℤ → Option ℝ
  eqlt : ℤ → Option ℝ

/-- element `(a, b)` of the matrix for time `l`, if these are in range -/
def cube {N : ℕ} (L : ℕ) (A : ℕ → Mat N) (l a b : ℤ) : Option ℝ :=
  if h : (0 ≤ a ∧ a < N) ∧ (0 ≤ b ∧ b < N) ∧ 0 ≤ l ∧ l < L then
    some (A l.toNat ⟨a.toNat, by omega⟩ ⟨b.toNat, by omega⟩)
  else none

/-- the arrays in memory: `Gtau0` is a tall matrix with `N*L` rows (element `(a, b)` at time `l` is at
`a + N*(l + L*b)`), the other two are a sequence of `N × N` matrices (`a + N*(b + N*l)`), see
greens_func.c:263, 278-280, 297-299, 315-317 -/
def Cur.ofMats {N : ℕ} (L : ℕ) (T0 ZT EQ : ℕ → Mat N) : Cur where
  tau0 z := cube L T0 (z / N % L) (z % N) (z / N / L)
  zerotau z := cube L ZT (z / N / N) (z % N) (z / N % N)
  eqlt z := cube L EQ (z / N / N) (z % N) (z / N % N)

section Unequal

variable (Norb Ncell L : ℕ) (mp : Maps) (u d : Cur)

/-- Green's functions for the sites `io` and `jp` (measurement.c:612-617) -/
noncomputable def uneqGreenAdds (sf : ℝ) (l : ℕ) (io jp kz : ℤ) : Option (List (Add UneqF)) := do
  let N : ℤ := Ncell * Norb
  let e_u ← u.eqlt (io + N * (jp + N * l))
  let e_d ← d.eqlt (io + N * (jp + N * l))
  let t_u ← u.tau0 (io + N * (l + L * jp))
  let t_d ← d.tau0 (io + N * (l + L * jp))
  let z_u ← u.zerotau (io + N * (jp + N * l))
  let z_d ← d.zerotau (io + N * (jp + N * l))
  return [(.geqltU, kz, sf * e_u), (.geqltD, kz, sf * e_d), (.gtau0U, kz, sf * t_u),
    (.gtau0D, kz, sf * t_d), (.g0tauU, kz, sf * z_u), (.g0tauD, kz, sf * z_d)]

/-- same lattice site, orbital and time slice (measurement.c:622-624) -/
noncomputable def uneqSameAdds (sf Gtt_u_ii Gtt_d_ii : ℝ) (offset : ℤ) : List (Add UneqF) :=
  [(.nn, 0 + offset, sf * (4 - 3 * (Gtt_u_ii + Gtt_d_ii) + 2 * Gtt_u_ii * Gtt_d_ii)),
   (.zz, 0 + offset, sf * (Gtt_u_ii - 2 * Gtt_u_ii * Gtt_d_ii + Gtt_d_ii)),
   (.xx, 0 + offset, sf * (Gtt_u_ii - 2 * Gtt_u_ii * Gtt_d_ii + Gtt_d_ii))]

/-- general case (measurement.c:628-638) -/
noncomputable def uneqDiffAdds (sf Gtt_u_ii Gtt_d_ii : ℝ) (l : ℕ) (io jp kz : ℤ) :
    Option (List (Add UneqF)) := do
  let N : ℤ := Ncell * Norb
  let G00_u_jj ← u.eqlt (jp + N * jp)
  let G00_d_jj ← d.eqlt (jp + N * jp)
  let Gt0_u_ij ← u.tau0 (io + N * (l + L * jp))
  let Gt0_d_ij ← d.tau0 (io + N * (l + L * jp))
  let G0t_u_ji ← u.zerotau (jp + N * (io + N * l))
  let G0t_d_ji ← d.zerotau (jp + N * (io + N * l))
  return [(.nn, kz, sf * ((2 - Gtt_u_ii - Gtt_d_ii) * (2 - G00_u_jj - G00_d_jj)
        - (Gt0_u_ij * G0t_u_ji + Gt0_d_ij * G0t_d_ji))),
    (.zz, kz, sf * ((Gtt_u_ii - Gtt_d_ii) * (G00_u_jj - G00_d_jj)
        - (Gt0_u_ij * G0t_u_ji + Gt0_d_ij * G0t_d_ji))),
    (.xx, kz, sf * (-(Gt0_u_ij * G0t_d_ji + Gt0_d_ij * G0t_u_ji)))]

/-- body of the correlation loops (measurement.c:596-644) -/
noncomputable def uneqCorrAdds (sf : ℝ) (l o p i k : ℕ) : Option (List (Add UneqF)) := do
  let N : ℤ := Ncell * Norb
  let offset : ℤ := Ncell * (o + Norb * p + Norb * Norb * l)
  let io : ℤ := i + o * Ncell
  let Gtt_u_ii ← u.eqlt (io + N * (io + N * l))
  let Gtt_d_ii ← d.eqlt (io + N * (io + N * l))
  let j ← rdInt (Ncell * Ncell) mp.sum (k + Ncell * i)
  let jp : ℤ := j + Ncell * p
  let g ← uneqGreenAdds Norb Ncell L u d sf l io jp (k + offset)
  let c ← if k = 0 ∧ o = p ∧ l = 0 then some (uneqSameAdds sf Gtt_u_ii Gtt_d_ii offset)
    else uneqDiffAdds Norb Ncell L u d sf Gtt_u_ii Gtt_d_ii l io jp (k + offset)
  return g ++ c

/-- base pointers of the Green's functions for one orbital and time (measurement.c:649-662) -/
structure Base where
  t0 : ℤ → ℤ → Option ℝ
  zt : ℤ → ℤ → Option ℝ
  g00 : ℤ → ℤ → Option ℝ
  gtt : ℤ → ℤ → Option ℝ

/-- read through the base pointers (measurement.c:649-662) -/
def Cur.base (c : Cur) (l o : ℕ) : Base :=
  let N : ℤ := Ncell * Norb
  { t0 := fun a b => c.tau0 ((Ncell * o + N * (l + L * (Ncell * o))) + (a + N * L * b))
    zt := fun a b => c.zerotau ((Ncell * o + N * (Ncell * o + N * l)) + (a + N * b))
    g00 := fun a b => c.eqlt ((Ncell * o + N * (Ncell * o)) + (a + N * b))
    gtt := fun a b => c.eqlt ((Ncell * o + N * (Ncell * o + N * l)) + (a + N * b)) }

/-- `(l == 0 && a == b ? 1 : 0)` -/
def deltaTau (l : ℕ) (a b : ℤ) : ℝ := if l = 0 ∧ a = b then 1 else 0

/-- current correlation for a direction in which the neighbours of `i` and `j` are `ip` and `jp`
(measurement.c:718-726 for x, 729-737 for y) -/
noncomputable def currentTerm (bu bd : Base) (l : ℕ) (i ip j jp : ℤ) : Option ℝ := do
  let delta_i_j := deltaTau l i j
  let delta_i_jp := deltaTau l i jp
  let delta_ip_j := deltaTau l ip j
  return -((← bu.gtt ip i) - (← bu.gtt i ip) + (← bd.gtt ip i) - (← bd.gtt i ip))
        * ((← bu.g00 jp j) - (← bu.g00 j jp) + (← bd.g00 jp j) - (← bd.g00 j jp))
    + ((← bu.t0 ip jp) * (delta_i_j - (← bu.zt j i)) + (← bd.t0 ip jp) * (delta_i_j - (← bd.zt j i)))
    - ((← bu.t0 ip j) * (delta_i_jp - (← bu.zt jp i)) + (← bd.t0 ip j) * (delta_i_jp - (← bd.zt jp i)))
    - ((← bu.t0 i jp) * (delta_ip_j - (← bu.zt j ip)) + (← bd.t0 i jp) * (delta_ip_j - (← bd.zt j ip)))
    + ((← bu.t0 i j) * (delta_i_j - (← bu.zt jp ip)) + (← bd.t0 i j) * (delta_i_j - (← bd.zt jp ip)))

/-- one of the 16 terms of a Raman correlation function (measurement.c:747-765, 775-793) -/
noncomputable def ramanTerm (bu bd : Base) (l : ℕ) (i j ia jb : ℤ) : Option ℝ := do
  return ((← bu.gtt i ia) + (← bd.gtt i ia)) * ((← bu.g00 j jb) + (← bd.g00 j jb))
    - (← bu.t0 i jb) * ((← bu.zt j ia) - deltaTau l j ia)
    - (← bd.t0 i jb) * ((← bd.zt j ia) - deltaTau l j ia)

/-- signs of the B1g terms (measurement.c:747-765) -/
def b1gTerms (i j : Nbrs) : List (ℝ × ℤ × ℤ) :=
  [(1, i.px, j.px), (1, i.px, j.mx), (-1, i.px, j.py), (-1, i.px, j.my),
   (1, i.mx, j.px), (1, i.mx, j.mx), (-1, i.mx, j.py), (-1, i.mx, j.my),
   (-1, i.py, j.px), (-1, i.py, j.mx), (1, i.py, j.py), (1, i.py, j.my),
   (-1, i.my, j.px), (-1, i.my, j.mx), (1, i.my, j.py), (1, i.my, j.my)]

/-- the four next-nearest neighbours -/
structure Diag where
  pxpy : ℤ
  pxmy : ℤ
  mxpy : ℤ
  mxmy : ℤ

/-- read the next-nearest neighbours (measurement.c:667-670, 684-687) -/
def Maps.diag (mp : Maps) (n : Nbrs) : Option Diag := do
  let a ← rdInt Ncell mp.yp1 n.px
  let b ← rdInt Ncell mp.ym1 n.px
  let c ← rdInt Ncell mp.yp1 n.mx
  let e ← rdInt Ncell mp.ym1 n.mx
  return ⟨a, b, c, e⟩

/-- signs of the B2g terms (measurement.c:775-793) -/
def b2gTerms (i j : Diag) : List (ℝ × ℤ × ℤ) :=
  [(1, i.pxpy, j.pxpy), (-1, i.pxpy, j.mxpy), (-1, i.pxpy, j.pxmy), (1, i.pxpy, j.mxmy),
   (-1, i.mxpy, j.pxpy), (1, i.mxpy, j.mxpy), (1, i.mxpy, j.pxmy), (-1, i.mxpy, j.mxmy),
   (-1, i.pxmy, j.pxpy), (1, i.pxmy, j.mxpy), (1, i.pxmy, j.pxmy), (-1, i.pxmy, j.mxmy),
   (1, i.mxmy, j.pxpy), (-1, i.mxmy, j.mxpy), (-1, i.mxmy, j.pxmy), (1, i.mxmy, j.mxmy)]

/-- body of the second loop nest (measurement.c:646-797) -/
noncomputable def uneqPairAdds (sf : ℝ) (l o i k : ℕ) : Option (List (Add UneqF)) := do
  let N : ℤ := Ncell * Norb
  let bu := u.base Norb Ncell L l o
  let bd := d.base Norb Ncell L l o
  let offset : ℤ := Ncell * o + N * l
  let ni ← mp.nbrs Ncell i
  let di ← mp.diag Ncell ni
  let j ← rdInt (Ncell * Ncell) mp.sum (k + Ncell * i)
  let nj ← mp.nbrs Ncell j
  let dj ← mp.diag Ncell nj
  let Gt0_u_ij ← bu.t0 i j
  let Gt0_d_ij ← bd.t0 i j
  let dw ← sumTerms (dwTerms ni nj) bd.t0
  let sx ← sumTerms (sxTerms ni nj) bd.t0
  let jx ← currentTerm bu bd l i ni.px j nj.px
  let jy ← currentTerm bu bd l i ni.py j nj.py
  let b1 ← sumTerms (b1gTerms ni nj) (ramanTerm bu bd l i j)
  let b2 ← sumTerms (b2gTerms di dj) (ramanTerm bu bd l i j)
  return [(.scSw, k + offset, sf * (Gt0_u_ij * Gt0_d_ij)),
    (.scDw, k + offset, sf * 0.25 * Gt0_u_ij * dw),
    (.scSx, k + offset, sf * 0.25 * Gt0_u_ij * sx),
    (.jx, k + offset, sf * jx), (.jy, k + offset, sf * jy),
    (.b1g, k + offset, sf * 0.0625 * b1), (.b2g, k + offset, sf * 0.0625 * b2)]

/-- all additions of `AccumulateUnequalTimeMeasurement` in program order (measurement.c:588-798) -/
noncomputable def uneqAdds (sign : ℝ) : Option (List (Add UneqF)) :=
  let sf := sign / Ncell
  loopM L fun l => loopM Norb fun o => do
    let a ← loopM Norb fun p => loopM Ncell fun i => loopM Ncell fun k =>
      uneqCorrAdds Norb Ncell L mp u d sf l o p i k
    let b ← loopM Ncell fun i => loopM Ncell fun k =>
      uneqPairAdds Norb Ncell L mp u d sf l o i k
    return a ++ b

end Unequal

/-- `AccumulateUnequalTimeMeasurement` (measurement.c:550-811), after the computation of the Green's
functions -/
noncomputable def accumulateUneq (Norb Ncell L : ℕ) (mp : Maps) (sign : ℝ) (u d : Cur)
    (m : UneqData) : Option UneqData := do
  let ws ← uneqAdds Norb Ncell L mp u d sign
  let arr ← execute (UneqF.size Norb Ncell L) m.arr ws
  return { arr := arr, sign := m.sign + sign, nsampl := m.nsampl + 1 }

/-- `NormalizeUnequalTimeMeasurementData` (measurement.c:818-852) -/
noncomputable def normalizeUneq (Norb Ncell L : ℕ) (m : UneqData) : UneqData :=
  let nfac : ℝ := 1.0 / m.nsampl
  { arr := scale (UneqF.size Norb Ncell L) nfac m.arr, sign := m.sign * nfac, nsampl := m.nsampl }

/-! ## Phonon measurements -/

/-- the arrays of `measurement_data_phonon_t` (measurement.h:140-152) -/
inductive PhF
  | xAvg | xAvgSq | xSqAvg | vAvg | vSqAvg | pe | ke | nX | iterXAvg | iterX0
  deriving DecidableEq

/-- allocated lengths (measurement.c:949-959) -/
def PhF.size (Norb maxNsampl : ℕ) : PhF → ℤ
  | xAvg | xAvgSq | xSqAvg | vAvg | vSqAvg | pe | ke | nX => Norb
  | iterXAvg | iterX0 => Norb * maxNsampl

/-- `measurement_data_phonon_t` without the acceptance counters (these are in `State.cnt`) -/
structure PhData where
  arr : Arrays PhF
  sign : ℝ
  nsampl : ℕ
  maxNsampl : ℕ

/-- `AllocatePhononData` (measurement.c:935-966) -/
def PhData.allocate (maxNsampl : ℕ) : PhData := ⟨fun _ _ => 0, 0, 0, maxNsampl⟩

section Phonon

variable (Norb Ncell L : ℕ) (u d : ℤ → Option ℝ) (X : ℤ → Option ℝ) (dt : ℝ) (omega : ℕ → ℝ)

/-- main loop of `AccumulatePhononData` for one time slice and orbital (measurement.c:1014-1030),
without `cur_X_avg` -/
noncomputable def phSliceAdds (sign : ℝ) (nsampl l o : ℕ) : Option (List (Add PhF)) := do
  let N : ℤ := Ncell * Norb
  let sf := sign / Ncell / L
  let lplus : ℕ := (l + 1) % L
  let a : List (Add PhF) ← loopM Ncell fun i => do
    let x ← X (i + o * Ncell + l * N)
    let y ← X (i + o * Ncell + lplus * N)
    return [(.xSqAvg, o, sf * x ^ 2),
      (.iterXAvg, o + nsampl * Norb, sf * x),
      (.vAvg, o, sf / dt * (y - x)),
      (.vSqAvg, o, sf / (dt * dt) * (y - x) ^ 2),
      (.pe, o, 0.5 * omega o ^ 2 * sf * x ^ 2),
      (.ke, o, -(0.5 / (dt * dt) * sf * (y - x) ^ 2))]
  let x0 ← X (o * Ncell + l * N)
  return a ++ [(PhF.iterX0, ((o + nsampl * Norb : ℕ) : ℤ), sign / L * x0)]

/-- final value of `cur_X_avg[o]` (measurement.c:1013-1021) -/
noncomputable def curXAvg (sign : ℝ) (o : ℕ) : Option ℝ :=
  sumM L fun l => sumM Ncell fun i => do
    let N : ℤ := Ncell * Norb
    return sign / Ncell / L * (← X (i + o * Ncell + l * N))

/-- second loop (measurement.c:1032-1037); the constant of the kinetic energy is added to `KE[0]` -/
noncomputable def phOrbAdds (sign : ℝ) (o : ℕ) : Option (List (Add PhF)) := do
  let c ← curXAvg Norb Ncell L X sign o
  return [(.xAvg, o, c), (.xAvgSq, o, c ^ 2), (.ke, 0, sign * 0.5 / dt)]

/-- third loop (measurement.c:1040-1054) -/
noncomputable def phNXAdds (sign : ℝ) (lGreen o : ℕ) : Option (List (Add PhF)) := do
  let N : ℤ := Ncell * Norb
  let s ← sumM Ncell fun i => do
    let io : ℤ := i + Ncell * o
    let nu := 1 - (← u (io + N * io))
    let nd := 1 - (← d (io + N * io))
    return (nu + nd) * (← X (i + o * Ncell + lGreen * N))
  return [(.nX, o, s * (sign / Ncell))]

/-- all additions of `AccumulatePhononData` (measurement.c:1013-1054) -/
noncomputable def phAdds (sign : ℝ) (nsampl lGreen : ℕ) : Option (List (Add PhF)) := do
  let a ← loopM L fun l => loopM Norb fun o => phSliceAdds Norb Ncell L X dt omega sign nsampl l o
  let b ← loopM Norb fun o => phOrbAdds Norb Ncell L X dt sign o
  let c ← loopM Norb fun o => phNXAdds Norb Ncell u d X sign lGreen o
  return a ++ b ++ c

end Phonon

/-- read `X[z]` of the phonon field stored slice by slice, `L` slices of `N` sites -/
def flatX {N : ℕ} (L : ℕ) (X : ℕ → Fin N → ℝ) (z : ℤ) : Option ℝ :=
  if h : 0 ≤ z ∧ z < N * L then
    some (X (z / N).toNat ⟨(z % N).toNat, by
      have hN : (0 : ℤ) < N := by
        rcases Nat.eq_zero_or_pos N with h0 | h0
        · rw [h0] at h; norm_num at h; omega
        · exact_mod_cast h0
      have := Int.emod_lt_of_pos z hN
      have := Int.emod_nonneg z hN.ne'
      omega⟩)
  else none

/-- `AccumulatePhononData` (measurement.c:992-1061) -/
noncomputable def accumulatePh (Norb Ncell L : ℕ) (dt : ℝ) (omega : ℕ → ℝ) {N : ℕ}
    (Gu Gd : GreensFn N) (lGreen : ℕ) (X : ℕ → Fin N → ℝ) (m : PhData) : Option PhData := do
  let sign : ℝ := ((Gu.sgndet * Gd.sgndet : ℤ) : ℝ)
  let ws ← phAdds Norb Ncell L (flat Gu.mat) (flat Gd.mat) (flatX L X) dt omega sign m.nsampl lGreen
  let arr ← execute (PhF.size Norb m.maxNsampl) m.arr ws
  return { m with arr := arr, sign := m.sign + sign, nsampl := m.nsampl + 1 }

/-- `NormalizePhononData` (measurement.c:1068-1088): `iteration_X_avg` and `iteration_X0` are not
scaled -/
noncomputable def normalizePh (Norb : ℕ) (m : PhData) : PhData :=
  let nfac : ℝ := 1.0 / m.nsampl
  { m with
    arr := fun a => match a with
      | .iterXAvg => m.arr .iterXAvg
      | .iterX0 => m.arr .iterX0
      | a => scale (PhF.size Norb m.maxNsampl) nfac m.arr a
    sign := m.sign * nfac }

end Verif.Measurement
