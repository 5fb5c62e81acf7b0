import Verif.Model.Files

/-!
# Model of `src/measurement_full.c`

This file replaces `src/measurement.c` for lattices without translational symmetry (see its comment,
lines 1-7): data are stored for every site or pair of sites instead of being averaged over
translations.  It uses the same data structures (`measurement.h`); arrays which it does not allocate
have length 0 here.  `pbc_shift` is not used and there is no coordinate sum map.  As in the model of
`measurement.c`, a loop nest is the list of its additions in program order.
-/

set_option autoImplicit false

namespace Verif.Measurement.Full

open Matrix Verif.Lapack Verif.TimeFlow Verif.Greens Verif.Mem Verif.Files

/-- the neighbour maps (measurement_full.c:23-46, 93-98, 414-419); `latt_sum_map` is not allocated -/
def maps (Nx Ny : ℕ) (junk : ℤ → ℤ) : Maps where
  sum := junk
  xp1 := Lattice.xp1Map Nx Ny junk
  xm1 := Lattice.xm1Map Nx Ny junk
  yp1 := Lattice.yp1Map Nx Ny junk
  ym1 := Lattice.ym1Map Nx Ny junk

/-! ## Equal time measurements -/

/-- allocated lengths (measurement_full.c:69-91) -/
def eqSize (Norb Ncell : ℕ) : EqF → ℤ
  | .densityU | .densityD | .doubleocc => Ncell * Norb
  | .grfunU | .grfunD => (Ncell * Norb) * (Ncell * Norb)
  | .uu | .dd | .ud | .ff | .zz | .xx => (Ncell * Norb) * (Ncell * Norb)
  | .scSw | .scDw | .scSx => Ncell * Ncell * Norb

section Equal

variable (Norb Ncell : ℕ) (mp : Maps) (u d : ℤ → Option ℝ)

/-- densities and double occupancy (measurement_full.c:149-154) -/
noncomputable def densityAdds (sign : ℝ) (i : ℕ) : Option (List (Add EqF)) := do
  let N : ℤ := Ncell * Norb
  let Gu_ii ← u (i + N * i)
  let Gd_ii ← d (i + N * i)
  return [(.densityU, i, sign * (1 - Gu_ii)), (.densityD, i, sign * (1 - Gd_ii)),
    (.doubleocc, i, sign * (1 - Gu_ii) * (1 - Gd_ii))]

/-- `cblas_daxpy` of the Green's functions (measurement_full.c:157-158) -/
noncomputable def grfunAdds (sign : ℝ) : Option (List (Add EqF)) := do
  let a ← loopM ((Ncell * Norb) * (Ncell * Norb)) fun z => do
    return [(EqF.grfunU, (z : ℤ), sign * (← u z))]
  let b ← loopM ((Ncell * Norb) * (Ncell * Norb)) fun z => do
    return [(EqF.grfunD, (z : ℤ), sign * (← d z))]
  return a ++ b

/-- body of the correlation loops (measurement_full.c:162-195) -/
noncomputable def corrAdds (sign : ℝ) (i j : ℕ) : Option (List (Add EqF)) := do
  let N : ℤ := Ncell * Norb
  let Gu_ii ← u (i + N * i)
  let Gd_ii ← d (i + N * i)
  let Gu_jj ← u (j + N * j)
  let Gd_jj ← d (j + N * j)
  let Gu_ij ← u (i + N * j)
  let Gd_ij ← d (i + N * j)
  let Gu_ji ← u (j + N * i)
  let Gd_ji ← d (j + N * i)
  return (if i = j then
      [(.uu, i + N * j, sign * (1 - Gu_ii)),
       (.dd, i + N * j, sign * (1 - Gd_ii)),
       (.ff, i + N * j, sign * (Gu_ii * (1 - Gu_ii) + Gd_ii * (1 - Gd_ii))),
       (.zz, i + N * j, sign * (Gu_ii - 2 * Gu_ii * Gd_ii + Gd_ii)),
       (.xx, i + N * j, sign * (Gu_ii - 2 * Gu_ii * Gd_ii + Gd_ii))]
    else
      [(.uu, i + N * j, sign * ((1 - Gu_ii) * (1 - Gu_jj) - Gu_ij * Gu_ji)),
       (.dd, i + N * j, sign * ((1 - Gd_ii) * (1 - Gd_jj) - Gd_ij * Gd_ji)),
       (.ff, i + N * j, sign * (-(Gu_ij * Gu_ji + Gd_ij * Gd_ji))),
       (.zz, i + N * j,
          sign * ((Gu_ii - Gd_ii) * (Gu_jj - Gd_jj) - (Gu_ij * Gu_ji + Gd_ij * Gd_ji))),
       (.xx, i + N * j, sign * (-(Gu_ij * Gd_ji + Gd_ij * Gu_ji)))])
    ++ [(.ud, i + N * j, sign * ((1 - Gu_ii) * (1 - Gd_jj) + (1 - Gd_ii) * (1 - Gu_jj)))]

/-- body of the loops for the superconducting susceptibilities (measurement_full.c:199-243); the 16
combinations of neighbours are those of measurement.c -/
noncomputable def pairAdds (sign : ℝ) (o i j : ℕ) : Option (List (Add EqF)) := do
  let N : ℤ := Ncell * Norb
  let base : ℤ := Ncell * o + N * (Ncell * o)
  let ni ← mp.nbrs Ncell i
  let nj ← mp.nbrs Ncell j
  let Gu_ij ← u (base + (i + N * j))
  let Gd_ij ← d (base + (i + N * j))
  let dw ← sumTerms (dwTerms ni nj) fun r c => d (base + (r + N * c))
  let sx ← sumTerms (sxTerms ni nj) fun r c => d (base + (r + N * c))
  return [(.scSw, i + Ncell * j + Ncell * Ncell * o, sign * (Gu_ij * Gd_ij)),
    (.scDw, i + Ncell * j + Ncell * Ncell * o, sign * 0.25 * Gu_ij * dw),
    (.scSx, i + Ncell * j + Ncell * Ncell * o, sign * 0.25 * Gu_ij * sx)]

/-- all additions of `AccumulateMeasurement` in program order (measurement_full.c:149-243) -/
noncomputable def eqAdds (sign : ℝ) : Option (List (Add EqF)) := do
  let a ← loopM (Ncell * Norb) fun i => densityAdds Norb Ncell u d sign i
  let b ← grfunAdds Norb Ncell u d sign
  let c ← loopM (Ncell * Norb) fun i => loopM (Ncell * Norb) fun j =>
    corrAdds Norb Ncell u d sign i j
  let e ← loopM Norb fun o => loopM Ncell fun i => loopM Ncell fun j =>
    pairAdds Norb Ncell mp u d sign o i j
  return a ++ b ++ c ++ e

end Equal

/-- `AccumulateMeasurement` (measurement_full.c:136-250) -/
noncomputable def accumulateEq (Norb Ncell : ℕ) (mp : Maps) {N : ℕ} (Gu Gd : GreensFn N)
    (m : EqData) : Option EqData := do
  let sign : ℝ := ((Gu.sgndet * Gd.sgndet : ℤ) : ℝ)
  let ws ← eqAdds Norb Ncell mp (flat Gu.mat) (flat Gd.mat) sign
  let arr ← execute (eqSize Norb Ncell) m.arr ws
  return { arr := arr, sign := m.sign + sign, nsampl := m.nsampl + 1 }

/-- `NormalizeMeasurementData` (measurement_full.c:258-289) -/
noncomputable def normalizeEq (Norb Ncell : ℕ) (m : EqData) : EqData :=
  let nfac : ℝ := 1.0 / m.nsampl
  { arr := scale (eqSize Norb Ncell) nfac m.arr, sign := m.sign * nfac, nsampl := m.nsampl }

/-- the total density printed by `PrintMeasurementDataSummary` (measurement_full.c:301-308) -/
noncomputable def summaryDensity (Norb Ncell : ℕ) (m : EqData) : ℝ :=
  (∑ i ∈ Finset.range (Norb * Ncell), (m.arr .densityU i + m.arr .densityD i)) / Ncell

/-- the same number as printed by `PrintMeasurementDataSummary` of measurement.c (363-369) -/
noncomputable def summaryDensityAvg (Norb : ℕ) (m : EqData) : ℝ :=
  (∑ o ∈ Finset.range Norb, (m.arr .densityU o + m.arr .densityD o)) / m.sign

/-- the writes of `SaveMeasurementData` (measurement_full.c:346-368); the names of the files are those
of measurement.c -/
def eqWrites (Norb Ncell : ℕ) (fnbase : String) (m : EqData) : List Write :=
  [(fnbase ++ "_eqlt_sign.dat", encDouble m.sign),
   (fnbase ++ "_eqlt_nsampl.dat", encInt m.nsampl)]
  ++ arrayWrites fnbase eqSaveFiles (eqSize Norb Ncell) m.arr

/-- `LoadMeasurementData` (measurement_full.c:316-338) -/
noncomputable def loadEq (Norb Ncell : ℕ) (F : Float64) (fs : FS) (fnbase : String) (old : EqData) :
    EqData where
  sign := loadDouble F fs (fnbase ++ "_eqlt_sign.dat") old.sign
  nsampl := loadCount F fs (fnbase ++ "_eqlt_nsampl.dat") old.nsampl
  arr := loadArrays F fs fnbase eqLoadFiles (eqSize Norb Ncell) old.arr

/-! ## Unequal time measurements -/

/-- allocated lengths (measurement_full.c:395-412); `Jcorr_x` and `Jcorr_y` are not allocated -/
def uneqSize (Norb Ncell L : ℕ) : UneqF → ℤ
  | .gtau0U | .gtau0D => (Ncell * Norb) * L * (Ncell * Norb)
  | .g0tauU | .g0tauD | .geqltU | .geqltD => (Ncell * Norb) * (Ncell * Norb) * L
  | .nn | .zz | .xx => (Ncell * Norb) * (Ncell * Norb) * L
  | .scSw | .scDw | .scSx | .b1g | .b2g => Ncell * Ncell * Norb * L
  | .jx | .jy => 0

section Unequal

variable (Norb Ncell L : ℕ) (mp : Maps) (u d : Cur)

/-- the calls of `cblas_daxpy` for one spin (measurement_full.c:497-499 and 504-506); both spins are
treated by concurrent sections, which write to different arrays -/
noncomputable def greenAdds (c : Cur) (tau0 zerotau eqlt : UneqF) (sign : ℝ) :
    Option (List (Add UneqF)) := do
  let a ← loopM ((Ncell * Norb) * L * (Ncell * Norb)) fun z => do
    return [(tau0, (z : ℤ), sign * (← c.tau0 z))]
  let b ← loopM ((Ncell * Norb) * (Ncell * Norb) * L) fun z => do
    return [(zerotau, (z : ℤ), sign * (← c.zerotau z))]
  let e ← loopM ((Ncell * Norb) * (Ncell * Norb) * L) fun z => do
    return [(eqlt, (z : ℤ), sign * (← c.eqlt z))]
  return a ++ b ++ e

/-- same site and time slice (measurement_full.c:523-528) -/
noncomputable def uneqSameAdds (sign Gtt_u_ii Gtt_d_ii : ℝ) (i j : ℕ) : List (Add UneqF) :=
  let N : ℤ := Ncell * Norb
  [(.nn, i + N * j, sign * (4 - 3 * (Gtt_u_ii + Gtt_d_ii) + 2 * Gtt_u_ii * Gtt_d_ii)),
   (.zz, i + N * j, sign * (Gtt_u_ii - 2 * Gtt_u_ii * Gtt_d_ii + Gtt_d_ii)),
   (.xx, i + N * j, sign * (Gtt_u_ii - 2 * Gtt_u_ii * Gtt_d_ii + Gtt_d_ii))]

/-- general case (measurement_full.c:530-542) -/
noncomputable def uneqDiffAdds (sign Gtt_u_ii Gtt_d_ii : ℝ) (l i j : ℕ) :
    Option (List (Add UneqF)) := do
  let N : ℤ := Ncell * Norb
  let G00_u_jj ← u.eqlt (j + N * j)
  let G00_d_jj ← d.eqlt (j + N * j)
  let Gt0_u_ij ← u.tau0 (i + N * (l + L * j))
  let Gt0_d_ij ← d.tau0 (i + N * (l + L * j))
  let G0t_u_ji ← u.zerotau (j + N * (i + N * l))
  let G0t_d_ji ← d.zerotau (j + N * (i + N * l))
  return [(.nn, i + N * j + N * N * l,
        sign * ((2 - Gtt_u_ii - Gtt_d_ii) * (2 - G00_u_jj - G00_d_jj)
          - (Gt0_u_ij * G0t_u_ji + Gt0_d_ij * G0t_d_ji))),
    (.zz, i + N * j + N * N * l, sign * ((Gtt_u_ii - Gtt_d_ii) * (G00_u_jj - G00_d_jj)
        - (Gt0_u_ij * G0t_u_ji + Gt0_d_ij * G0t_d_ji))),
    (.xx, i + N * j + N * N * l, sign * (-(Gt0_u_ij * G0t_d_ji + Gt0_d_ij * G0t_u_ji)))]

/-- body of the correlation loops (measurement_full.c:514-544) -/
noncomputable def uneqCorrAdds (sign : ℝ) (l i j : ℕ) : Option (List (Add UneqF)) := do
  let N : ℤ := Ncell * Norb
  let Gtt_u_ii ← u.eqlt (i + N * (i + N * l))
  let Gtt_d_ii ← d.eqlt (i + N * (i + N * l))
  if i = j ∧ l = 0 then some (uneqSameAdds Norb Ncell sign Gtt_u_ii Gtt_d_ii i j)
    else uneqDiffAdds Norb Ncell L u d sign Gtt_u_ii Gtt_d_ii l i j

/-- body of the second loop nest (measurement_full.c:550-672); base pointers, neighbours and the terms
of the sums are those of measurement.c, current correlations are missing -/
noncomputable def uneqPairAdds (sign : ℝ) (l o i j : ℕ) : Option (List (Add UneqF)) := do
  let bu := u.base Norb Ncell L l o
  let bd := d.base Norb Ncell L l o
  let offset : ℤ := Ncell * Ncell * (o + Norb * l)
  let ni ← mp.nbrs Ncell i
  let di ← mp.diag Ncell ni
  let nj ← mp.nbrs Ncell j
  let dj ← mp.diag Ncell nj
  let Gt0_u_ij ← bu.t0 i j
  let Gt0_d_ij ← bd.t0 i j
  let dw ← sumTerms (dwTerms ni nj) bd.t0
  let sx ← sumTerms (sxTerms ni nj) bd.t0
  let b1 ← sumTerms (b1gTerms ni nj) (ramanTerm bu bd l i j)
  let b2 ← sumTerms (b2gTerms di dj) (ramanTerm bu bd l i j)
  return [(.scSw, i + Ncell * j + offset, sign * (Gt0_u_ij * Gt0_d_ij)),
    (.scDw, i + Ncell * j + offset, sign * 0.25 * Gt0_u_ij * dw),
    (.scSx, i + Ncell * j + offset, sign * 0.25 * Gt0_u_ij * sx),
    (.b1g, i + Ncell * j + offset, sign * 0.0625 * b1),
    (.b2g, i + Ncell * j + offset, sign * 0.0625 * b2)]

/-- all additions of `AccumulateUnequalTimeMeasurement` (measurement_full.c:491-674) -/
noncomputable def uneqAdds (sign : ℝ) : Option (List (Add UneqF)) := do
  let gu ← greenAdds Norb Ncell L u .gtau0U .g0tauU .geqltU sign
  let gd ← greenAdds Norb Ncell L d .gtau0D .g0tauD .geqltD sign
  let r ← loopM L fun l => do
    let a ← loopM (Ncell * Norb) fun i => loopM (Ncell * Norb) fun j =>
      uneqCorrAdds Norb Ncell L u d sign l i j
    let b ← loopM Norb fun o => loopM Ncell fun i => loopM Ncell fun j =>
      uneqPairAdds Norb Ncell L mp u d sign l o i j
    return a ++ b
  return gu ++ gd ++ r

end Unequal

/-- `AccumulateUnequalTimeMeasurement` (measurement_full.c:471-690), after the computation of the
Green's functions -/
noncomputable def accumulateUneq (Norb Ncell L : ℕ) (mp : Maps) (sign : ℝ) (u d : Cur)
    (m : UneqData) : Option UneqData := do
  let ws ← uneqAdds Norb Ncell L mp u d sign
  let arr ← execute (uneqSize Norb Ncell L) m.arr ws
  return { arr := arr, sign := m.sign + sign, nsampl := m.nsampl + 1 }

/-- `NormalizeUnequalTimeMeasurementData` (measurement_full.c:698-731) -/
noncomputable def normalizeUneq (Norb Ncell L : ℕ) (m : UneqData) : UneqData :=
  let nfac : ℝ := 1.0 / m.nsampl
  { arr := scale (uneqSize Norb Ncell L) nfac m.arr, sign := m.sign * nfac, nsampl := m.nsampl }

/-- names of the files read and written (measurement_full.c:747-765 and 782-800) -/
def uneqFiles : List (UneqF × String) :=
  [(.gtau0U, "_uneqlt_Gtau0_u.dat"), (.g0tauU, "_uneqlt_G0tau_u.dat"),
   (.geqltU, "_uneqlt_Geqlt_u.dat"), (.gtau0D, "_uneqlt_Gtau0_d.dat"),
   (.g0tauD, "_uneqlt_G0tau_d.dat"), (.geqltD, "_uneqlt_Geqlt_d.dat"),
   (.nn, "_uneqlt_nn_corr.dat"), (.zz, "_uneqlt_zz_corr.dat"), (.xx, "_uneqlt_xx_corr.dat"),
   (.scSw, "_uneqlt_sc_c_sw.dat"), (.scDw, "_uneqlt_sc_c_dw.dat"), (.scSx, "_uneqlt_sc_c_sx.dat"),
   (.b1g, "_uneqlt_ram_b1g.dat"), (.b2g, "_uneqlt_ram_b2g.dat")]

/-- the writes of `SaveUnequalTimeMeasurementData` (measurement_full.c:772-801) -/
def uneqWrites (Norb Ncell L : ℕ) (fnbase : String) (m : UneqData) : List Write :=
  [(fnbase ++ "_uneqlt_sign.dat", encDouble m.sign),
   (fnbase ++ "_uneqlt_nsampl.dat", encInt m.nsampl)]
  ++ arrayWrites fnbase uneqFiles (uneqSize Norb Ncell L) m.arr

/-- `LoadUnequalTimeMeasurementData` (measurement_full.c:737-766) -/
noncomputable def loadUneq (Norb Ncell L : ℕ) (F : Float64) (fs : FS) (fnbase : String)
    (old : UneqData) : UneqData where
  sign := loadDouble F fs (fnbase ++ "_uneqlt_sign.dat") old.sign
  nsampl := loadCount F fs (fnbase ++ "_uneqlt_nsampl.dat") old.nsampl
  arr := loadArrays F fs fnbase uneqFiles (uneqSize Norb Ncell L) old.arr

/-! ## Phonon measurements -/

/-- allocated lengths (measurement_full.c:822-825); the other arrays are not allocated -/
def phSize (Norb maxNsampl : ℕ) : PhF → ℤ
  | .xAvg | .xSqAvg => Norb
  | .iterXAvg | .iterX0 => Norb * maxNsampl
  | _ => 0

/-- body of the loops of `AccumulatePhononData` for one time slice and orbital
(measurement_full.c:866-876) -/
noncomputable def phAdds (Norb Ncell L : ℕ) (X : ℤ → Option ℝ) (sign : ℝ) (nsampl l o : ℕ) :
    Option (List (Add PhF)) := do
  let N : ℤ := Ncell * Norb
  let sf := sign / Ncell / L
  let a : List (Add PhF) ← loopM Ncell fun i => do
    let x ← X (i + o * Ncell + l * N)
    return [(.xAvg, o, sf * x), (.xSqAvg, o, sf * x ^ 2), (.iterXAvg, o + nsampl * Norb, sf * x)]
  let x0 ← X (o * Ncell + l * N)
  return a ++ [(PhF.iterX0, ((o + nsampl * Norb : ℕ) : ℤ), sign / L * x0)]

/-- `AccumulatePhononData` (measurement_full.c:846-884) -/
noncomputable def accumulatePh (Norb Ncell L : ℕ) {N : ℕ} (Gu Gd : GreensFn N)
    (X : ℕ → Fin N → ℝ) (m : PhData) : Option PhData := do
  let sign : ℝ := ((Gu.sgndet * Gd.sgndet : ℤ) : ℝ)
  let ws ← loopM L fun l => loopM Norb fun o => phAdds Norb Ncell L (flatX L X) sign m.nsampl l o
  let arr ← execute (phSize Norb m.maxNsampl) m.arr ws
  return { m with arr := arr, sign := m.sign + sign, nsampl := m.nsampl + 1 }

/-- `NormalizePhononData` (measurement_full.c:890-904) -/
noncomputable def normalizePh (Norb : ℕ) (m : PhData) : PhData :=
  let nfac : ℝ := 1.0 / m.nsampl
  { m with
    arr := fun a => match a with
      | .xAvg => scale (phSize Norb m.maxNsampl) nfac m.arr .xAvg
      | .xSqAvg => scale (phSize Norb m.maxNsampl) nfac m.arr .xSqAvg
      | a => m.arr a
    sign := m.sign * nfac }

/-- names of the files of `SavePhononData` (measurement_full.c:938-941) -/
def phFiles : List (PhF × String) :=
  [(.iterXAvg, "_phonon_iteration_X_avg.dat"), (.iterX0, "_phonon_iteration_X0.dat"),
   (.xAvg, "_phonon_X_avg.dat"), (.xSqAvg, "_phonon_X_sq_avg.dat")]

/-- the writes of `SavePhononData` (measurement_full.c:930-942); the acceptance counters are neither
initialised (807-826) nor saved -/
def phWrites (Norb : ℕ) (fnbase : String) (m : PhData) : List Write :=
  [(fnbase ++ "_phonon_sign.dat", encDouble m.sign),
   (fnbase ++ "_phonon_nsampl.dat", encInt m.nsampl)]
  ++ arrayWrites fnbase phFiles (phSize Norb m.maxNsampl) m.arr

end Verif.Measurement.Full
