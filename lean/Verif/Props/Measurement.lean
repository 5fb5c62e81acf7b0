import Verif.Lemmas.MeasureEq
import Verif.Props.Lattice
import Mathlib.Tactic.FieldSimp

/-! # Properties C41, C42, C43, C61: equal time measurements -/

set_option autoImplicit false

namespace Verif.Measurement

open Matrix Verif.Lapack Verif.TimeFlow Verif.Greens Verif.Mem Verif.Lattice

/-! ## Specification

Fermion operators are labelled by a site and a spin.  Expectation values of products of four
operators in the state of one sample are given by Wick's theorem in terms of the expectation values
of pairs.  Here Wick's theorem is the definition of these expectation values. -/

/-- site and spin (`true` is up) -/
abbrev Mode (N : ℕ) := Fin N × Bool

/-- the expectation values of pairs; the first operator is at time `τ`, the second at time 0, where
both times may be equal -/
structure Pairs (N : ℕ) where
  /-- `⟨c†_a(τ) c_b(τ)⟩` -/
  dens : Mode N → Mode N → ℝ
  /-- `⟨c†_a(0) c_b(0)⟩` -/
  dens0 : Mode N → Mode N → ℝ
  /-- `⟨c†_a(τ) c_b(0)⟩` -/
  lesser : Mode N → Mode N → ℝ
  /-- `⟨c_a(τ) c†_b(0)⟩` -/
  greater : Mode N → Mode N → ℝ

variable {N : ℕ}

/-- the Green's function `⟨c_a c†_b⟩` of both spins; different spins are not correlated -/
def spinG (U D : Mat N) (a b : Mode N) : ℝ :=
  if a.2 = b.2 then (if a.2 then U a.1 b.1 else D a.1 b.1) else 0

/-- pairs at equal times: `c†_a c_b = δ_ab - c_b c†_a` -/
def equalTime (U D : Mat N) : Pairs N where
  dens a b := (if a = b then 1 else 0) - spinG U D b a
  dens0 a b := (if a = b then 1 else 0) - spinG U D b a
  lesser a b := (if a = b then 1 else 0) - spinG U D b a
  greater a b := spinG U D a b

/-- Wick's theorem: `⟨c†_a(τ) c_b(τ) c†_c(0) c_d(0)⟩` -/
def Pairs.four (P : Pairs N) (a b c d : Mode N) : ℝ :=
  P.dens a b * P.dens0 c d + P.lesser a d * P.greater b c

/-- a one-body operator `Σ r c†_a c_b` -/
abbrev OneBody (N : ℕ) := List (ℝ × Mode N × Mode N)

/-- `⟨A(τ) B(0)⟩` -/
def Pairs.corr (P : Pairs N) (A B : OneBody N) : ℝ :=
  (A.map fun x => (B.map fun y => x.1 * y.1 * P.four x.2.1 x.2.2 y.2.1 y.2.2).sum).sum

/-- `⟨A⟩` -/
def Pairs.mean (P : Pairs N) (A : OneBody N) : ℝ := (A.map fun x => x.1 * P.dens x.2.1 x.2.2).sum

/-- a pair operator `Σ r c_a c_b` -/
abbrev PairOp (N : ℕ) := List (ℝ × Mode N × Mode N)

/-- `⟨A(τ) B†(0)⟩`, where Wick's theorem gives
`⟨c_a c_b (c_c c_d)†⟩ = ⟨c_a c†_c⟩⟨c_b c†_d⟩ - ⟨c_a c†_d⟩⟨c_b c†_c⟩` -/
def Pairs.pairCorr (P : Pairs N) (A B : PairOp N) : ℝ :=
  (A.map fun x => (B.map fun y => x.1 * y.1 *
    (P.greater x.2.1 y.2.1 * P.greater x.2.2 y.2.2
      - P.greater x.2.1 y.2.2 * P.greater x.2.2 y.2.1)).sum).sum

/-- number operator of a site and spin -/
def nOp (sp : Bool) (a : Fin N) : OneBody N := [(1, (a, sp), (a, sp))]

/-- `n_up - n_down` -/
def zOp (a : Fin N) : OneBody N := [(1, (a, true), (a, true)), (-1, (a, false), (a, false))]

/-- `c†_down c_up + c†_up c_down` -/
def xOp (a : Fin N) : OneBody N := [(1, (a, false), (a, true)), (1, (a, true), (a, false))]

/-- density-density and spin-spin correlations of the sites `a` and `b`, see the comments in
measurement.h:20-28; `ff` is the sum over the spins of the connected density correlations -/
def corrSpec (P : Pairs N) (a b : Fin N) : EqF → ℝ
  | .uu => P.corr (nOp true a) (nOp true b)
  | .dd => P.corr (nOp false a) (nOp false b)
  | .ud => P.corr (nOp true a) (nOp false b) + P.corr (nOp false a) (nOp true b)
  | .ff => (P.corr (nOp true a) (nOp true b) - P.mean (nOp true a) * P.mean (nOp true b))
      + (P.corr (nOp false a) (nOp false b) - P.mean (nOp false a) * P.mean (nOp false b))
  | .zz => P.corr (zOp a) (zOp b)
  | .xx => P.corr (xOp a) (xOp b)
  | _ => 0

/-- densities and double occupancy of a site -/
def densSpec (P : Pairs N) (a : Fin N) : EqF → ℝ
  | .densityU => P.mean (nOp true a)
  | .densityD => P.mean (nOp false a)
  | .doubleocc => P.corr (nOp true a) (nOp false a)
  | _ => 0

/-- the cell reached from cell number `c` by a step `(ex, ey)` on the lattice whose boundary
condition in y is twisted by `t` -/
def moveCell (Nx Ny : ℕ) (t : ℤ) (c : ℕ) (ex ey : ℤ) : ℕ :=
  (cellOf Nx Ny t ((c % Nx : ℕ) + ex) ((c / Nx : ℕ) + ey)).toNat

/-- form factors: steps with coefficients -/
abbrev Form := List (ℝ × ℤ × ℤ)

def dWave : Form := [(1, 1, 0), (1, -1, 0), (-1, 0, 1), (-1, 0, -1)]
def extS : Form := [(1, 1, 0), (1, -1, 0), (1, 0, 1), (1, 0, -1)]

/-- pair operator of a cell and orbital: `½ Σ_e f(e) c_{c,up} c_{c+e,down}` -/
noncomputable def pairOp [NeZero N] (Nx Ny : ℕ) (t : ℤ) (f : Form) (o c : ℕ) : PairOp N :=
  f.map fun e => (e.1 / 2, (siteN N (Nx * Ny) o c, true),
    (siteN N (Nx * Ny) o (moveCell Nx Ny t c e.2.1 e.2.2), false))

/-- s-wave pairs on one site -/
def onsitePair [NeZero N] (Nx Ny : ℕ) (o c : ℕ) : PairOp N :=
  [(1, (siteN N (Nx * Ny) o c, true), (siteN N (Nx * Ny) o c, false))]

/-- pairing correlations of the cells `c` and `c'` for one orbital -/
noncomputable def pairSpec [NeZero N] (P : Pairs N) (Nx Ny : ℕ) (t : ℤ) (o c c' : ℕ) : EqF → ℝ
  | .scSw => P.pairCorr (onsitePair Nx Ny o c) (onsitePair Nx Ny o c')
  | .scDw => P.pairCorr (pairOp Nx Ny t dWave o c) (pairOp Nx Ny t dWave o c')
  | .scSx => P.pairCorr (pairOp Nx Ny t extS o c) (pairOp Nx Ny t extS o c')
  | _ => 0

/-- average over all cells -/
noncomputable def cellAvg (Ncell : ℕ) (f : ℕ → ℝ) : ℝ := (∑ c ∈ Finset.range Ncell, f c) / Ncell

/-! ## The lattice maps -/

section
variable {Nx Ny : ℕ} (hx : 0 < Nx) (hy : 0 < Ny)
include hx hy

theorem moveCell_lt (t : ℤ) (c : ℕ) (ex ey : ℤ) : moveCell Nx Ny t c ex ey < Nx * Ny := by
  have h1 := cellOf_nonneg Nx Ny hx hy t ((c % Nx : ℕ) + ex) ((c / Nx : ℕ) + ey)
  have h2 := cellOf_lt Nx Ny hx hy t ((c % Nx : ℕ) + ex) ((c / Nx : ℕ) + ey)
  unfold moveCell
  omega

theorem moveCell_cast (t : ℤ) (c : ℕ) (ex ey : ℤ) :
    (moveCell Nx Ny t c ex ey : ℤ) = cellOf Nx Ny t ((c % Nx : ℕ) + ex) ((c / Nx : ℕ) + ey) := by
  have h1 := cellOf_nonneg Nx Ny hx hy t ((c % Nx : ℕ) + ex) ((c / Nx : ℕ) + ey)
  unfold moveCell
  omega

omit hy in
theorem cell_coords (t : ℤ) {c : ℕ} (hc : c < Nx * Ny) :
    (c : ℤ) = cellOf Nx Ny t (c % Nx : ℕ) (c / Nx : ℕ) := by
  have h1 : c % Nx < Nx := Nat.mod_lt _ hx
  have h2 : c / Nx < Ny := Nat.div_lt_of_lt_mul hc
  rw [cellOf_self Nx Ny t _ _ (by positivity) (by omega) (by positivity) (by omega)]
  have := Nat.mod_add_div c Nx
  exact_mod_cast this.symm

theorem construct_good (s : ℤ) (hs : 0 ≤ s) (junk : ℤ → ℤ) :
    (Maps.construct Nx Ny s junk).Good (Nx * Ny) := by
  have hn := fun (c : ℕ) (hc : c < Nx * Ny) => nnMaps_inverse Nx Ny hx junk c
    ⟨by omega, by exact_mod_cast hc⟩
  refine ⟨?_, ?_, ?_, ?_, ?_⟩
  · intro k i hk hi
    exact (sumMap_group Nx Ny hx hy s hs junk).1 k i ⟨by omega, by exact_mod_cast hk⟩
      ⟨by omega, by exact_mod_cast hi⟩
  · exact fun c hc => (hn c hc).2.2.2.2.1
  · exact fun c hc => (hn c hc).2.2.2.2.2.1
  · exact fun c hc => (hn c hc).2.2.2.2.2.2.1
  · exact fun c hc => (hn c hc).2.2.2.2.2.2.2

/-- the coordinate sum map moves by the offset -/
theorem construct_add (s : ℤ) (hs : 0 ≤ s) (junk : ℤ → ℤ) (k : ℕ) (dx dy : ℤ)
    (hk : (k : ℤ) = cellOf Nx Ny s dx dy) {c : ℕ} (hc : c < Nx * Ny) :
    (Maps.construct Nx Ny s junk).add (Nx * Ny) k c = moveCell Nx Ny s c dx dy := by
  unfold Maps.add moveCell Maps.construct
  simp only
  rw [hk, cell_coords hx s hc]
  rw [show ((Nx * Ny : ℕ) : ℤ) = (Nx * Ny : ℕ) from rfl, sumMap_cellOf Nx Ny hx hy s hs junk,
    add_comm dx, add_comm dy]

/-- the nearest-neighbour maps move on the lattice without twist -/
theorem construct_nbrs (s : ℤ) (junk : ℤ → ℤ) {c : ℕ} (hc : c < Nx * Ny) :
    (Maps.construct Nx Ny s junk).nbrsN c = ⟨moveCell Nx Ny 0 c 1 0, moveCell Nx Ny 0 c (-1) 0,
      moveCell Nx Ny 0 c 0 1, moveCell Nx Ny 0 c 0 (-1)⟩ := by
  have h1 : c % Nx < Nx := Nat.mod_lt _ hx
  have h2 : c / Nx < Ny := Nat.div_lt_of_lt_mul hc
  have hX := xMaps_geometric Nx Ny 0 junk (c % Nx : ℕ) (c / Nx : ℕ) (by positivity) (by omega)
    (by positivity) (by omega)
  have hY := (yMaps_geometric_partial Nx Ny hx hy 0 junk).2 ⟨0, by ring⟩ (c % Nx : ℕ) (c / Nx : ℕ)
    (by positivity) (by omega) (by positivity) (by omega)
  rw [← cell_coords hx 0 hc] at hX hY
  unfold Maps.nbrsN Maps.construct moveCell
  simp only [hX.1, hX.2, hY.1, hY.2, add_zero, sub_eq_add_neg]

/-- an offset leads back to the same cell exactly if it is the offset 0 -/
theorem moveCell_eq_self (s : ℤ) (hs : 0 ≤ s) (k : ℕ) (dx dy : ℤ)
    (hk : (k : ℤ) = cellOf Nx Ny s dx dy) {c : ℕ} (hc : c < Nx * Ny) :
    moveCell Nx Ny s c dx dy = c ↔ k = 0 := by
  have hkc : IsCell Nx Ny (k : ℤ) := by
    rw [hk]
    exact ⟨cellOf_nonneg Nx Ny hx hy s dx dy, cellOf_lt Nx Ny hx hy s dx dy⟩
  have h := sumMap_fixed Nx Ny hx hy s hs (fun _ => 0) k c hkc
    ⟨by omega, by exact_mod_cast hc⟩
  have e : cellAdd Nx Ny s (fun _ => 0) k c = (moveCell Nx Ny s c dx dy : ℤ) := by
    rw [moveCell_cast hx hy, hk]
    conv_lhs => rw [cell_coords hx s hc]
    rw [sumMap_is_addition Nx Ny hx hy s hs, add_comm dx, add_comm dy]
  rw [e] at h
  constructor
  · intro h'
    exact_mod_cast h.1 (by exact_mod_cast h')
  · intro h'
    exact_mod_cast h.2 (by exact_mod_cast h')

end

/-! ## C41 -/

theorem siteN_inj {Norb Ncell o p i j : ℕ} [NeZero N] (hN : N = Ncell * Norb) (ho : o < Norb)
    (hi : i < Ncell) (hp : p < Norb) (hj : j < Ncell) :
    siteN N Ncell o i = siteN N Ncell p j ↔ i = j ∧ o = p := by
  rw [Fin.ext_iff, siteN_val hN ho hi, siteN_val hN hp hj]
  have := mixed_inj (n := Ncell) (b := o) (b' := p) hi hj
  rw [← this]
  norm_cast

/-- the formulas of the code are Wick contractions -/
theorem corrVal_eq (U D : Mat N) (same : Prop) [Decidable same] (a b : Fin N) (h : same ↔ a = b)
    (f : EqF) (hf : f ∈ corrFields) :
    corrVal U D same a b f = corrSpec (equalTime U D) a b f := by
  by_cases hab : a = b
  · have hs : same := h.2 hab
    subst hab
    fin_cases hf <;>
    simp [corrVal, corrSpec, hs, Pairs.corr, Pairs.four, Pairs.mean, equalTime, spinG, nOp, zOp,
      xOp] <;> ring
  · have hs : ¬ same := fun hs => hab (h.1 hs)
    fin_cases hf <;>
    simp [corrVal, corrSpec, hs, Pairs.corr, Pairs.four, Pairs.mean, equalTime, spinG, nOp, zOp,
      xOp, hab] <;> ring

theorem densVal_eq (U D : Mat N) (a : Fin N) (f : EqF) (hf : f ∈ densFields) :
    densVal U D a f = densSpec (equalTime U D) a f := by
  fin_cases hf <;>
  simp [densVal, densSpec, Pairs.corr, Pairs.four, Pairs.mean, equalTime, spinG, nOp]

theorem pairVal_eq [NeZero N] (Nx Ny : ℕ) (U D : Mat N) (o i j : ℕ) (f : EqF) (hf : f ∈ pairFields)
    (nb : ℕ → NbrsN) (hi : nb i = ⟨moveCell Nx Ny 0 i 1 0, moveCell Nx Ny 0 i (-1) 0,
      moveCell Nx Ny 0 i 0 1, moveCell Nx Ny 0 i 0 (-1)⟩)
    (hj : nb j = ⟨moveCell Nx Ny 0 j 1 0, moveCell Nx Ny 0 j (-1) 0,
      moveCell Nx Ny 0 j 0 1, moveCell Nx Ny 0 j 0 (-1)⟩) :
    pairVal (fun a b => U (siteN N (Nx * Ny) o a) (siteN N (Nx * Ny) o b))
        (fun a b => D (siteN N (Nx * Ny) o a) (siteN N (Nx * Ny) o b)) i j (nb i).toNbrs
        (nb j).toNbrs f = pairSpec (equalTime U D) Nx Ny 0 o i j f := by
  rw [hi, hj]
  have h4 : (0.25 : ℝ) = 1 / 4 := by norm_num
  fin_cases hf
  · simp [pairVal, pairSpec, onsitePair, Pairs.pairCorr, equalTime, spinG]
  · simp [pairVal, pairSpec, pairOp, dWave, Pairs.pairCorr, equalTime, spinG, nbrSum, dwTerms,
      NbrsN.toNbrs, h4]
    ring
  · simp [pairVal, pairSpec, pairOp, extS, Pairs.pairCorr, equalTime, spinG, nbrSum, sxTerms,
      NbrsN.toNbrs, h4]
    ring

/-- The equal time estimates of one sample: averages over all cells of the Wick contractions for
the Green's functions `U` and `D`.  Offsets are measured on the lattice with its twisted boundary
condition `s`, the pair operators use the neighbours with respect to the twist `t`. -/
structure Estimates [NeZero N] (Nx Ny Norb : ℕ) (s t : ℤ) (U D : Mat N) (e : EqF → ℤ → ℝ) :
    Prop where
  /-- densities and double occupancy of every orbital -/
  dens : ∀ f ∈ [EqF.densityU, .densityD, .doubleocc], ∀ o : ℕ, o < Norb →
    e f o = cellAvg (Nx * Ny) fun c => densSpec (equalTime U D) (siteN N (Nx * Ny) o c) f
  /-- correlations for every pair of orbitals and every offset `(dx, dy)` -/
  corr : ∀ f ∈ [EqF.uu, .dd, .ff, .zz, .xx, .ud], ∀ o p : ℕ, o < Norb → p < Norb → ∀ dx dy : ℤ,
    e f (cellOf Nx Ny s dx dy + (Nx * Ny : ℕ) * (o + Norb * p)) = cellAvg (Nx * Ny) fun c =>
      corrSpec (equalTime U D) (siteN N (Nx * Ny) o c)
        (siteN N (Nx * Ny) p (moveCell Nx Ny s c dx dy)) f
  /-- pairing correlations for every orbital and offset -/
  pair : ∀ f ∈ [EqF.scSw, .scDw, .scSx], ∀ o : ℕ, o < Norb → ∀ dx dy : ℤ,
    e f (cellOf Nx Ny s dx dy + (Nx * Ny : ℕ) * o) = cellAvg (Nx * Ny) fun c =>
      pairSpec (equalTime U D) Nx Ny t o c (moveCell Nx Ny s c dx dy) f
  /-- the Green's functions themselves -/
  grfunU : ∀ a b : Fin N, e .grfunU (a.val + N * b.val) = U a b
  grfunD : ∀ a b : Fin N, e .grfunD (a.val + N * b.val) = D a b

theorem sgn_mul_avg (s : ℝ) (n : ℕ) (f : ℕ → ℝ) :
    (∑ i ∈ Finset.range n, s / n * f i) = s * cellAvg n f := by
  unfold cellAvg
  rw [← Finset.mul_sum]
  ring

/-- **C41.** One call of `AccumulateMeasurement` adds to every entry the sign times the estimate,
the sign itself, and counts the sample.  (For `pbc_shift ≠ 0` the neighbours in the pair operators
are those of the lattice without shift, see C14.) -/
theorem accumulateEq_estimates [NeZero N] {Nx Ny Norb : ℕ} (hx : 0 < Nx) (hy : 0 < Ny)
    (hN : N = Nx * Ny * Norb) (s : ℤ) (hs : 0 ≤ s) (junk : ℤ → ℤ) (Gu Gd : GreensFn N)
    (hu : Gu.sgndet = 1 ∨ Gu.sgndet = -1) (hd : Gd.sgndet = 1 ∨ Gd.sgndet = -1) :
    ∃ e, Estimates Nx Ny Norb s 0 Gu.mat Gd.mat e ∧
      ∀ m : EqData, accumulateEq Norb (Nx * Ny) (Maps.construct Nx Ny s junk) Gu Gd m = some
        { arr := fun f z => m.arr f z + ((Gu.sgndet * Gd.sgndet : ℤ) : ℝ) * e f z
          sign := m.sign + ((Gu.sgndet * Gd.sgndet : ℤ) : ℝ)
          nsampl := m.nsampl + 1 } := by
  obtain ⟨c, hc, hm⟩ := accumulateEq_contrib hN (construct_good hx hy s hs junk) Gu Gd
  set g : ℝ := ((Gu.sgndet * Gd.sgndet : ℤ) : ℝ) with hg
  have hg2 : g * g = 1 := by
    rcases hu with h | h <;> rcases hd with h' | h' <;> simp [hg, h, h']
  have hgm : ∀ r : ℝ, g * (g * r) = r := fun r => by rw [← mul_assoc, hg2, one_mul]
  have cell : ∀ dx dy : ℤ, ∃ k : ℕ, k < Nx * Ny ∧ (k : ℤ) = cellOf Nx Ny s dx dy := by
    intro dx dy
    have h1 := cellOf_nonneg Nx Ny hx hy s dx dy
    have h2 := cellOf_lt Nx Ny hx hy s dx dy
    exact ⟨(cellOf Nx Ny s dx dy).toNat, by omega, by omega⟩
  refine ⟨fun f z => g * c f z, ⟨?_, ?_, ?_, ?_, ?_⟩, fun m => ?_⟩
  · intro f hf o ho
    rw [hc.dens f hf o ho]
    rw [show g / ((Nx * Ny : ℕ) : ℝ) * (∑ i ∈ Finset.range (Nx * Ny),
      densVal Gu.mat Gd.mat (siteN N (Nx * Ny) o i) f) = g * cellAvg (Nx * Ny)
        (fun i => densVal Gu.mat Gd.mat (siteN N (Nx * Ny) o i) f) by unfold cellAvg; ring, hgm]
    congr 1
    funext i
    exact densVal_eq _ _ _ f hf
  · intro f hf o p ho hp dx dy
    obtain ⟨k, hk, hk'⟩ := cell dx dy
    rw [← hk', hc.corr f hf o p k ho hp hk, sgn_mul_avg, hgm]
    refine congrArg (· / _) (Finset.sum_congr rfl fun i hi => ?_)
    have hi := Finset.mem_range.1 hi
    beta_reduce
    rw [construct_add hx hy s hs junk k dx dy hk' hi]
    refine corrVal_eq _ _ _ _ _ ?_ f hf
    rw [siteN_inj hN ho hi hp (moveCell_lt hx hy s i dx dy), eq_comm (a := i),
      moveCell_eq_self hx hy s hs k dx dy hk' hi]
  · intro f hf o ho dx dy
    obtain ⟨k, hk, hk'⟩ := cell dx dy
    rw [← hk', hc.pair f hf o k ho hk, sgn_mul_avg, hgm]
    refine congrArg (· / _) (Finset.sum_congr rfl fun i hi => ?_)
    have hi := Finset.mem_range.1 hi
    beta_reduce
    rw [construct_add hx hy s hs junk k dx dy hk' hi]
    exact pairVal_eq Nx Ny Gu.mat Gd.mat o i _ f hf _ (construct_nbrs hx hy s junk hi)
      (construct_nbrs hx hy s junk (moveCell_lt hx hy s i dx dy))
  · intro a b
    rw [hc.grfunU, hgm]
  · intro a b
    rw [hc.grfunD, hgm]
  · rw [hm m]
    simp only [hgm]

/-- without shift (or if the shift is a multiple of `Nx`) all steps are taken on the same lattice -/
theorem moveCell_untwisted {Nx Ny : ℕ} (hx : 0 < Nx) (s : ℤ) (h : (Nx : ℤ) ∣ s)
    (c : ℕ) (ex ey : ℤ) : moveCell Nx Ny 0 c ex ey = moveCell Nx Ny s c ex ey := by
  unfold moveCell
  congr 1
  have hx' : (0 : ℤ) < Nx := by exact_mod_cast hx
  obtain ⟨q, rfl⟩ := h
  unfold cellOf
  congr 1
  simp only [zero_mul, add_zero, mul_assoc, Int.add_mul_emod_self_left]

/-- **C41** for lattices on which the neighbour maps are the geometric ones. -/
theorem accumulateEq_estimates_untwisted [NeZero N] {Nx Ny Norb : ℕ} (hx : 0 < Nx) (hy : 0 < Ny)
    (hN : N = Nx * Ny * Norb) (s : ℤ) (hs : 0 ≤ s) (hd : (Nx : ℤ) ∣ s) (junk : ℤ → ℤ)
    (Gu Gd : GreensFn N) (hu : Gu.sgndet = 1 ∨ Gu.sgndet = -1)
    (hd' : Gd.sgndet = 1 ∨ Gd.sgndet = -1) :
    ∃ e, Estimates Nx Ny Norb s s Gu.mat Gd.mat e ∧
      ∀ m : EqData, accumulateEq Norb (Nx * Ny) (Maps.construct Nx Ny s junk) Gu Gd m = some
        { arr := fun f z => m.arr f z + ((Gu.sgndet * Gd.sgndet : ℤ) : ℝ) * e f z
          sign := m.sign + ((Gu.sgndet * Gd.sgndet : ℤ) : ℝ)
          nsampl := m.nsampl + 1 } := by
  obtain ⟨e, he, h⟩ := accumulateEq_estimates hx hy hN s hs junk Gu Gd hu hd'
  refine ⟨e, ⟨he.dens, he.corr, ?_, he.grfunU, he.grfunD⟩, h⟩
  intro f hf o ho dx dy
  rw [he.pair f hf o ho dx dy]
  refine congrArg (cellAvg _) (funext fun c => ?_)
  have : ∀ g : Form, pairOp (N := N) Nx Ny 0 g o = pairOp Nx Ny s g o := by
    intro g
    funext c
    unfold pairOp
    simp only [moveCell_untwisted hx s hd]
  unfold pairSpec
  simp only [this]

/-! ## C42 -/

/-- the estimates are determined by the Green's functions at every index inside the arrays -/
theorem Estimates.unique [NeZero N] {Nx Ny Norb : ℕ} (hx : 0 < Nx) (hy : 0 < Ny)
    (hN : N = Nx * Ny * Norb) {s t : ℤ} {U D : Mat N} {e e' : EqF → ℤ → ℝ}
    (h : Estimates Nx Ny Norb s t U D e) (h' : Estimates Nx Ny Norb s t U D e') (f : EqF) (z : ℤ)
    (hz : 0 ≤ z) (hz' : z < EqF.size Norb (Nx * Ny) f) : e f z = e' f z := by
  have hc : 0 < Nx * Ny := Nat.mul_pos hx hy
  obtain ⟨z, rfl⟩ := Int.eq_ofNat_of_zero_le hz
  have split : ∀ {m : ℕ}, z < Nx * Ny * m → ∃ dx dy : ℤ, ∃ b : ℕ, b < m ∧
      (z : ℤ) = cellOf Nx Ny s dx dy + (Nx * Ny : ℕ) * b := by
    intro m hm
    refine ⟨((z % (Nx * Ny)) % Nx : ℕ), ((z % (Nx * Ny)) / Nx : ℕ), z / (Nx * Ny),
      Nat.div_lt_of_lt_mul hm, ?_⟩
    rw [← cell_coords hx s (Nat.mod_lt _ hc)]
    exact_mod_cast (Nat.mod_add_div z (Nx * Ny)).symm
  have c1 : f ∈ [EqF.uu, .dd, .ff, .zz, .xx, .ud] → e f z = e' f z := by
    intro hf
    have hsz : EqF.size Norb (Nx * Ny) f = ((Nx * Ny * (Norb * Norb) : ℕ) : ℤ) := by
      fin_cases hf <;> simp [EqF.size, mul_assoc]
    rw [hsz] at hz'
    obtain ⟨dx, dy, b, hb, e1⟩ := split (Nat.cast_lt.1 hz')
    have hn : 0 < Norb := by
      rcases Nat.eq_zero_or_pos Norb with h0 | h0
      · simp [h0] at hb
      · exact h0
    have e2 : (b : ℤ) = ((b % Norb : ℕ) : ℤ) + Norb * ((b / Norb : ℕ) : ℤ) := by
      exact_mod_cast (Nat.mod_add_div b Norb).symm
    rw [e1, e2]
    rw [h.corr f hf _ _ (Nat.mod_lt _ hn) (Nat.div_lt_of_lt_mul hb),
      h'.corr f hf _ _ (Nat.mod_lt _ hn) (Nat.div_lt_of_lt_mul hb)]
  have c2 : f ∈ [EqF.scSw, .scDw, .scSx] → e f z = e' f z := by
    intro hf
    have hsz : EqF.size Norb (Nx * Ny) f = ((Nx * Ny * Norb : ℕ) : ℤ) := by
      fin_cases hf <;> simp [EqF.size]
    rw [hsz] at hz'
    obtain ⟨dx, dy, b, hb, e1⟩ := split (Nat.cast_lt.1 hz')
    rw [e1, h.pair f hf b hb, h'.pair f hf b hb]
  have c3 : f ∈ [EqF.densityU, .densityD, .doubleocc] → e f z = e' f z := by
    intro hf
    have hsz : EqF.size Norb (Nx * Ny) f = (Norb : ℤ) := by
      fin_cases hf <;> simp [EqF.size]
    rw [hsz] at hz'
    rw [h.dens f hf z (by exact_mod_cast hz'), h'.dens f hf z (by exact_mod_cast hz')]
  have c4 : (f = .grfunU ∨ f = .grfunD) → e f z = e' f z := by
    intro hf
    have hsz : EqF.size Norb (Nx * Ny) f = ((N * N : ℕ) : ℤ) := by
      rw [hN]
      rcases hf with rfl | rfl <;> simp [EqF.size]
    rw [hsz] at hz'
    have hz'' : z < N * N := Nat.cast_lt.1 hz'
    have e2 : (z : ℤ) = ((z % N : ℕ) : ℤ) + N * ((z / N : ℕ) : ℤ) := by
      exact_mod_cast (Nat.mod_add_div z N).symm
    have q1 := h.grfunU ⟨z % N, Nat.mod_lt _ (NeZero.pos N)⟩ ⟨z / N, Nat.div_lt_of_lt_mul hz''⟩
    have q2 := h.grfunD ⟨z % N, Nat.mod_lt _ (NeZero.pos N)⟩ ⟨z / N, Nat.div_lt_of_lt_mul hz''⟩
    have q1' := h'.grfunU ⟨z % N, Nat.mod_lt _ (NeZero.pos N)⟩ ⟨z / N, Nat.div_lt_of_lt_mul hz''⟩
    have q2' := h'.grfunD ⟨z % N, Nat.mod_lt _ (NeZero.pos N)⟩ ⟨z / N, Nat.div_lt_of_lt_mul hz''⟩
    simp only at q1 q2 q1' q2'
    rw [← e2] at q1 q2 q1' q2'
    rcases hf with rfl | rfl
    · rw [q1, q1']
    · rw [q2, q2']
  cases f <;> first
    | exact c1 (by decide)
    | exact c2 (by decide)
    | exact c3 (by decide)
    | exact c4 (by decide)

/-- the sum rules of C42, stated for a family of arrays -/
structure SumRules (Nx Ny Norb : ℕ) (s : ℤ) (a : EqF → ℤ → ℝ) : Prop where
  /-- `⟨s^z s^z⟩ = ⟨n_u n_u⟩ + ⟨n_d n_d⟩ - (⟨n_u n_d⟩ + ⟨n_d n_u⟩)` -/
  spin : ∀ (o p : ℕ), o < Norb → p < Norb → ∀ dx dy : ℤ,
    let z : ℤ := cellOf Nx Ny s dx dy + (Nx * Ny : ℕ) * (o + Norb * p)
    a .zz z = a .uu z + a .dd z - a .ud z
  /-- on one site `n² = n` -/
  onsiteU : ∀ o : ℕ, o < Norb →
    a .uu (cellOf Nx Ny s 0 0 + (Nx * Ny : ℕ) * (o + Norb * o)) = a .densityU o
  onsiteD : ∀ o : ℕ, o < Norb →
    a .dd (cellOf Nx Ny s 0 0 + (Nx * Ny : ℕ) * (o + Norb * o)) = a .densityD o
  onsiteUD : ∀ o : ℕ, o < Norb →
    a .ud (cellOf Nx Ny s 0 0 + (Nx * Ny : ℕ) * (o + Norb * o)) = 2 * a .doubleocc o
  /-- spin rotation symmetry of the operators on one site: `(s^x)² = (s^z)²` -/
  onsiteXX : ∀ o : ℕ, o < Norb →
    a .xx (cellOf Nx Ny s 0 0 + (Nx * Ny : ℕ) * (o + Norb * o))
      = a .zz (cellOf Nx Ny s 0 0 + (Nx * Ny : ℕ) * (o + Norb * o))

theorem cellAvg_add (n : ℕ) (f g : ℕ → ℝ) :
    cellAvg n (fun c => f c + g c) = cellAvg n f + cellAvg n g := by
  unfold cellAvg
  rw [Finset.sum_add_distrib, add_div]

theorem cellAvg_sub (n : ℕ) (f g : ℕ → ℝ) :
    cellAvg n (fun c => f c - g c) = cellAvg n f - cellAvg n g := by
  unfold cellAvg
  rw [Finset.sum_sub_distrib, sub_div]

theorem cellAvg_congr {n : ℕ} {f g : ℕ → ℝ} (h : ∀ c < n, f c = g c) :
    cellAvg n f = cellAvg n g := by
  unfold cellAvg
  rw [Finset.sum_congr rfl fun c hc => h c (Finset.mem_range.1 hc)]

theorem cellAvg_mul (n : ℕ) (r : ℝ) (f : ℕ → ℝ) :
    cellAvg n (fun c => r * f c) = r * cellAvg n f := by
  unfold cellAvg
  rw [← Finset.mul_sum, mul_div_assoc]

theorem moveCell_zero {Nx Ny : ℕ} (hx : 0 < Nx) (s : ℤ) {c : ℕ} (hc : c < Nx * Ny) :
    moveCell Nx Ny s c 0 0 = c := by
  unfold moveCell
  rw [add_zero, add_zero, ← cell_coords hx s hc, Int.toNat_natCast]

theorem Estimates.sumRules [NeZero N] {Nx Ny Norb : ℕ} (hx : 0 < Nx) {s t : ℤ}
    {U D : Mat N} {e : EqF → ℤ → ℝ} (h : Estimates Nx Ny Norb s t U D e) :
    SumRules Nx Ny Norb s e := by
  constructor
  · intro o p ho hp dx dy z
    simp only [z]
    rw [h.corr .zz (by decide) o p ho hp, h.corr .uu (by decide) o p ho hp,
      h.corr .dd (by decide) o p ho hp, h.corr .ud (by decide) o p ho hp, ← cellAvg_add,
      ← cellAvg_sub]
    refine cellAvg_congr fun c hc => ?_
    simp [corrSpec, Pairs.corr, zOp, nOp]
    ring
  · intro o ho
    rw [h.corr .uu (by decide) o o ho ho, h.dens .densityU (by decide) o ho]
    refine cellAvg_congr fun c hc => ?_
    rw [moveCell_zero hx s hc]
    simp [corrSpec, densSpec, Pairs.corr, Pairs.mean, Pairs.four, equalTime, nOp]
    ring
  · intro o ho
    rw [h.corr .dd (by decide) o o ho ho, h.dens .densityD (by decide) o ho]
    refine cellAvg_congr fun c hc => ?_
    rw [moveCell_zero hx s hc]
    simp [corrSpec, densSpec, Pairs.corr, Pairs.mean, Pairs.four, equalTime, nOp]
    ring
  · intro o ho
    rw [h.corr .ud (by decide) o o ho ho, h.dens .doubleocc (by decide) o ho, ← cellAvg_mul]
    refine cellAvg_congr fun c hc => ?_
    rw [moveCell_zero hx s hc]
    simp [corrSpec, densSpec, Pairs.corr, Pairs.four, equalTime, nOp, spinG]
    ring
  · intro o ho
    rw [h.corr .xx (by decide) o o ho ho, h.corr .zz (by decide) o o ho ho]
    refine cellAvg_congr fun c hc => ?_
    rw [moveCell_zero hx s hc]
    simp [corrSpec, Pairs.corr, Pairs.four, equalTime, xOp, zOp, spinG]
    ring

/-- a sample: the two Green's functions with their signs -/
structure Sample (N : ℕ) where
  up : GreensFn N
  dn : GreensFn N
  hu : up.sgndet = 1 ∨ up.sgndet = -1
  hd : dn.sgndet = 1 ∨ dn.sgndet = -1

/-- sign of the weight of the sample -/
def Sample.sgn (x : Sample N) : ℝ := ((x.up.sgndet * x.dn.sgndet : ℤ) : ℝ)

/-- what a process does to the equal time measurement data -/
inductive Step (N : ℕ)
  | accumulate (x : Sample N)
  | normalize

noncomputable def Step.run (Norb Ncell : ℕ) (mp : Maps) (m : EqData) : Step N → Option EqData
  | .accumulate x => accumulateEq Norb Ncell mp x.up x.dn m
  | .normalize => some (normalizeEq Norb Ncell m)

theorem SumRules.scale {Nx Ny Norb : ℕ} (hx : 0 < Nx) (hy : 0 < Ny) {s : ℤ} {a : EqF → ℤ → ℝ}
    (h : SumRules Nx Ny Norb s a) (r : ℝ) :
    SumRules Nx Ny Norb s (scale (EqF.size Norb (Nx * Ny)) r a) := by
  have ins : ∀ f ∈ [EqF.uu, .dd, .ff, .zz, .xx, .ud], ∀ o p : ℕ, o < Norb → p < Norb →
      ∀ dx dy : ℤ,
      Verif.Measurement.scale (EqF.size Norb (Nx * Ny)) r a f
        (cellOf Nx Ny s dx dy + (Nx * Ny : ℕ) * (o + Norb * p))
      = r * a f (cellOf Nx Ny s dx dy + (Nx * Ny : ℕ) * (o + Norb * p)) := by
    intro f hf o p ho hp dx dy
    have h1 := cellOf_nonneg Nx Ny hx hy s dx dy
    have h2 := cellOf_lt Nx Ny hx hy s dx dy
    unfold Verif.Measurement.scale
    refine if_pos ⟨by positivity, ?_⟩
    have hsz : EqF.size Norb (Nx * Ny) f = ((Nx * Ny : ℕ) : ℤ) * ((Norb * Norb : ℕ) : ℤ) := by
      fin_cases hf <;> simp [EqF.size, mul_assoc]
    have h3 : o + Norb * p < Norb * Norb := site_lt hp ho
    have h4 : ((o : ℤ) + Norb * p + 1) ≤ ((Norb * Norb : ℕ) : ℤ) := by exact_mod_cast h3
    rw [hsz]
    have := mul_le_mul_of_nonneg_left h4 (by positivity : (0 : ℤ) ≤ ((Nx * Ny : ℕ) : ℤ))
    push_cast at this h2 ⊢
    nlinarith
  have ins' : ∀ f ∈ [EqF.densityU, .densityD, .doubleocc], ∀ o : ℕ, o < Norb →
      Verif.Measurement.scale (EqF.size Norb (Nx * Ny)) r a f o = r * a f o := by
    intro f hf o ho
    unfold Verif.Measurement.scale
    refine if_pos ⟨by positivity, ?_⟩
    have hsz : EqF.size Norb (Nx * Ny) f = Norb := by fin_cases hf <;> rfl
    rw [hsz]
    exact_mod_cast ho
  constructor
  · intro o p ho hp dx dy z
    simp only [z]
    rw [ins _ (by decide) o p ho hp, ins _ (by decide) o p ho hp, ins _ (by decide) o p ho hp,
      ins _ (by decide) o p ho hp, h.spin o p ho hp]
    ring
  · intro o ho
    rw [ins _ (by decide) o o ho ho, ins' _ (by decide) o ho, h.onsiteU o ho]
  · intro o ho
    rw [ins _ (by decide) o o ho ho, ins' _ (by decide) o ho, h.onsiteD o ho]
  · intro o ho
    rw [ins _ (by decide) o o ho ho, ins' _ (by decide) o ho, h.onsiteUD o ho]
    ring
  · intro o ho
    rw [ins _ (by decide) o o ho ho, ins _ (by decide) o o ho ho, h.onsiteXX o ho]

/-- **C42.** Whatever sequence of accumulations and normalisations is applied to freshly allocated
data, it is carried out without leaving the arrays and the sum rules hold. -/
theorem sumRules_always [NeZero N] {Nx Ny Norb : ℕ} (hx : 0 < Nx) (hy : 0 < Ny)
    (hN : N = Nx * Ny * Norb) (s : ℤ) (hs : 0 ≤ s) (junk : ℤ → ℤ) (steps : List (Step N)) :
    ∃ m, steps.foldlM (Step.run Norb (Nx * Ny) (Maps.construct Nx Ny s junk)) EqData.allocate
        = some m ∧ SumRules Nx Ny Norb s m.arr := by
  have gen : ∀ (steps : List (Step N)) (m₀ : EqData), SumRules Nx Ny Norb s m₀.arr →
      ∃ m, steps.foldlM (Step.run Norb (Nx * Ny) (Maps.construct Nx Ny s junk)) m₀ = some m ∧
        SumRules Nx Ny Norb s m.arr := by
    intro steps
    induction steps with
    | nil => exact fun m₀ h => ⟨m₀, rfl, h⟩
    | cons x xs ih =>
      intro m₀ h
      rw [List.foldlM_cons]
      cases x with
      | accumulate x =>
        obtain ⟨e, he, hm⟩ := accumulateEq_estimates hx hy hN s hs junk x.up x.dn x.hu x.hd
        have hr := he.sumRules hx
        simp only [Step.run, hm m₀, Option.bind_eq_bind, Option.bind_some]
        refine ih _ ⟨?_, ?_, ?_, ?_, ?_⟩
        · intro o p ho hp dx dy z
          simp only
          rw [show m₀.arr .zz z = _ from h.spin o p ho hp dx dy,
            show e .zz z = _ from hr.spin o p ho hp dx dy]
          ring
        · intro o ho
          simp only
          rw [h.onsiteU o ho, hr.onsiteU o ho]
        · intro o ho
          simp only
          rw [h.onsiteD o ho, hr.onsiteD o ho]
        · intro o ho
          simp only
          rw [h.onsiteUD o ho, hr.onsiteUD o ho]
          ring
        · intro o ho
          simp only
          rw [h.onsiteXX o ho, hr.onsiteXX o ho]
      | normalize =>
        exact ih _ (h.scale hx hy _)
  refine gen steps _ ⟨?_, ?_, ?_, ?_, ?_⟩ <;> intros <;> simp [EqData.allocate]

/-! ## C43 and C61 -/

/-- accumulating a list of samples -/
noncomputable def accumulateAll (Norb Ncell : ℕ) (mp : Maps) (m : EqData) (xs : List (Sample N)) :
    Option EqData :=
  xs.foldlM (fun m x => accumulateEq Norb Ncell mp x.up x.dn m) m

/-- **C61.** On every lattice with `pbc_shift ≥ 0` all array accesses are inside the arrays, for
every number of samples. -/
theorem accumulateAll_defined [NeZero N] {Nx Ny Norb : ℕ} (hx : 0 < Nx) (hy : 0 < Ny)
    (hN : N = Nx * Ny * Norb) (s : ℤ) (hs : 0 ≤ s) (junk : ℤ → ℤ) (m : EqData)
    (xs : List (Sample N)) :
    (accumulateAll Norb (Nx * Ny) (Maps.construct Nx Ny s junk) m xs).isSome := by
  unfold accumulateAll
  induction xs generalizing m with
  | nil => rfl
  | cons x xs ih =>
    obtain ⟨c, -, hm⟩ := accumulateEq_contrib hN (construct_good hx hy s hs junk) x.up x.dn
    rw [List.foldlM_cons, hm m]
    exact ih _

/-- a loop is only defined if its bodies are -/
theorem loopM_none {β : Type} {n : ℕ} {f : ℕ → Option (List β)} {i : ℕ} (hi : i < n)
    (h : f i = none) : loopM n f = none := by
  unfold loopM
  rw [Option.map_eq_none_iff]
  by_contra hne
  obtain ⟨l, hl⟩ := Option.ne_none_iff_exists'.1 hne
  have : ∀ (xs : List ℕ) (l : List (List β)), i ∈ xs → xs.mapM f = some l → False := by
    intro xs
    induction xs with
    | nil => simp
    | cons x xs ih =>
      intro l hm hl
      rw [List.mapM_cons] at hl
      simp only [Option.bind_eq_bind] at hl
      obtain ⟨a, ha, hl⟩ := Option.bind_eq_some_iff.1 hl
      obtain ⟨b, hb, hl⟩ := Option.bind_eq_some_iff.1 hl
      rcases List.mem_cons.1 hm with rfl | hm
      · rw [h] at ha; exact absurd ha (by simp)
      · exact ih b hm hb
  exact this _ l (List.mem_range.2 hi) hl

/-- The restriction of C61 to `pbc_shift ≥ 0` is needed: on a 2 × 2 lattice with `pbc_shift = -1`
(which the parameter validation accepts) the Green's function is read at a negative index. -/
theorem accumulateEq_negative_shift (Gu Gd : GreensFn 4) (junk : ℤ → ℤ) (m : EqData) :
    accumulateEq 1 4 (Maps.construct 2 2 (-1) junk) Gu Gd m = none := by
  have hj : (Maps.construct 2 2 (-1) junk).sum 10 = -1 := by
    simp [Maps.construct, sumMap, sumMapWrites, forLoop, assignAll, List.range_succ]
  have key : corrAdds 1 4 (Maps.construct 2 2 (-1) junk) (flat Gu.mat) (flat Gd.mat)
      (((Gu.sgndet * Gd.sgndet : ℤ) : ℝ) / (4 : ℕ)) 0 0 2 2 = none := by
    unfold corrAdds
    have r : rdInt (((4 : ℕ) : ℤ) * (4 : ℕ)) (Maps.construct 2 2 (-1) junk).sum
        (((2 : ℕ) : ℤ) + (4 : ℕ) * (2 : ℕ)) = some (-1) := by
      unfold rdInt
      rw [if_pos (by norm_num)]
      norm_num [hj]
    have f : flat Gu.mat (-1 + ((0 : ℕ) : ℤ) * (4 : ℕ) + ((4 : ℕ) * (1 : ℕ) : ℤ)
        * (-1 + ((0 : ℕ) : ℤ) * (4 : ℕ))) = none := by
      unfold flat
      rw [dif_neg (by norm_num)]
    simp only [r, Option.bind_eq_bind, Option.bind_some, f, Option.bind_none, Option.bind_fun_none]
  unfold accumulateEq eqAdds
  have l : (loopM 1 fun o => loopM 1 fun p => loopM 4 fun i => loopM 4 fun k =>
      corrAdds 1 4 (Maps.construct 2 2 (-1) junk) (flat Gu.mat) (flat Gd.mat)
      (((Gu.sgndet * Gd.sgndet : ℤ) : ℝ) / (4 : ℕ)) o p i k) = none :=
    loopM_none (i := 0) (by norm_num) (loopM_none (i := 0) (by norm_num)
      (loopM_none (i := 2) (by norm_num) (loopM_none (i := 2) (by norm_num) key)))
  simp only [l, Option.bind_eq_bind, Option.bind_none, Option.bind_fun_none]

/-- **C43.** After any list of samples the normalised data contain the arithmetic means over the
samples of sign times estimate, the mean sign, and the number of samples. -/
theorem normalize_mean [NeZero N] {Nx Ny Norb : ℕ} (hx : 0 < Nx) (hy : 0 < Ny)
    (hN : N = Nx * Ny * Norb) (s : ℤ) (hs : 0 ≤ s) (junk : ℤ → ℤ) :
    ∃ E : Sample N → EqF → ℤ → ℝ,
      (∀ x, Estimates Nx Ny Norb s 0 x.up.mat x.dn.mat (E x)) ∧
      ∀ xs : List (Sample N), ∃ m,
        accumulateAll Norb (Nx * Ny) (Maps.construct Nx Ny s junk) EqData.allocate xs = some m ∧
        m.nsampl = xs.length ∧
        (normalizeEq Norb (Nx * Ny) m).nsampl = xs.length ∧
        (normalizeEq Norb (Nx * Ny) m).sign = (xs.map Sample.sgn).sum / xs.length ∧
        ∀ f z, 0 ≤ z → z < EqF.size Norb (Nx * Ny) f →
          (normalizeEq Norb (Nx * Ny) m).arr f z
            = (xs.map fun x => x.sgn * E x f z).sum / xs.length := by
  have hE := fun x : Sample N =>
    accumulateEq_estimates hx hy hN s hs junk x.up x.dn x.hu x.hd
  choose E hE1 hE2 using hE
  refine ⟨E, hE1, fun xs => ?_⟩
  have gen : ∀ (xs : List (Sample N)) (m₀ : EqData),
      accumulateAll Norb (Nx * Ny) (Maps.construct Nx Ny s junk) m₀ xs = some
        { arr := fun f z => m₀.arr f z + (xs.map fun x => x.sgn * E x f z).sum
          sign := m₀.sign + (xs.map Sample.sgn).sum
          nsampl := m₀.nsampl + xs.length } := by
    unfold accumulateAll
    intro xs
    induction xs with
    | nil => intro m₀; simp
    | cons x xs ih =>
      intro m₀
      rw [List.foldlM_cons, hE2 x m₀]
      refine (ih _).trans ?_
      simp only [List.map_cons, List.sum_cons, List.length_cons, Option.some.injEq,
        EqData.mk.injEq]
      refine ⟨?_, ?_, by ring⟩
      · funext f z
        simp only [Sample.sgn]
        ring
      · simp only [Sample.sgn]
        ring
  refine ⟨_, gen xs _, ?_, ?_, ?_, ?_⟩
  · simp [EqData.allocate]
  · simp [EqData.allocate, normalizeEq]
  · simp only [EqData.allocate, normalizeEq, zero_add]
    rw [show (1.0 : ℝ) = 1 by norm_num]
    ring
  · intro f z h1 h2
    unfold normalizeEq Verif.Measurement.scale
    simp only [EqData.allocate, zero_add]
    rw [if_pos ⟨h1, h2⟩, show (1.0 : ℝ) = 1 by norm_num]
    ring

/-- **C43.** The order of the samples does not matter, nor does it matter whether they are taken in
one run or in several consecutive ones. -/
theorem accumulateAll_perm [NeZero N] {Nx Ny Norb : ℕ} (hx : 0 < Nx) (hy : 0 < Ny)
    (hN : N = Nx * Ny * Norb) (s : ℤ) (hs : 0 ≤ s) (junk : ℤ → ℤ) (m : EqData)
    {xs ys : List (Sample N)} (h : xs.Perm ys) :
    accumulateAll Norb (Nx * Ny) (Maps.construct Nx Ny s junk) m xs
      = accumulateAll Norb (Nx * Ny) (Maps.construct Nx Ny s junk) m ys := by
  have hE := fun x : Sample N =>
    accumulateEq_contrib hN (construct_good hx hy s hs junk) x.up x.dn
  choose c _ hc using hE
  unfold accumulateAll
  simp only [hc]
  induction h generalizing m with
  | nil => rfl
  | cons x _ ih =>
    simp only [List.foldlM_cons, Option.bind_eq_bind, Option.bind_some]
    exact ih _
  | swap x y l =>
    simp only [List.foldlM_cons, Option.bind_eq_bind, Option.bind_some]
    congr 2
    · funext f z; ring
    · ring
  | trans _ _ ih1 ih2 => rw [ih1, ih2]

theorem accumulateAll_append (Norb Ncell : ℕ) (mp : Maps) (m : EqData) (xs ys : List (Sample N)) :
    accumulateAll Norb Ncell mp m (xs ++ ys)
      = (accumulateAll Norb Ncell mp m xs).bind fun m' => accumulateAll Norb Ncell mp m' ys := by
  unfold accumulateAll
  rw [List.foldlM_append]
  rfl

/-- a non-trivial instance: 2 × 2 cells with 2 orbitals and shift 1 -/
example : ∃ e, Estimates 2 2 2 1 0 (1 : Mat 8) (2 • (1 : Mat 8)) e := by
  have h := accumulateEq_estimates (N := 8) (Nx := 2) (Ny := 2) (Norb := 2) (by norm_num)
    (by norm_num) (by norm_num) 1 (by norm_num) (fun _ => 0) ⟨1, 0, 1⟩ ⟨2 • 1, 0, -1⟩ (Or.inl rfl)
    (Or.inr rfl)
  obtain ⟨e, he, -⟩ := h
  exact ⟨e, he⟩

end Verif.Measurement
