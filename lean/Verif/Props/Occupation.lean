import Verif.Props.SpinSymmetry
import Verif.Props.LongRunsPhProgram

/-!
# Property C108: the expected results are averages over probabilities of the occupation numbers

With a sign problem a single sample may give any value.  The expected values of densities, double occupancies, and density
and spin correlations at equal times are nevertheless averages with respect to probabilities of the occupation numbers,
for any number of time slices, with and without phonons.  In particular they satisfy all inequalities which hold for
occupation numbers.
-/

set_option autoImplicit false

namespace Verif.MonteCarlo

open Matrix MeasureTheory Verif.Lapack Verif.TimeFlow Verif.Fock Verif.Measurement Verif.Lattice Verif.Trotter
open Verif.Main Verif.Progress Verif.Params Verif.Random Verif.Reflection

variable {N : ℕ}

/-! ## Specification -/

/-- probabilities of the occupation numbers of all sites and spins -/
structure Probabilities (w : Finset (Mode N) → ℝ) : Prop where
  nonneg : ∀ S, 0 ≤ w S
  total : ∑ S, w S = 1

/-- densities and double occupancy of a site for given occupation numbers -/
def densVal (S : Finset (Mode N)) (a : Fin N) : EqF → ℝ
  | .densityU => if (a, true) ∈ S then 1 else 0
  | .densityD => if (a, false) ∈ S then 1 else 0
  | .doubleocc => if (a, true) ∈ S ∧ (a, false) ∈ S then 1 else 0
  | _ => 0

/-- the spin of a site in z direction -/
def spinVal (S : Finset (Mode N)) (a : Fin N) : ℝ := densVal S a .densityU - densVal S a .densityD

/-- correlations of two sites; the ones of the x components have the same averages as those of the z components -/
def corrVal (S : Finset (Mode N)) (a b : Fin N) : EqF → ℝ
  | .uu => densVal S a .densityU * densVal S b .densityU
  | .dd => densVal S a .densityD * densVal S b .densityD
  | .ud => densVal S a .densityU * densVal S b .densityD + densVal S a .densityD * densVal S b .densityU
  | .zz => spinVal S a * spinVal S b
  | .xx => spinVal S a * spinVal S b
  | _ => 0

/-- the results of the equal time measurements are averages with respect to `w` -/
structure OccupationMeans [NeZero N] (Nx Ny Norb : ℕ) (s : ℤ) (w : Finset (Mode N) → ℝ) (R : EqF → ℤ → ℝ → Prop) : Prop where
  dens : ∀ f ∈ [EqF.densityU, .densityD, .doubleocc], ∀ o : ℕ, o < Norb →
    R f o (cellAvg (Nx * Ny) fun c => ∑ S, w S * densVal S (siteN N (Nx * Ny) o c) f)
  corr : ∀ f ∈ [EqF.uu, .dd, .zz, .xx, .ud], ∀ o p : ℕ, o < Norb → p < Norb → ∀ dx dy : ℤ,
    R f (cellOf Nx Ny s dx dy + (Nx * Ny : ℕ) * (o + Norb * p)) (cellAvg (Nx * Ny) fun c =>
      ∑ S, w S * corrVal S (siteN N (Nx * Ny) o c) (siteN N (Nx * Ny) p (moveCell Nx Ny s c dx dy)) f)

/-- bounds on the results: densities and double occupancies as for electrons, the spin correlations of the two components
and of different sites at most one, the local moment in terms of densities and double occupancy, and no negative structure
factors: for any amplitudes `φ` of the orbitals and cells, the correlations `zz` and `xx` summed with the correlations
of the amplitudes are not negative -/
structure Physical (Nx Ny Norb : ℕ) (s : ℤ) (R : EqF → ℤ → ℝ → Prop) : Prop where
  dens : ∀ o : ℕ, o < Norb → ∃ u d m, R .densityU o u ∧ R .densityD o d ∧ R .doubleocc o m ∧
    R .zz ((Nx * Ny : ℕ) * (o + Norb * o)) (u + d - 2 * m) ∧ 0 ≤ m ∧ m ≤ u ∧ m ≤ d ∧ u + d - m ≤ 1
  bound : ∀ f ∈ [EqF.zz, .xx], ∀ o p : ℕ, o < Norb → p < Norb → ∀ dx dy : ℤ, ∃ v,
    R f (cellOf Nx Ny s dx dy + (Nx * Ny : ℕ) * (o + Norb * p)) v ∧ |v| ≤ 1
  struc : ∀ f ∈ [EqF.uu, .dd, .zz, .xx], ∃ v : ℕ → ℕ → ℕ → ℝ,
    (∀ o p d, o < Norb → p < Norb → d < Nx * Ny → R f (d + (Nx * Ny : ℕ) * (o + Norb * p)) (v o p d)) ∧
    ∀ φ : ℕ → ℕ → ℝ, 0 ≤ ∑ o ∈ Finset.range Norb, ∑ p ∈ Finset.range Norb, ∑ d ∈ Finset.range (Nx * Ny),
      (∑ c ∈ Finset.range (Nx * Ny), φ o c * φ p (moveCell Nx Ny s c (d % Nx : ℕ) (d / Nx : ℕ))) * v o p d

/-! ## Averages over the occupation numbers -/

section averages

variable {w : Finset (Mode N) → ℝ}

/-- average of a function of the occupation numbers -/
def avg (w : Finset (Mode N) → ℝ) (f : Finset (Mode N) → ℝ) : ℝ := ∑ S, w S * f S

theorem Probabilities.mono (hw : Probabilities w) {f g : Finset (Mode N) → ℝ} (h : ∀ S, f S ≤ g S) : avg w f ≤ avg w g :=
  Finset.sum_le_sum fun S _ => mul_le_mul_of_nonneg_left (h S) (hw.nonneg S)

theorem Probabilities.const (hw : Probabilities w) (c : ℝ) : avg w (fun _ => c) = c := by
  unfold avg
  rw [← Finset.sum_mul, hw.total, one_mul]

theorem avg_add (f g : Finset (Mode N) → ℝ) : avg w (fun S => f S + g S) = avg w f + avg w g := by
  unfold avg
  simp only [mul_add, Finset.sum_add_distrib]

theorem avg_smul (c : ℝ) (f : Finset (Mode N) → ℝ) : avg w (fun S => c * f S) = c * avg w f := by
  unfold avg
  rw [Finset.mul_sum]
  exact Finset.sum_congr rfl fun S _ => by ring

theorem avg_sum {ι : Type} (I : Finset ι) (f : ι → Finset (Mode N) → ℝ) :
    avg w (fun S => ∑ i ∈ I, f i S) = ∑ i ∈ I, avg w (f i) := by
  unfold avg
  simp only [Finset.mul_sum]
  exact Finset.sum_comm

theorem cellAvg_mono {n : ℕ} {f g : ℕ → ℝ} (h : ∀ c, f c ≤ g c) : cellAvg n f ≤ cellAvg n g := by
  unfold cellAvg
  gcongr with c hc
  exact h c

theorem cellAvg_const {n : ℕ} (hn : 0 < n) (x : ℝ) : cellAvg n (fun _ => x) = x := by
  unfold cellAvg
  have : (n : ℝ) ≠ 0 := Nat.cast_ne_zero.2 hn.ne'
  rw [Finset.sum_const, Finset.card_range, nsmul_eq_mul, mul_div_cancel_left₀ _ this]

/-- sums over all cells with amplitudes, in terms of sums of amplitudes which are moved -/
theorem amplitudes_eq {n Norb : ℕ} {mv : ℕ → ℕ → ℕ} (hlt : ∀ c < n, ∀ d < n, mv c d < n)
    (hinj : ∀ c < n, ∀ d < n, ∀ d' < n, mv c d = mv c d' → d = d')
    (hcomm : ∀ c < n, ∀ t < n, ∀ d < n, mv (mv c t) d = mv (mv c d) t) (B : ℕ → ℕ → ℕ → ℕ → ℝ) (φ : ℕ → ℕ → ℝ) :
    ∑ o ∈ Finset.range Norb, ∑ p ∈ Finset.range Norb, ∑ d ∈ Finset.range n,
      (∑ c ∈ Finset.range n, φ o c * φ p (mv c d)) * ∑ c ∈ Finset.range n, B o c p (mv c d)
    = ∑ t ∈ Finset.range n, ∑ o ∈ Finset.range Norb, ∑ p ∈ Finset.range Norb, ∑ c ∈ Finset.range n, ∑ d ∈ Finset.range n,
      φ o (mv c t) * φ p (mv d t) * B o c p d := by
  have hre : ∀ c < n, ∀ g : ℕ → ℝ, ∑ d ∈ Finset.range n, g (mv c d) = ∑ d ∈ Finset.range n, g d := by
    intro c hc g
    have hi : Set.InjOn (mv c) (Finset.range n) := fun d hd d' hd' h =>
      hinj c hc d (Finset.mem_range.1 hd) d' (Finset.mem_range.1 hd') h
    have hm : Finset.image (mv c) (Finset.range n) = Finset.range n := by
      refine Finset.eq_of_subset_of_card_le (fun e he => ?_) (by rw [Finset.card_image_of_injOn hi])
      obtain ⟨d, hd, rfl⟩ := Finset.mem_image.1 he
      exact Finset.mem_range.2 (hlt c hc d (Finset.mem_range.1 hd))
    conv_rhs => rw [← hm]
    rw [Finset.sum_image hi]
  have key : ∀ o p, ∑ d ∈ Finset.range n, (∑ c ∈ Finset.range n, φ o c * φ p (mv c d)) * ∑ c ∈ Finset.range n, B o c p (mv c d)
      = ∑ t ∈ Finset.range n, ∑ c ∈ Finset.range n, ∑ d ∈ Finset.range n, φ o (mv c t) * φ p (mv d t) * B o c p d := by
    intro o p
    calc _ = ∑ d ∈ Finset.range n, ∑ c' ∈ Finset.range n, ∑ t ∈ Finset.range n,
            φ o (mv c' t) * φ p (mv (mv c' t) d) * B o c' p (mv c' d) := by
          refine Finset.sum_congr rfl fun d _ => ?_
          rw [Finset.mul_sum]
          refine Finset.sum_congr rfl fun c' hc' => ?_
          rw [← hre c' (Finset.mem_range.1 hc') fun c => φ o c * φ p (mv c d), Finset.sum_mul]
      _ = ∑ c' ∈ Finset.range n, ∑ t ∈ Finset.range n, ∑ d ∈ Finset.range n,
            φ o (mv c' t) * φ p (mv (mv c' d) t) * B o c' p (mv c' d) := by
          rw [Finset.sum_comm]
          refine Finset.sum_congr rfl fun c' hc' => ?_
          rw [Finset.sum_comm]
          refine Finset.sum_congr rfl fun t ht => Finset.sum_congr rfl fun d hd => ?_
          rw [hcomm c' (Finset.mem_range.1 hc') t (Finset.mem_range.1 ht) d (Finset.mem_range.1 hd)]
      _ = ∑ c' ∈ Finset.range n, ∑ t ∈ Finset.range n, ∑ d ∈ Finset.range n,
            φ o (mv c' t) * φ p (mv d t) * B o c' p d := by
          refine Finset.sum_congr rfl fun c' hc' => Finset.sum_congr rfl fun t _ => ?_
          exact hre c' (Finset.mem_range.1 hc') fun d => φ o (mv c' t) * φ p (mv d t) * B o c' p d
      _ = _ := Finset.sum_comm
  simp only [key]
  rw [Finset.sum_congr rfl fun o _ => Finset.sum_comm, Finset.sum_comm]

/-- sums over all cells with amplitudes are not negative -/
theorem amplitudes_nonneg {n Norb : ℕ} {mv : ℕ → ℕ → ℕ} (hlt : ∀ c < n, ∀ d < n, mv c d < n)
    (hinj : ∀ c < n, ∀ d < n, ∀ d' < n, mv c d = mv c d' → d = d')
    (hcomm : ∀ c < n, ∀ t < n, ∀ d < n, mv (mv c t) d = mv (mv c d) t) (z φ : ℕ → ℕ → ℝ) :
    0 ≤ ∑ o ∈ Finset.range Norb, ∑ p ∈ Finset.range Norb, ∑ d ∈ Finset.range n,
      (∑ c ∈ Finset.range n, φ o c * φ p (mv c d)) * ∑ c ∈ Finset.range n, z o c * z p (mv c d) := by
  rw [amplitudes_eq hlt hinj hcomm (fun o c p d => z o c * z p d) φ]
  refine Finset.sum_nonneg fun t _ => ?_
  have e : ∑ o ∈ Finset.range Norb, ∑ p ∈ Finset.range Norb, ∑ c ∈ Finset.range n, ∑ d ∈ Finset.range n,
      φ o (mv c t) * φ p (mv d t) * (z o c * z p d)
      = (∑ o ∈ Finset.range Norb, ∑ c ∈ Finset.range n, φ o (mv c t) * z o c) ^ 2 := by
    rw [sq, Finset.sum_mul_sum]
    refine Finset.sum_congr rfl fun o _ => Finset.sum_congr rfl fun p _ => ?_
    rw [Finset.sum_mul_sum]
    exact Finset.sum_congr rfl fun c _ => Finset.sum_congr rfl fun d _ => by ring
  rw [e]
  exact sq_nonneg _

/-- moving cells by the displacements of cells -/
theorem moves {Nx Ny : ℕ} (hx : 0 < Nx) (hy : 0 < Ny) (s : ℤ) :
    let mv : ℕ → ℕ → ℕ := fun c d => moveCell Nx Ny s c (d % Nx : ℕ) (d / Nx : ℕ)
    (∀ c < Nx * Ny, ∀ d < Nx * Ny, mv c d < Nx * Ny) ∧
    (∀ c < Nx * Ny, ∀ d < Nx * Ny, ∀ d' < Nx * Ny, mv c d = mv c d' → d = d') ∧
    ∀ c < Nx * Ny, ∀ t < Nx * Ny, ∀ d < Nx * Ny, mv (mv c t) d = mv (mv c d) t := by
  intro mv
  refine ⟨fun c _ d _ => moveCell_lt hx hy _ _ _ _, fun c hc d hd d' hd' he => ?_, fun c _ t _ d _ => ?_⟩
  · have h1 := moveCell_cast hx hy s c (d % Nx : ℕ) (d / Nx : ℕ)
    have h2 := moveCell_cast hx hy s c (d' % Nx : ℕ) (d' / Nx : ℕ)
    have h3 : (moveCell Nx Ny s c (d % Nx : ℕ) (d / Nx : ℕ) : ℤ) = moveCell Nx Ny s c (d' % Nx : ℕ) (d' / Nx : ℕ) := by
      exact_mod_cast he
    rw [h1, h2, cellOf_eq_iff Nx Ny hx hy] at h3
    obtain ⟨m, n, e1, e2⟩ := h3
    have h4 : (d : ℤ) = d' := by
      rw [cell_coords hx s hd, cell_coords hx s hd', cellOf_eq_iff Nx Ny hx hy]
      exact ⟨m, n, by linarith, by linarith⟩
    exact_mod_cast h4
  · show moveCell Nx Ny s (moveCell Nx Ny s c _ _) _ _ = moveCell Nx Ny s (moveCell Nx Ny s c _ _) _ _
    simp only [moveCell_add hx hy]
    rw [add_comm (_ : ℤ) _, add_comm ((t / Nx : ℕ) : ℤ) _]

theorem densVal_facts (S : Finset (Mode N)) (a : Fin N) :
    0 ≤ densVal S a .doubleocc ∧ densVal S a .doubleocc ≤ densVal S a .densityU ∧
    densVal S a .doubleocc ≤ densVal S a .densityD ∧
    densVal S a .densityU + densVal S a .densityD - densVal S a .doubleocc ≤ 1 ∧
    spinVal S a * spinVal S a = densVal S a .densityU + densVal S a .densityD - 2 * densVal S a .doubleocc ∧
    |spinVal S a| ≤ 1 := by
  unfold spinVal densVal
  by_cases h1 : (a, true) ∈ S <;> by_cases h2 : (a, false) ∈ S <;> norm_num [h1, h2]

variable [NeZero N] {Nx Ny Norb : ℕ} {s : ℤ} {R : EqF → ℤ → ℝ → Prop}

/-- C108: what follows for the results from probabilities of the occupation numbers -/
theorem OccupationMeans.physical (hx : 0 < Nx) (hy : 0 < Ny) (hw : Probabilities w)
    (h : OccupationMeans Nx Ny Norb s w R) : Physical Nx Ny Norb s R := by
  have hn : 0 < Nx * Ny := Nat.mul_pos hx hy
  have hn' : ((Nx * Ny : ℕ) : ℝ) ≠ 0 := Nat.cast_ne_zero.2 hn.ne'
  constructor
  · intro o ho
    have hz := h.corr .zz (by simp) o o ho ho 0 0
    have h0 : cellOf Nx Ny s 0 0 = 0 := by unfold cellOf; simp
    rw [h0, zero_add] at hz
    refine ⟨_, _, _, h.dens .densityU (by simp) o ho, h.dens .densityD (by simp) o ho, h.dens .doubleocc (by simp) o ho,
      ?_, ?_, ?_, ?_, ?_⟩
    · convert hz using 1
      unfold cellAvg
      rw [← mul_div_assoc, ← add_div, ← sub_div, Finset.mul_sum, ← Finset.sum_add_distrib, ← Finset.sum_sub_distrib]
      congr 1
      refine Finset.sum_congr rfl fun c hc => ?_
      beta_reduce
      rw [moveCell_zero hx s (Finset.mem_range.1 hc), Finset.mul_sum, ← Finset.sum_add_distrib, ← Finset.sum_sub_distrib]
      refine Finset.sum_congr rfl fun S _ => ?_
      show _ = w S * (spinVal S _ * spinVal S _)
      rw [(densVal_facts S _).2.2.2.2.1]
      ring
    · refine le_trans (cellAvg_const hn 0).ge (cellAvg_mono fun c => ?_)
      exact Finset.sum_nonneg fun S _ => mul_nonneg (hw.nonneg S) (densVal_facts S _).1
    · exact cellAvg_mono fun c => hw.mono fun S => (densVal_facts S _).2.1
    · exact cellAvg_mono fun c => hw.mono fun S => (densVal_facts S _).2.2.1
    · have e : cellAvg (Nx * Ny) (fun c => ∑ S, w S * densVal S (siteN N (Nx * Ny) o c) .densityU)
          + cellAvg (Nx * Ny) (fun c => ∑ S, w S * densVal S (siteN N (Nx * Ny) o c) .densityD)
          - cellAvg (Nx * Ny) (fun c => ∑ S, w S * densVal S (siteN N (Nx * Ny) o c) .doubleocc)
          = cellAvg (Nx * Ny) fun c => avg w fun S => densVal S (siteN N (Nx * Ny) o c) .densityU
            + densVal S (siteN N (Nx * Ny) o c) .densityD - densVal S (siteN N (Nx * Ny) o c) .doubleocc := by
        unfold cellAvg avg
        rw [← add_div, ← sub_div, ← Finset.sum_add_distrib, ← Finset.sum_sub_distrib]
        congr 1
        refine Finset.sum_congr rfl fun c _ => ?_
        rw [← Finset.sum_add_distrib, ← Finset.sum_sub_distrib]
        exact Finset.sum_congr rfl fun S _ => by ring
      rw [e]
      refine le_trans (cellAvg_mono (g := fun _ => 1) fun c => ?_) (cellAvg_const hn 1).le
      exact (hw.mono fun S => (densVal_facts S _).2.2.2.1).trans (hw.const 1).le
  · intro f hf o p ho hp dx dy
    refine ⟨_, h.corr f (by simp only [List.mem_cons, List.not_mem_nil, or_false] at hf; rcases hf with rfl | rfl <;> simp)
      o p ho hp dx dy, ?_⟩
    have hb : ∀ S : Finset (Mode N), ∀ a b, |corrVal S a b f| ≤ 1 := by
      intro S a b
      have e : corrVal S a b f = spinVal S a * spinVal S b := by
        simp only [List.mem_cons, List.not_mem_nil, or_false] at hf
        rcases hf with rfl | rfl <;> rfl
      rw [e, abs_mul]
      exact mul_le_one₀ (densVal_facts S a).2.2.2.2.2 (abs_nonneg _) (densVal_facts S b).2.2.2.2.2
    rw [abs_le]
    constructor
    · refine le_trans (cellAvg_const hn (-1)).ge (cellAvg_mono fun c => ?_)
      exact (hw.const (-1)).ge.trans (hw.mono fun S => (abs_le.1 (hb S _ _)).1)
    · refine le_trans (cellAvg_mono fun c => ?_) (cellAvg_const hn 1).le
      exact (hw.mono fun S => (abs_le.1 (hb S _ _)).2).trans (hw.const 1).le
  · intro f hf
    obtain ⟨z, hz⟩ : ∃ z : Finset (Mode N) → Fin N → ℝ, ∀ S a b, corrVal S a b f = z S a * z S b := by
      simp only [List.mem_cons, List.not_mem_nil, or_false] at hf
      rcases hf with rfl | rfl | rfl | rfl
      · exact ⟨fun S a => densVal S a .densityU, fun _ _ _ => rfl⟩
      · exact ⟨fun S a => densVal S a .densityD, fun _ _ _ => rfl⟩
      · exact ⟨spinVal, fun _ _ _ => rfl⟩
      · exact ⟨spinVal, fun _ _ _ => rfl⟩
    have hf' : f ∈ [EqF.uu, .dd, .zz, .xx, .ud] := by
      simp only [List.mem_cons, List.not_mem_nil, or_false] at hf
      rcases hf with rfl | rfl | rfl | rfl <;> simp
    refine ⟨fun o p d => cellAvg (Nx * Ny) fun c => ∑ S, w S * corrVal S (siteN N (Nx * Ny) o c)
        (siteN N (Nx * Ny) p (moveCell Nx Ny s c (d % Nx : ℕ) (d / Nx : ℕ))) f, fun o p d ho hp hd => ?_, fun φ => ?_⟩
    · have := h.corr f hf' o p ho hp (d % Nx : ℕ) (d / Nx : ℕ)
      rwa [← cell_coords hx s hd] at this
    · set mv : ℕ → ℕ → ℕ := fun c d => moveCell Nx Ny s c (d % Nx : ℕ) (d / Nx : ℕ) with hmv
      obtain ⟨hlt, hinj, hcomm⟩ := moves hx hy s
      have e : ∑ o ∈ Finset.range Norb, ∑ p ∈ Finset.range Norb, ∑ d ∈ Finset.range (Nx * Ny),
          (∑ c ∈ Finset.range (Nx * Ny), φ o c * φ p (mv c d)) * cellAvg (Nx * Ny) (fun c => ∑ S, w S * corrVal S
            (siteN N (Nx * Ny) o c) (siteN N (Nx * Ny) p (mv c d)) f)
          = ((Nx * Ny : ℕ) : ℝ)⁻¹ * avg w fun S => ∑ o ∈ Finset.range Norb, ∑ p ∈ Finset.range Norb, ∑ d ∈ Finset.range (Nx * Ny),
            (∑ c ∈ Finset.range (Nx * Ny), φ o c * φ p (mv c d)) * ∑ c ∈ Finset.range (Nx * Ny),
              z S (siteN N (Nx * Ny) o c) * z S (siteN N (Nx * Ny) p (mv c d)) := by
        rw [avg_sum, Finset.mul_sum]
        refine Finset.sum_congr rfl fun o _ => ?_
        rw [avg_sum, Finset.mul_sum]
        refine Finset.sum_congr rfl fun p _ => ?_
        rw [avg_sum, Finset.mul_sum]
        refine Finset.sum_congr rfl fun d _ => ?_
        rw [avg_smul, avg_sum]
        unfold cellAvg avg
        simp only [hz]
        ring
      refine le_of_le_of_eq ?_ e.symm
      refine mul_nonneg (inv_nonneg.2 (Nat.cast_nonneg _)) ?_
      refine (hw.const 0).ge.trans (hw.mono fun S => ?_)
      exact amplitudes_nonneg hlt hinj hcomm (fun o c => z S (siteN N (Nx * Ny) o c)) φ

/-- expectation values of diagonal operators are averages over the occupation numbers -/
theorem EqHolds.occupation {t : ℤ} {T : Op (Mode N) → Op (Mode N) → ℝ} (hT : Invariant T)
    (hd : ∀ f : Finset (Mode N) → ℝ, T (diagonal f) 1 = ∑ S, w S * f S)
    (h : EqHolds Nx Ny Norb s t (fun X => T X 1) R) : OccupationMeans Nx Ny Norb s w R := by
  have hnn : ∀ x y : Mode N, num x * num y = diagonal fun S => (if x ∈ S then (1 : ℝ) else 0) * if y ∈ S then 1 else 0 := by
    intro x y
    unfold num
    rw [diagonal_mul_diagonal]
  constructor
  · intro f hf o ho
    convert h.dens f hf o ho using 3 with c
    simp only [List.mem_cons, List.not_mem_nil, or_false] at hf
    rcases hf with rfl | rfl | rfl <;> simp only [densOp, opOf_nOp, hnn] <;> rw [← hd] <;> try rfl
    congr 2
    funext S
    show (if _ ∧ _ then (1 : ℝ) else 0) = _
    rw [ite_and]
    split <;> simp
  · intro f hf o p ho hp dx dy
    convert h.corr f hf o p ho hp dx dy using 3 with c
    generalize siteN N (Nx * Ny) o c = a
    generalize siteN N (Nx * Ny) p (moveCell Nx Ny s c dx dy) = b
    have hz : T (opOf (zOp a) * opOf (zOp b)) 1 = ∑ S, w S * (spinVal S a * spinVal S b) := by
      rw [← hd, opOf_zOp, opOf_zOp]
      unfold num
      rw [diagonal_sub, diagonal_sub, diagonal_mul_diagonal]
      rfl
    simp only [List.mem_cons, List.not_mem_nil, or_false] at hf
    rcases hf with rfl | rfl | rfl | rfl | rfl
    · simp only [corrOp, opOf_nOp, hnn]
      rw [hd]
      rfl
    · simp only [corrOp, opOf_nOp, hnn]
      rw [hd]
      rfl
    · exact hz.symm
    · simp only [corrOp, opOf_xOp]
      rw [← turn_z, ← turn_z, ← turn_mul, hT.mean, ← opOf_zOp, ← opOf_zOp, hz]
      rfl
    · simp only [corrOp, opOf_nOp, hnn]
      rw [diagonal_add, hd]
      rfl

end averages

/-! ## Without phonons -/

section states

variable {m : Type} [Fintype m] [DecidableEq m]

theorem trace_mul_diagonal (G : Matrix m m ℝ) (f : m → ℝ) : (G * diagonal f).trace = ∑ S, G S S * f S := by
  unfold trace
  simp only [diag_apply, mul_diagonal]

/-- the state of the time steps gives probabilities, as the factors which are diagonal can be distributed on both sides -/
theorem step_trace {A : Matrix m m ℝ} (hA : A.IsSymm) (b : m → ℝ) (n : ℕ) : ∃ G : Matrix m m ℝ, G.PosDef ∧
    ∀ f : m → ℝ, ((NormedSpace.exp (diagonal b) * NormedSpace.exp A) ^ n * diagonal f).trace = ∑ S, G S S * f S := by
  set h : Matrix m m ℝ := diagonal fun S => b S / 2 with hh
  have hb : diagonal b = h + h := by
    rw [hh, diagonal_add]
    congr 1
    funext S
    ring
  have hsymm : (NormedSpace.exp h)ᴴ = NormedSpace.exp h := by
    rw [← Matrix.exp_conjTranspose, Matrix.conjTranspose_eq_transpose_of_trivial, hh, diagonal_transpose]
  refine ⟨(NormedSpace.exp h * NormedSpace.exp A * NormedSpace.exp h) ^ n, posDef_pow ?_ n, fun f => ?_⟩
  · have := (exp_posDef hA).conjTranspose_mul_mul_same (B := NormedSpace.exp h)
      (Matrix.mulVec_injective_of_isUnit (Matrix.isUnit_exp _))
    rwa [hsymm] at this
  · rw [hb, pow_symmetrise, ← trace_mul_diagonal, mul_assoc, mul_assoc, trace_mul_comm, mul_assoc]
    congr 2
    have h3 : NormedSpace.exp (-h) * NormedSpace.exp h = 1 := by
      rw [← Matrix.exp_add_of_commute _ _ (Commute.refl h).neg_left, neg_add_cancel, NormedSpace.exp_zero]
    rw [hh, diagonal_neg, exp_diag, exp_diag] at h3 ⊢
    rw [mul_assoc, (commute_diagonal f _).eq, ← mul_assoc, h3, one_mul]

omit [DecidableEq m] in
/-- weights which are positive give probabilities -/
theorem normalise [Nonempty m] {g : m → ℝ} (hg : ∀ S, 0 < g S) {q : (m → ℝ) → ℝ} (hq : ∀ f, q f = ∑ S, g S * f S) :
    ∃ w : m → ℝ, (∀ S, 0 < w S) ∧ ∑ S, w S = 1 ∧ ∀ f, q f / q (fun _ => 1) = ∑ S, w S * f S := by
  have hpos : 0 < ∑ S, g S := Finset.sum_pos (fun S _ => hg S) Finset.univ_nonempty
  have h1 : q (fun _ => 1) = ∑ S, g S := by
    rw [hq]
    simp only [mul_one]
  refine ⟨fun S => g S / ∑ S, g S, fun S => div_pos (hg S) hpos, ?_, fun f => ?_⟩
  · rw [← Finset.sum_div, div_self hpos.ne']
  · rw [h1, hq, Finset.sum_div]
    exact Finset.sum_congr rfl fun S _ => by ring

end states

theorem stepOp_exp (K : Mat N) (U : Fin N → ℝ) (dt : ℝ) (v : Fin N → ℝ) : ∃ b : Finset (Mode N) → ℝ,
    stepOp K U dt v = NormedSpace.exp (diagonal b) * NormedSpace.exp (-dt • hopOp K) := by
  refine ⟨fun S => -dt * (∑ i, U i * ((occN S (i, true) - 1 / 2) * (occN S (i, false) - 1 / 2))
    + ∑ i, v i * (occN S (i, true) + occN S (i, false))), ?_⟩
  unfold stepOp
  congr 1
  rw [repOp_eq, potOp_eq, ← diagonal_smul, ← diagonal_smul, exp_diag, exp_diag, exp_diag, diagonal_mul_diagonal]
  congr 1
  funext S
  rw [← Real.exp_add, mul_add]
  rfl

theorem hopOp_isSymm {K : Mat N} (hK : K.IsSymm) : (hopOp K).IsSymm := by
  rw [hopOp_eq]
  exact oneBody_symm (both_symm hK)

/-- all occupation numbers have positive probabilities in the state of the time steps -/
theorem thermal_probabilities {K : Mat N} (hK : K.IsSymm) (U : Fin N → ℝ) (dt : ℝ) (v : Fin N → ℝ) (L : ℕ) :
    ∃ w : Finset (Mode N) → ℝ, (∀ S, 0 < w S) ∧ ∑ S, w S = 1 ∧
      ∀ f, thermalMean (stepOp K U dt v) L (diagonal f) = ∑ S, w S * f S := by
  obtain ⟨b, hb⟩ := stepOp_exp K U dt v
  obtain ⟨G, hG, h⟩ := step_trace ((hopOp_isSymm hK).smul (-dt)) b L
  obtain ⟨w, h1, h2, h3⟩ := normalise (fun S => hG.diag_pos (i := S)) h
  refine ⟨w, h1, h2, fun f => ?_⟩
  rw [← h3, thermalMean, hb]
  congr 2
  rw [show (diagonal fun _ => (1 : ℝ) : Op (Mode N)) = 1 from diagonal_one, mul_one]

/-- the same in the limit of many time slices -/
theorem gibbs_probabilities {K : Mat N} (hK : K.IsSymm) (U : Fin N → ℝ) (β : ℝ) :
    ∃ w : Finset (Mode N) → ℝ, (∀ S, 0 < w S) ∧ ∑ S, w S = 1 ∧
      ∀ f, gibbsMean (hopOp K + repOp U) β (diagonal f) = ∑ S, w S * f S := by
  have hG := exp_posDef (((hopOp_isSymm hK).add (repOp_symm U)).smul (-β))
  obtain ⟨w, h1, h2, h3⟩ := normalise (fun S => hG.diag_pos (i := S)) fun f => trace_mul_diagonal _ f
  refine ⟨w, h1, h2, fun f => ?_⟩
  rw [← h3, gibbsMean]
  congr 2
  rw [show (diagonal fun _ => (1 : ℝ) : Op (Mode N)) = 1 from diagonal_one, mul_one]

/-! ## With phonons -/

section phonons

variable {σ : Type} {M : Type} {L : ℕ} {sys : Sys σ N M} {ph : Phonon} {rest : Measure ℝ} {K : Mat N} {U : ℕ → ℝ}

/-- a diagonal operator next to slice 0 -/
theorem electronTrace_diagonal (f : Finset (Mode N) → ℝ) (hL : 0 < L) (x : Paths L N) :
    electronTrace sys ph K U L 1 (diagonal f) 1 x
      = (oprod (fun j => diagonal (fun S => (if j = 0 then f S else 1) * Real.exp (onsite sys ph U (extendX x j) S))
          * NormedSpace.exp (-ph.dt • hopOp K)) L).trace := by
  obtain ⟨n, rfl⟩ : ∃ n, L = n + 1 := ⟨L - 1, by omega⟩
  unfold electronTrace
  simp only [stepAt_eq, Nat.add_sub_cancel]
  rw [oprod_front (fun j => diagonal (fun S => (if j = 0 then f S else 1) * Real.exp (onsite sys ph U (extendX x j) S))
    * NormedSpace.exp (-ph.dt • hopOp K)), mul_one, mul_assoc]
  simp only [if_true]
  congr 2
  · refine oprod_congr fun l _ => ?_
    simp only [show 1 + l ≠ 0 by omega, if_false, one_mul]
  · rw [show oprod (fun j => diagonal (fun S => Real.exp (onsite sys ph U (extendX x j) S)) * NormedSpace.exp (-ph.dt • hopOp K)) 1
      = diagonal (fun S => Real.exp (onsite sys ph U (extendX x 0) S)) * NormedSpace.exp (-ph.dt • hopOp K) * 1 from rfl,
      mul_one, ← mul_assoc, diagonal_mul_diagonal]

theorem between_congr {p : Type} [Fintype p] [DecidableEq p] {A : Matrix p p ℝ} {d e : ℕ → p → ℝ} (h : ∀ j, d (1 + j) = e (1 + j))
    (k : ℕ) : between A d k = between A e k := by
  unfold between
  simp only [h]

theorem upto_congr {p : Type} [Fintype p] [DecidableEq p] {A B : Matrix p p ℝ} {d e : ℕ → p → ℝ} (h : ∀ j, d (1 + j) = e (1 + j))
    (k : ℕ) : upto B A d k = upto B A e k := by
  unfold upto
  simp only [h]

/-- the integrand is a sum of products of the two halves -/
theorem integrand_diagonal (hK : K.IsSymm) {k : ℕ} (hL : L = 2 * (k + 1)) (f : Finset (Mode N) → ℝ) (x : Paths L N) :
    electronTrace sys ph K U L 1 (diagonal f) 1 x * Real.exp (-ph.dt * sys.energy ph L (extendX x))
      = ∑ S, ∑ T, f T * (halfPart sys ph K U k S T x * halfPart sys ph K U k S T fun j => x (back hL j)) := by
  have e0 : extendX (fun j => x (back hL j)) 0 = extendX x 0 := by
    rw [extendX_back hL x 0 (by omega), Nat.sub_zero, Nat.mod_self]
  have e1 : extendX (fun j => x (back hL j)) (k + 1) = extendX x (k + 1) := by
    rw [extendX_back hL x (k + 1) (by omega), Nat.mod_eq_of_lt (by omega), show L - (k + 1) = k + 1 by omega]
  rw [electronTrace_diagonal f (by omega), trace_halves (hop_symm hK ph.dt)
    (fun j S => (if j = 0 then f S else 1) * Real.exp (onsite sys ph U (extendX x j) S))
    (fun j S => Real.exp (onsite sys ph U (extendX (fun j => x (back hL j)) j) S)) hL (fun j h1 h2 => by
      funext S
      rw [extendX_back hL x j (by omega), Nat.mod_eq_of_lt (by omega), if_neg (by omega), one_mul]), Finset.sum_mul]
  rw [between_congr (d := fun j S => (if j = 0 then f S else 1) * Real.exp (onsite sys ph U (extendX x j) S))
    (e := fun j S => Real.exp (onsite sys ph U (extendX x j) S)) fun j => by
      funext S
      rw [if_neg (by omega), one_mul]]
  refine Finset.sum_congr rfl fun S _ => ?_
  rw [Finset.sum_mul]
  refine Finset.sum_congr rfl fun T _ => ?_
  unfold halfPart
  rw [e0, e1, energy_halves sys ph hL x, mul_add, Real.exp_add, if_neg (by omega), if_pos rfl]
  have h2 : ∀ a : ℝ, Real.exp a = Real.exp (a / 2) * Real.exp (a / 2) := fun a => by rw [← Real.exp_add, add_halves]
  rw [h2 (onsite sys ph U (extendX x (k + 1)) S), h2 (onsite sys ph U (extendX x 0) T)]
  ring

/-- the same for odd numbers of slices -/
theorem integrand_diagonal_odd (hK : K.IsSymm) (hdt : ph.dt ≠ 0) {k : ℕ} (hL : L = 2 * k + 1) (f : Finset (Mode N) → ℝ)
    (x : Paths L N) :
    electronTrace sys ph K U L 1 (diagonal f) 1 x * Real.exp (-ph.dt * sys.energy ph L (extendX x))
      = ∑ S, ∑ T, f T * oddTerm sys ph K U hL S T x := by
  have e0 : extendX (fun j => x (backOdd hL j)) 0 = extendX x 0 := by
    rw [extendX_backOdd hL x 0 (by omega), Nat.sub_zero, Nat.mod_self]
  rw [electronTrace_diagonal f (by omega), trace_halves_odd (hop_symm hK (ph.dt / 2)) (hop_square (K := K) ph.dt)
    (fun j S => (if j = 0 then f S else 1) * Real.exp (onsite sys ph U (extendX x j) S))
    (fun j S => Real.exp (onsite sys ph U (extendX (fun j => x (backOdd hL j)) j) S)) hL (fun j h1 h2 => by
      funext S
      rw [extendX_backOdd hL x j (by omega), Nat.mod_eq_of_lt (by omega), if_neg (by omega), one_mul]), Finset.sum_mul]
  rw [upto_congr (d := fun j S => (if j = 0 then f S else 1) * Real.exp (onsite sys ph U (extendX x j) S))
    (e := fun j S => Real.exp (onsite sys ph U (extendX x j) S)) fun j => by
      funext S
      rw [if_neg (by omega), one_mul]]
  refine Finset.sum_congr rfl fun S _ => ?_
  rw [Finset.sum_mul]
  refine Finset.sum_congr rfl fun T _ => ?_
  unfold oddTerm oddPart
  rw [e0, energy_halves_odd sys ph hL x, mul_add, mul_add, Real.exp_add, Real.exp_add, link_eq _ _ hdt, if_pos rfl]
  have h2 : ∀ a : ℝ, Real.exp a = Real.exp (a / 2) * Real.exp (a / 2) := fun a => by rw [← Real.exp_add, add_halves]
  rw [h2 (onsite sys ph U (extendX x 0) T)]
  ring

variable [SigmaFinite rest]

/-- the path integral with a diagonal operator is a sum with weights which are not negative -/
theorem holstein_weights (hr : Light rest) (hdt : 0 < ph.dt)
    (hom : ∀ i, ph.g (sys.orb i) ≠ 0 → ph.omega (sys.orb i) ≠ 0) (hK : K.IsSymm) (hpos : 0 < L) :
    ∃ g : Finset (Mode N) → ℝ, (∀ S, 0 ≤ g S) ∧
      ∀ f, holstein sys ph rest K U L 0 (fun _ => 1) (diagonal f) 1 = ∑ S, g S * f S := by
  have : NeZero L := ⟨hpos.ne'⟩
  have key : ∀ q : Finset (Mode N) → Finset (Mode N) → Paths L N → ℝ,
      (∀ S T, Integrable (q S T) (pathBase sys ph rest L)) → (∀ S T, 0 ≤ ∫ x, q S T x ∂pathBase sys ph rest L) →
      (∀ f x, electronTrace sys ph K U L 1 (diagonal f) 1 x * Real.exp (-ph.dt * sys.energy ph L (extendX x))
        = ∑ S, ∑ T, f T * q S T x) →
      ∃ g : Finset (Mode N) → ℝ, (∀ S, 0 ≤ g S) ∧
        ∀ f, holstein sys ph rest K U L 0 (fun _ => 1) (diagonal f) 1 = ∑ S, g S * f S := by
    intro q hi hn he
    refine ⟨fun T => ∑ S, ∫ x, q S T x ∂pathBase sys ph rest L, fun T => Finset.sum_nonneg fun S _ => hn S T, fun f => ?_⟩
    rw [← holstein_slice (l := 1) hpos]
    unfold holstein
    simp only [mul_one, he]
    rw [integral_finsetSum _ fun S _ => integrable_finsetSum _ fun T _ => (hi S T).const_mul _]
    simp only [integral_finsetSum _ fun T _ => (hi _ T).const_mul _, integral_const_mul]
    rw [Finset.sum_comm]
    refine Finset.sum_congr rfl fun T _ => ?_
    rw [Finset.sum_mul]
    exact Finset.sum_congr rfl fun S _ => mul_comm _ _
  rcases Nat.even_or_odd L with ⟨m, hm⟩ | ⟨k, hL⟩
  · obtain ⟨k, rfl⟩ : ∃ k, m = k + 1 := ⟨m - 1, by omega⟩
    have hL : L = 2 * (k + 1) := by omega
    exact key _ (fun S T => halfPart_integrable (K := K) (U := U) hr hdt hom hL S T)
      (fun S T => reflect_nonneg hL (halfPart_congr hL S T)) fun f x => integrand_diagonal hK hL f x
  · exact key _ (fun S T => oddTerm_integrable (K := K) (U := U) hr hdt hom hL S T)
      (fun S T => oddTerm_nonneg (K := K) (U := U) hr hdt hom hL S T) fun f x => integrand_diagonal_odd hK hdt.ne' hL f x

/-- probabilities of the occupation numbers in the Hubbard-Holstein model -/
theorem holstein_probabilities (hr : Light rest) (h0 : rest ≠ 0) (hdt : 0 < ph.dt)
    (hom : ∀ i, ph.g (sys.orb i) ≠ 0 → ph.omega (sys.orb i) ≠ 0) (hK : K.IsSymm) (hpos : 0 < L) :
    ∃ w : Finset (Mode N) → ℝ, Probabilities w ∧
      ∀ f, holsteinPair sys ph rest K U L 0 (fun _ => 1) (diagonal f) 1 = ∑ S, w S * f S := by
  obtain ⟨g, h1, h2⟩ := holstein_weights (U := U) hr hdt hom hK hpos
  have hZ := partition_positive (U := U) hr h0 hdt hom hK hpos
  have e : holsteinZ sys ph rest K U L = ∑ S, g S := by
    have := h2 fun _ => 1
    rw [show (diagonal fun _ => (1 : ℝ) : Op (Mode N)) = 1 from diagonal_one] at this
    simp only [mul_one] at this
    exact this
  refine ⟨fun S => g S / holsteinZ sys ph rest K U L, ⟨fun S => div_nonneg (h1 S) hZ.le, ?_⟩, fun f => ?_⟩
  · rw [← Finset.sum_div, ← e, div_self hZ.ne']
  · rw [holsteinPair, h2, Finset.sum_div]
    exact Finset.sum_congr rfl fun S _ => by ring

end phonons

/-! ## The expectation values which the results stand for -/

/-- C108 without phonons: all occupation numbers have positive probabilities -/
theorem thermal_occupation (p : SimParams ℝ) [NeZero (sites p)] (L : ℕ) :
    ∃ w : Finset (Mode (sites p)) → ℝ, (∀ S, 0 < w S) ∧ Probabilities w ∧ ∀ (Nx Ny Norb : ℕ) (s t : ℤ) (R : EqF → ℤ → ℝ → Prop),
      EqHolds Nx Ny Norb s t (thermalMean (hubbardStep p) L) R → OccupationMeans Nx Ny Norb s w R := by
  obtain ⟨w, h1, h2, h3⟩ := thermal_probabilities (bondMatrix_symm p)
    (fun i => p.U ((i.val / (p.Nx.toNat * p.Ny.toNat) : ℕ))) p.dt (fun _ => 0) L
  refine ⟨w, h1, ⟨fun S => (h1 S).le, h2⟩, fun Nx Ny Norb s t R h => ?_⟩
  rw [show thermalMean (hubbardStep p) L = fun X => thermalPair (hubbardStep p) L 0 X 1 from
    funext fun X => thermalMean_eq_pair _ _ _] at h
  refine EqHolds.occupation (T := thermalPair (hubbardStep p) L 0) (thermalPair_invariant _ _ _ _ L 0) (fun f => ?_) h
  rw [← thermalMean_eq_pair]
  exact h3 f

/-- C108 in the limit of many time slices -/
theorem gibbs_occupation (p : SimParams ℝ) [NeZero (sites p)] (β : ℝ) :
    ∃ w : Finset (Mode (sites p)) → ℝ, (∀ S, 0 < w S) ∧ Probabilities w ∧ ∀ (Nx Ny Norb : ℕ) (s t : ℤ) (R : EqF → ℤ → ℝ → Prop),
      EqHolds Nx Ny Norb s t (gibbsMean (hubbardOp p) β) R → OccupationMeans Nx Ny Norb s w R := by
  obtain ⟨w, h1, h2, h3⟩ := gibbs_probabilities (bondMatrix_symm p)
    (fun i => p.U ((i.val / (p.Nx.toNat * p.Ny.toNat) : ℕ))) β
  refine ⟨w, h1, ⟨fun S => (h1 S).le, h2⟩, fun Nx Ny Norb s t R h => ?_⟩
  rw [show gibbsMean (hubbardOp p) β = fun X => gibbsPair (hubbardOp p) β 0 X 1 from
    funext fun X => gibbsMean_eq_pair _ _ _] at h
  refine EqHolds.occupation (T := gibbsPair (hubbardOp p) β 0) (gibbsPair_invariant _ _ _ _) (fun f => ?_) h
  rw [← gibbsMean_eq_pair]
  exact h3 f

/-- C108 with phonons, for accepted parameters within the guards -/
theorem holstein_occupation {p : SimParams ℝ} [NeZero (sites p)] (hv : Admissible p) (hg : Guards p) (hN : sites p < 2 ^ 31)
    (hdt : 0 < p.dt) (homega : ∀ o : ℕ, o < p.Norb.toNat → p.phonon.g o ≠ 0 → p.phonon.omega o ≠ 0)
    {rest : Measure ℝ} [SigmaFinite rest] (hr : Light rest) (h0 : rest ≠ 0) {L : ℕ} (hL : 0 < L) :
    ∃ w : Finset (Mode (sites p)) → ℝ, Probabilities w ∧ ∀ (Nx Ny Norb : ℕ) (s t : ℤ) (R : EqF → ℤ → ℝ → Prop),
      EqHolds Nx Ny Norb s t (fun X => holsteinMean p rest L 0 (fun _ => 1) X 1) R →
      OccupationMeans Nx Ny Norb s w R := by
  obtain ⟨mc, hmc⟩ := machine_exists
  obtain ⟨sys, hsys, -⟩ := sys_defined hmc hv hg.U hg.shift hN ""
  obtain ⟨ho, -⟩ := program_describes hv hg sys hsys
  obtain ⟨w, h1, h2⟩ := holstein_probabilities (sys := sys) (ph := phOf p) (U := fun o => p.U o) hr h0 hdt
    (fun i => homega _ (by rw [ho]; exact orbital_lt i)) (bondMatrix_symm p) hL
  refine ⟨w, h1, fun Nx Ny Norb s t R h => ?_⟩
  refine EqHolds.occupation (T := holsteinMean p rest L 0 fun _ => 1) (holsteinMean_invariant p rest L 0 _) (fun f => ?_) h
  rw [← holsteinPair_eq ho]
  exact h2 f

/-! ## The program -/

section program

variable {σ : Type} [MeasurableSpace σ] {P : Measure σ} {mc : Machine} {p : SimParams ℝ}

/-- C108 for runs from scratch: under the hypotheses of C90 the results converge to averages with respect to probabilities of
the occupation numbers -/
theorem program_occupation [NeZero (sites p)] (hmc : mc.Rounds) (hv : Admissible p) (hg : Guards p)
    (hN : sites p < 2 ^ 31) (hp : p.usePhonons = false) (fnbase : String) (rng : Rng σ) (hlaw : rng.Lawful (sites p))
    (hP : rng.Ideal (sites p) P) (sys : Sys Seed (sites p) MeasData) (hsys : sysOf mc p = some sys)
    (hw : ∀ s, sys.weight p.L.toNat s (fun _ _ => 1) ≠ 0)
    (hr : ∀ i : Fin (sites p), p.U ((i.val / (p.Nx.toNat * p.Ny.toNat) : ℕ) : ℤ) = 0 ∨
      ∀ l < p.L.toNat, ∀ x : Field p.L.toNat (sites p),
        sys.weight p.L.toNat (Fock.extend (flipAt l i x)) (fun _ _ => 1)
          ≠ sys.weight p.L.toNat (Fock.extend x) (fun _ _ => 1))
    (hnq : 0 ≤ p.nequil) (hc : 0 < p.neqlt) (hcL : p.neqlt ≤ p.L) (X expX : ℕ → Fin (sites p) → ℝ) (cnt : Counters)
    (maxNsampl : ℕ) :
    let L := p.L.toNat
    let cfg := (mkSetup mc p fnbase).cfg
    let sys' := sys.withRng rng
    ∃ R : ℕ → σ → LoopResult (State σ (sites p) MeasData),
      (∀ (n : ℕ) r, simulate sys' (mkSetup mc p fnbase).ph { cfg with nsampl := n } (fun _ => false) 0
        (freshField rng L (sites p) r).2 (Fock.extend (freshField rng L (sites p) r).1) X expX cnt
        (MeasData.allocate maxNsampl) = some (R n r)) ∧
      let Lim : EqF → ℤ → ℝ → Prop := fun f z v =>
        Converges P (fun n (_ : Unit) r => (R n r).state.meas.eq.arr f z / (R n r).state.meas.eq.sign) v
      (∃ w : Finset (Mode (sites p)) → ℝ, (∀ S, 0 < w S) ∧ Probabilities w ∧
        OccupationMeans p.Nx.toNat p.Ny.toNat p.Norb.toNat p.pbcShift w Lim) ∧
      Physical p.Nx.toNat p.Ny.toNat p.Norb.toNat p.pbcShift Lim := by
  intro L cfg sys'
  have h2 := hv.nx
  have h3 := hv.ny
  obtain ⟨R, hR, he, -⟩ := program_fresh_converges hmc hv hg hN hp fnbase rng hlaw hP sys hsys hw hr hnq X expX cnt maxNsampl
  obtain ⟨w, h4, h5, h6⟩ := thermal_occupation p L
  have h7 := h6 _ _ _ _ _ _ (he hc hcL)
  exact ⟨R, hR, ⟨w, h4, h5, h7⟩, h7.physical (by omega) (by omega) h5⟩

/-- C108 for runs with phonons which start in equilibrium: under the hypotheses of C78 the expected results are averages
with respect to probabilities of the occupation numbers -/
theorem program_occupation_ph {rest : Measure ℝ} [SigmaFinite rest] [NeZero (sites p)] (hmc : mc.Rounds)
    (hv : Admissible p) (hg : Guards p)
    (hN : sites p < 2 ^ 31) (hp : p.usePhonons = true) (hL : 2 ≤ p.L) (hdt : 0 < p.dt)
    (hcoupled : ∀ o : ℕ, o < p.Norb.toNat → p.phonon.g o ≠ 0) (homega : ∀ o : ℕ, o < p.Norb.toNat → p.phonon.omega o ≠ 0)
    (hrest : Light rest) (h0 : rest ≠ 0) (fnbase : String) (rng : Rng σ) (hlaw : rng.Lawful (sites p))
    (hP : rng.Ideal (sites p) P)
    (sys : Sys Seed (sites p) MeasData) (hsys : sysOf mc p = some sys) (stop : ℤ → Bool) (it : ℤ) (cnt : Counters)
    (hc : 0 < eqCount (mkSetup mc p fnbase).cfg stop it) :
    let L := p.L.toNat
    let cfg := (mkSetup mc p fnbase).cfg
    let sys' := sys.withRng rng
    let E := fun f => expectedPh sys' (phOf p) rest L P f
    ∃ R : Conf L (sites p) × σ → LoopResult (State σ (sites p) MeasData),
      (∀ᵐ y ∂(confDist sys' (phOf p) rest L).prod P, simulate sys' (phOf p) cfg stop it y.2 (Fock.extend y.1.1)
        (extendX y.1.2) (sys'.expOf (phOf p) (extendX y.1.2)) cnt (MeasData.allocate (mkSetup mc p fnbase).maxNsampl)
          = some (R y)) ∧
      let Val : EqF → ℤ → ℝ → Prop := fun f z v =>
        E (fun y => (R y).state.meas.eq.arr f z) / E (fun y => (R y).state.meas.eq.sign) = v
      (∃ w : Finset (Mode (sites p)) → ℝ, Probabilities w ∧
        OccupationMeans p.Nx.toNat p.Ny.toNat p.Norb.toNat p.pbcShift w Val) ∧
      Physical p.Nx.toNat p.Ny.toNat p.Norb.toNat p.pbcShift Val := by
  intro L cfg sys' E
  have h2 := hv.nx
  have h3 := hv.ny
  obtain ⟨R, hR, he, -⟩ := program_expected_ph hmc hv hg hN hp hL hdt hcoupled homega hrest fnbase rng hlaw hP sys hsys stop
    it cnt
  obtain ⟨w, h5, h6⟩ := holstein_occupation hv hg hN hdt (fun o ho _ => homega o ho) hrest h0 (L := L) (by omega)
  have h7 := h6 _ _ _ _ _ _ ((eqThermal_iff _ _ _ _ _ _ _).1 (he hc).1)
  exact ⟨R, hR, ⟨w, h5, h7⟩, h7.physical (by omega) (by omega) h5⟩

/-- C108 for long runs with phonons: under the hypotheses of C105 the results converge to averages with respect to
probabilities of the occupation numbers -/
theorem program_occupation_long [NeZero (sites p)] (hmc : mc.Rounds) (hv : Admissible p) (hg : Guards p)
    (hN : sites p < 2 ^ 31) (hmv : Movable p) (fnbase : String) (rng : Rng σ) (hlaw : rng.Lawful (sites p))
    (hP : rng.Ideal (sites p) P) (sys : Sys Seed (sites p) MeasData) (hsys : sysOf mc p = some sys) (cnt : Counters)
    {Ω : Type} [MeasurableSpace Ω] {ν : Measure Ω} [IsFiniteMeasure ν] {ρ : Ω → Conf p.L.toNat (sites p) × σ}
    {s : Ω → ℕ → Fin (sites p) → Fin 2} {X expX : Ω → ℕ → Fin (sites p) → ℝ}
    (hst : Start (sys.withRng rng) (phOf p) (Measure.dirac 0) p.L.toNat P ν ρ s X expX)
    (hc : 0 < p.neqlt) (hcL : p.neqlt ≤ p.L) :
    let su := fun n : ℕ => mkSetup mc { p with nsampl := n } fnbase
    ∃ R : ℕ → Ω → LoopResult (State σ (sites p) MeasData),
      (∀ n : ℕ, ∀ᵐ ω ∂ν, simulate (sys.withRng rng) (su n).ph (su n).cfg (fun _ => false) 0 (ρ ω).2 (s ω) (X ω) (expX ω)
        cnt (MeasData.allocate (su n).maxNsampl) = some (R n ω)) ∧
      let Lim : EqF → ℤ → ℝ → Prop := fun f z v =>
        TendstoInMeasure ν (fun n ω => (R n ω).state.meas.eq.arr f z / (R n ω).state.meas.eq.sign) Filter.atTop fun _ => v
      (∃ w : Finset (Mode (sites p)) → ℝ, Probabilities w ∧
        OccupationMeans p.Nx.toNat p.Ny.toNat p.Norb.toNat p.pbcShift w Lim) ∧
      Physical p.Nx.toNat p.Ny.toNat p.Norb.toNat p.pbcShift Lim := by
  intro su
  have h2 := hv.nx
  have h3 := hv.ny
  have h4 := hv.l
  obtain ⟨R, hR, he, -⟩ := program_converges_ph hmc hv hg hN hmv fnbase rng hlaw hP sys hsys cnt hst
  obtain ⟨w, h5, h6⟩ := holstein_occupation hv hg hN hmv.dt (fun o ho _ => hmv.omega o ho) (Light.dirac 0) Measure.dirac_ne_zero
    (L := p.L.toNat) (by omega)
  have h7 := h6 _ _ _ _ _ _ (he hc hcL).1
  exact ⟨R, hR, ⟨w, h5, h7⟩, h7.physical (by omega) (by omega) h5⟩

end program

theorem sum_states (f : Finset (Mode 1) → ℝ) :
    ∑ S, f S = f ∅ + (f {(0, true)} + (f {(0, false)} + f {(0, true), (0, false)})) := by
  rw [show (Finset.univ : Finset (Finset (Mode 1))) = {∅, {(0, true)}, {(0, false)}, {(0, true), (0, false)}} by decide,
    Finset.sum_insert (by decide), Finset.sum_insert (by decide), Finset.sum_insert (by decide), Finset.sum_singleton]

/-- the probabilities are a restriction: averages with respect to negative weights need not satisfy the bounds -/
example : ∃ w : Finset (Mode 1) → ℝ, ∑ S, w S = 1 ∧ ∑ S, w S * densVal S 0 .densityU < 0 := by
  refine ⟨fun S => if (0, true) ∈ S then (if (0, false) ∈ S then 0 else -1) else if (0, false) ∈ S then 0 else 2, ?_, ?_⟩ <;>
  · rw [sum_states]
    norm_num [densVal]

/-- non-vacuity: half filling of one site, all four states with the same probability -/
example : ∃ w : Finset (Mode 1) → ℝ, Probabilities w ∧ ∑ S, w S * densVal S 0 .densityU = 1 / 2 ∧
    ∑ S, w S * densVal S 0 .doubleocc = 1 / 4 := by
  refine ⟨fun _ => 1 / 4, ⟨fun _ => by norm_num, ?_⟩, ?_, ?_⟩ <;>
  · rw [sum_states]
    norm_num [densVal]

end Verif.MonteCarlo
