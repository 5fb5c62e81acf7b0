import Verif.Lemmas.Fourier
import Verif.Props.Lattice

set_option autoImplicit false

/-!
# C92: the lattice Fourier transform
-/

namespace Verif.Fourier

open Complex

/-- specification: the plane wave with momentum `2π (kx/Nx, ky/Ny)` at the cell `(x, y)` -/
noncomputable def wave (Nx Ny : ℕ) (kx ky x y : ℤ) : ℂ := exp (2 * Real.pi * I * (kx * x / Nx + ky * y / Ny))

/-- specification: the Fourier coefficients of a function on the lattice -/
noncomputable def coeff (Nx Ny : ℕ) (f : ℤ → ℤ → ℝ) (kx ky : ℤ) : ℂ :=
  ∑ x ∈ Finset.range Nx, ∑ y ∈ Finset.range Ny, (f x y : ℂ) * (starRingEnd ℂ) (wave Nx Ny kx ky x y)

theorem wave_eq (Nx Ny : ℕ) (kx ky x y : ℤ) : wave Nx Ny kx ky x y = phase Nx (kx * x) * phase Ny (ky * y) := by
  unfold wave phase
  rw [← Complex.exp_add]
  congr 1
  push_cast
  ring

theorem wave_conj (Nx Ny : ℕ) (kx ky x y : ℤ) :
    (starRingEnd ℂ) (wave Nx Ny kx ky x y) = phase Nx (-(kx * x)) * phase Ny (-(ky * y)) := by
  rw [wave_eq, map_mul, phase_conj, phase_conj]

/-! ## the descriptors -/

/-- the status is that of the first call that fails -/
theorem create_status (Nx Ny : ℤ) (st : List ℤ) (hst : st.length = 12) (junk : LatticeDesc) :
    (create Nx Ny st junk).1 = (st.find? fun s => s ≠ 0).getD 0 := by
  have key : ∀ (fs : List (LatticeDesc → LatticeDesc)) (st : List ℤ) (d : LatticeDesc), st.length = fs.length →
      (runSteps fs st d).1 = (st.find? fun s => s ≠ 0).getD 0 := by
    intro fs
    induction fs with
    | nil =>
      intro st d h
      rw [List.length_eq_zero_iff.1 h]
      rfl
    | cons f fs ih =>
      intro st d h
      cases st with
      | nil => simp at h
      | cons s st =>
        simp only [runSteps, List.find?_cons]
        by_cases hs : s = 0
        · simp only [hs, ne_eq, not_true_eq_false, if_false, decide_false]
          exact ih st (f d) (by simpa using h)
        · simp [hs]
  unfold create
  have h := key (createSteps Nx Ny) st { junk with Nx := Nx, Ny := Ny } (by rw [hst]; rfl)
  simp only
  split
  · exact h
  · exact h

/-- if no call fails then both descriptors are ready -/
theorem create_ok (Nx Ny : ℤ) (junk : LatticeDesc) :
    create Nx Ny (List.replicate 12 0) junk =
      (0, ⟨⟨(Ny, Nx), true, true, (0, Nx, 1), (0, Int.tdiv Nx 2 + 1, 1), true⟩,
        ⟨(Ny, Nx), true, true, (0, Int.tdiv Nx 2 + 1, 1), (0, Nx, 1), true⟩, 1 / (Nx * Ny : ℤ), Nx, Ny⟩) := by
  simp [create, createSteps, runSteps, Dfti.create, Dfti.set, List.replicate]

section transform

variable {Nx Ny : ℕ} (hx : 0 < Nx) (hy : 0 < Ny) {junk : LatticeDesc}

/-- the descriptor for the lattice -/
noncomputable abbrev descOf (Nx Ny : ℕ) (junk : LatticeDesc) : LatticeDesc := (create Nx Ny (List.replicate 12 0) junk).2

theorem half_eq (n : ℕ) : Int.tdiv (n : ℤ) 2 = ((n / 2 : ℕ) : ℤ) := by
  rw [Int.tdiv_eq_ediv_of_nonneg (by omega)]
  omega

/-- the function on the lattice that is stored in a buffer: the cell `(x, y)` has the number `x + Nx*y` (C13) -/
def onLattice (Nx : ℕ) (v : ℤ → ℝ) (x y : ℤ) : ℝ := v (x + Nx * y)

/-- **C92** the forward transform stores the Fourier coefficients with `kx ≤ Nx/2` -/
theorem forward_coeff {v : ℤ → ℝ} {w w' : ℤ → ℂ} (h : Forward (descOf Nx Ny junk).forw v w w') (kx ky : ℕ) (hkx : kx ≤ Nx / 2)
    (hky : ky < Ny) : w' (kx + (Nx / 2 + 1 : ℕ) * ky) = coeff Nx Ny (onLattice Nx v) kx ky := by
  rw [descOf, create_ok] at h
  have h1 := (h ⟨rfl, rfl, rfl⟩).1 ky kx (by omega) (by simpa using hky) (by omega) (by rw [half_eq]; exact_mod_cast hkx)
  simp only [pos, half_eq, Int.toNat_natCast] at h1
  have e : (kx : ℤ) + (Nx / 2 + 1 : ℕ) * ky = 0 + ky * (((Nx / 2 : ℕ) : ℤ) + 1) + kx * 1 := by push_cast; ring
  rw [e, h1, coeff, Finset.sum_comm]
  refine Finset.sum_congr rfl fun x _ => Finset.sum_congr rfl fun y _ => ?_
  have e2 : (0 : ℤ) + y * Nx + x * 1 = x + Nx * y := by ring
  rw [e2, onLattice, wave_conj, mul_comm (phase (Nx : ℤ) _)]

/-- **C92** the forward transform writes `Ny*(Nx/2+1)` elements, not more -/
theorem forward_inside {v : ℤ → ℝ} {w w' : ℤ → ℂ} (h : Forward (descOf Nx Ny junk).forw v w w') (p : ℤ)
    (hp : p < 0 ∨ (Ny * (Nx / 2 + 1) : ℕ) ≤ p) : w' p = w p := by
  rw [descOf, create_ok] at h
  refine (h ⟨rfl, rfl, rfl⟩).2 p fun k₁ k₂ h1 h2 h3 h4 => ?_
  simp only [pos, half_eq] at *
  have h5 : (k₁ + 1) * (((Nx / 2 : ℕ) : ℤ) + 1) ≤ Ny * (((Nx / 2 : ℕ) : ℤ) + 1) := mul_le_mul_of_nonneg_right (by omega) (by omega)
  have h6 : 0 ≤ k₁ * (((Nx / 2 : ℕ) : ℤ) + 1) := mul_nonneg h1 (by omega)
  rw [add_mul, one_mul] at h5
  have e : ((Ny * (Nx / 2 + 1) : ℕ) : ℤ) = Ny * (((Nx / 2 : ℕ) : ℤ) + 1) := by push_cast; ring
  rw [e] at hp
  omega

include hx hy

/-- the coefficients of a real function are conjugate-even -/
theorem coeff_conj (f : ℤ → ℤ → ℝ) (kx ky kx' ky' : ℤ) (h1 : (Nx : ℤ) ∣ kx + kx') (h2 : (Ny : ℤ) ∣ ky + ky') :
    coeff Nx Ny f kx' ky' = (starRingEnd ℂ) (coeff Nx Ny f kx ky) := by
  unfold coeff
  simp only [map_sum, map_mul, Complex.conj_conj, Complex.conj_ofReal]
  refine Finset.sum_congr rfl fun x _ => Finset.sum_congr rfl fun y _ => ?_
  rw [wave_conj, wave_eq]
  congr 2
  · refine phase_congr _ (by omega) ?_
    have e : -(kx' * (x : ℤ)) - kx * x = (kx + kx') * (-x) := by ring
    rw [e]
    exact Dvd.dvd.mul_right h1 _
  · refine phase_congr _ (by omega) ?_
    have e : -(ky' * (y : ℤ)) - ky * y = (ky + ky') * (-y) := by ring
    rw [e]
    exact Dvd.dvd.mul_right h2 _

/-- **C92** the other coefficients are obtained from the stored ones as in the test (lattice_fourier_test.c:57-63) -/
theorem forward_rest {v : ℤ → ℝ} {w w' : ℤ → ℂ} (h : Forward (descOf Nx Ny junk).forw v w w') (kx ky : ℕ) (hkx : Nx / 2 < kx)
    (hkx' : kx < Nx) (hky : ky < Ny) :
    (starRingEnd ℂ) (w' ((Nx - kx : ℕ) + (Nx / 2 + 1 : ℕ) * ((Ny - ky) % Ny : ℕ))) = coeff Nx Ny (onLattice Nx v) kx ky := by
  rw [forward_coeff h (Nx - kx) ((Ny - ky) % Ny) (by omega) (Nat.mod_lt _ hy), ← coeff_conj hx hy _ _ _ (kx : ℤ) (ky : ℤ)]
  · refine ⟨1, ?_⟩
    push_cast [Nat.cast_sub hkx'.le]
    ring
  · have h1 := Nat.mod_add_div (Ny - ky) Ny
    refine ⟨1 - ((Ny - ky) / Ny : ℕ), ?_⟩
    have h2 : (((Ny - ky) % Ny : ℕ) : ℤ) + Ny * ((Ny - ky) / Ny : ℕ) = Ny - ky := by
      rw [← Nat.cast_sub hky.le]
      exact_mod_cast h1
    rw [mul_sub, mul_one]
    omega

/-- inversion of the transform -/
theorem coeff_inv (f : ℤ → ℤ → ℝ) (x y : ℕ) (hxx : x < Nx) (hyy : y < Ny) :
    ∑ ky ∈ Finset.range Ny, ∑ kx ∈ Finset.range Nx, coeff Nx Ny f kx ky * (phase Ny (ky * y) * phase Nx (kx * x))
      = Nx * Ny * f x y := by
  have e : ∀ ky ∈ Finset.range Ny, ∀ kx ∈ Finset.range Nx,
      coeff Nx Ny f kx ky * (phase Ny (ky * y) * phase Nx (kx * x))
        = ∑ x' ∈ Finset.range Nx, ∑ y' ∈ Finset.range Ny,
          (f x' y' : ℂ) * (phase Nx (kx * ((x : ℤ) - x')) * phase Ny (ky * ((y : ℤ) - y'))) := by
    intro ky _ kx _
    unfold coeff
    rw [Finset.sum_mul]
    refine Finset.sum_congr rfl fun x' _ => ?_
    rw [Finset.sum_mul]
    refine Finset.sum_congr rfl fun y' _ => ?_
    rw [wave_conj, mul_sub, mul_sub, sub_eq_add_neg, sub_eq_add_neg, phase_add, phase_add]
    ring
  rw [Finset.sum_congr rfl fun ky hky => Finset.sum_congr rfl fun kx hkx => e ky hky kx hkx]
  have e2 : ∀ ky ∈ Finset.range Ny, ∑ kx ∈ Finset.range Nx, ∑ x' ∈ Finset.range Nx, ∑ y' ∈ Finset.range Ny,
      (f x' y' : ℂ) * (phase Nx (kx * ((x : ℤ) - x')) * phase Ny (ky * ((y : ℤ) - y')))
        = ∑ y' ∈ Finset.range Ny, Nx * (f x y' : ℂ) * phase Ny (ky * ((y : ℤ) - y')) := by
    intro ky _
    rw [Finset.sum_comm]
    have : ∀ x' ∈ Finset.range Nx, ∑ kx ∈ Finset.range Nx, ∑ y' ∈ Finset.range Ny,
        (f x' y' : ℂ) * (phase Nx (kx * ((x : ℤ) - x')) * phase Ny (ky * ((y : ℤ) - y')))
        = if x' = x then ∑ y' ∈ Finset.range Ny, Nx * (f x y' : ℂ) * phase Ny (ky * ((y : ℤ) - y')) else 0 := by
      intro x' hx'
      rw [Finset.sum_comm]
      have s := phase_sum Nx ((x : ℤ) - x') hx.ne'
      have hd : (Nx : ℤ) ∣ (x : ℤ) - x' ↔ x' = x := by
        have h1 := Finset.mem_range.1 hx'
        constructor
        · intro hd
          have := Int.eq_zero_of_abs_lt_dvd hd (by rw [abs_lt]; omega)
          omega
        · rintro rfl
          rw [sub_self]
          exact dvd_zero _
      simp only [hd] at s
      split
      · rename_i hxe
        rw [if_pos hxe] at s
        refine Finset.sum_congr rfl fun y' _ => ?_
        rw [← hxe] at s ⊢
        rw [← s, Finset.sum_mul, Finset.sum_mul]
        exact Finset.sum_congr rfl fun _ _ => by ring
      · rename_i hxe
        rw [if_neg hxe] at s
        refine Finset.sum_eq_zero fun y' _ => ?_
        have : ∀ kx ∈ Finset.range Nx, (f x' y' : ℂ) * (phase Nx (kx * ((x : ℤ) - x')) * phase Ny (ky * ((y : ℤ) - y')))
            = phase Nx (kx * ((x : ℤ) - x')) * ((f x' y' : ℂ) * phase Ny (ky * ((y : ℤ) - y'))) := fun _ _ => by ring
        rw [Finset.sum_congr rfl this, ← Finset.sum_mul, s, zero_mul]
    rw [Finset.sum_congr rfl this, Finset.sum_ite_eq' , if_pos (Finset.mem_range.2 hxx)]
  rw [Finset.sum_congr rfl e2, Finset.sum_comm]
  have e3 : ∀ y' ∈ Finset.range Ny, ∑ ky ∈ Finset.range Ny, Nx * (f x y' : ℂ) * phase Ny (ky * ((y : ℤ) - y'))
      = if y' = y then Nx * (f x y : ℂ) * Ny else 0 := by
    intro y' hy'
    have s := phase_sum Ny ((y : ℤ) - y') hy.ne'
    have hd : (Ny : ℤ) ∣ (y : ℤ) - y' ↔ y' = y := by
      have h1 := Finset.mem_range.1 hy'
      constructor
      · intro hd
        have := Int.eq_zero_of_abs_lt_dvd hd (by rw [abs_lt]; omega)
        omega
      · rintro rfl
        rw [sub_self]
        exact dvd_zero _
    rw [← Finset.mul_sum, s]
    simp only [hd]
    split
    · rename_i h
      rw [h]
    · rw [mul_zero]
  rw [Finset.sum_congr rfl e3, Finset.sum_ite_eq', if_pos (Finset.mem_range.2 hyy)]
  ring

/-- the spectrum of a real function is conjugate-even in the sense of the contract -/
theorem spectrum_conjEven (f : ℤ → ℤ → ℝ) : ConjEven Ny Nx fun ky kx => coeff Nx Ny f kx ky := by
  intro k₁ k₂ h1 h2 h3 h4
  refine coeff_conj hx hy _ _ _ _ _ ?_ ?_
  · rw [Int.emod_def]
    exact ⟨1 - (Nx - k₂) / Nx, by ring⟩
  · rw [Int.emod_def]
    exact ⟨1 - (Ny - k₁) / Ny, by ring⟩

omit hx hy in
/-- the output of the forward transform in the form in which the backward transform reads it -/
theorem spectrum_stored {v : ℤ → ℝ} {w' : ℤ → ℂ}
    (hf : ∀ kx ky : ℕ, kx ≤ Nx / 2 → ky < Ny → w' (kx + (Nx / 2 + 1 : ℕ) * ky) = coeff Nx Ny (onLattice Nx v) kx ky)
    (k₁ k₂ : ℤ) (h1 : 0 ≤ k₁) (h2 : k₁ < Ny) (h3 : 0 ≤ k₂) (h4 : k₂ ≤ Int.tdiv Nx 2) :
    w' (pos (0, Int.tdiv Nx 2 + 1, 1) k₁ k₂) = coeff Nx Ny (onLattice Nx v) k₂ k₁ := by
  rw [half_eq] at h4 ⊢
  obtain ⟨a, rfl⟩ := Int.eq_ofNat_of_zero_le h1
  obtain ⟨b, rfl⟩ := Int.eq_ofNat_of_zero_le h3
  rw [← hf b a (by omega) (by omega)]
  congr 1
  simp only [pos]
  push_cast
  ring

/-- **C92** transforming forward and backward and multiplying by `nfac` gives the input back -/
theorem round_trip {v u u' : ℤ → ℝ} {w w' : ℤ → ℂ} (h : Forward (descOf Nx Ny junk).forw v w w')
    (h' : Backward (descOf Nx Ny junk).back w' u u') (i : ℕ) (hi : i < Nx * Ny) :
    u' i * (descOf Nx Ny junk).nfac = v i := by
  have hf := @forward_coeff Nx Ny junk v w w' h
  rw [descOf, create_ok] at h' ⊢
  have hxm : i % Nx < Nx := Nat.mod_lt _ hx
  have hyd : i / Nx < Ny := Nat.div_lt_of_lt_mul hi
  have h1 := (h' ⟨rfl, rfl, rfl⟩ (fun ky kx => coeff Nx Ny (onLattice Nx v) kx ky) ?_ ?_).1 (i / Nx : ℕ) (i % Nx : ℕ)
    (Int.natCast_nonneg _) (Int.ofNat_lt.2 hyd) (Int.natCast_nonneg _) (Int.ofNat_lt.2 hxm)
  · simp only [pos, Int.toNat_natCast] at h1
    rw [coeff_inv hx hy _ _ _ hxm hyd] at h1
    have e : (0 : ℤ) + (i / Nx : ℕ) * Nx + (i % Nx : ℕ) * 1 = i := by
      have := Nat.mod_add_div i Nx
      have h2 : ((i % Nx : ℕ) : ℤ) + Nx * (i / Nx : ℕ) = i := by exact_mod_cast this
      rw [← h2]
      ring
    have e2 : onLattice Nx v (i % Nx : ℕ) (i / Nx : ℕ) = v i := by
      rw [onLattice]
      congr 1
      rw [← e]
      ring
    rw [e, e2] at h1
    have h3 : u' i = Nx * Ny * v i := by exact_mod_cast h1
    have hx' : (Nx : ℝ) ≠ 0 := by exact_mod_cast hx.ne'
    have hy' : (Ny : ℝ) ≠ 0 := by exact_mod_cast hy.ne'
    simp only [h3]
    push_cast
    field_simp
  · exact spectrum_conjEven hx hy _
  · exact spectrum_stored hf

/-- **C92** the backward transform writes `Nx*Ny` elements, not more -/
theorem backward_inside {v u u' : ℤ → ℝ} {w w' : ℤ → ℂ} (h : Forward (descOf Nx Ny junk).forw v w w')
    (h' : Backward (descOf Nx Ny junk).back w' u u') (p : ℤ) (hp : p < 0 ∨ (Nx * Ny : ℕ) ≤ p) : u' p = u p := by
  have hf := @forward_coeff Nx Ny junk v w w' h
  rw [descOf, create_ok] at h'
  refine (h' ⟨rfl, rfl, rfl⟩ (fun ky kx => coeff Nx Ny (onLattice Nx v) kx ky) ?_ ?_).2 p fun j₁ j₂ h1 h2 h3 h4 => ?_
  · exact spectrum_conjEven hx hy _
  · exact spectrum_stored hf
  · simp only [pos] at *
    have h5 : (j₁ + 1) * (Nx : ℤ) ≤ Ny * Nx := mul_le_mul_of_nonneg_right (by omega) (by omega)
    have h6 : 0 ≤ j₁ * (Nx : ℤ) := mul_nonneg h1 (by omega)
    rw [add_mul, one_mul] at h5
    have e : ((Nx * Ny : ℕ) : ℤ) = Ny * Nx := by push_cast; ring
    rw [e] at hp
    omega

omit hy in
/-- a cell of the buffer and its coordinates -/
theorem back_pos (j₁ j₂ : ℤ) (h3 : 0 ≤ j₂) (h4 : j₂ < Nx) : (j₁ * Nx + j₂) / Nx = j₁ ∧ (j₁ * Nx + j₂) % Nx = j₂ := by
  have hx' : (Nx : ℤ) ≠ 0 := by omega
  constructor
  · rw [add_comm, Int.add_mul_ediv_right _ _ hx', Int.ediv_eq_zero_of_lt h3 h4, zero_add]
  · rw [add_comm, Int.add_mul_emod_self_right, Int.emod_eq_of_lt h3 h4]

omit hx hy in
/-- the contract of the forward transform can be met -/
theorem forward_exists (v : ℤ → ℝ) (w : ℤ → ℂ) : ∃ w', Forward (descOf Nx Ny junk).forw v w w' := by
  rw [descOf, create_ok]
  let m : ℤ := Int.tdiv Nx 2 + 1
  have hm : 0 < m := by simp only [m, half_eq]; omega
  classical
  refine ⟨fun p => if 0 ≤ p / m ∧ p / m < Ny then ∑ j₁ ∈ Finset.range Ny, ∑ j₂ ∈ Finset.range Nx,
    (v (0 + j₁ * Nx + j₂ * 1) : ℂ) * (phase Ny (-((p / m) * j₁)) * phase Nx (-((p % m) * j₂))) else w p, fun _ => ⟨?_, ?_⟩⟩
  · intro k₁ k₂ h1 h2 h3 h4
    have hp : pos (0, m, 1) k₁ k₂ = k₂ + m * k₁ := by simp only [pos]; ring
    have q1 : (k₂ + m * k₁) / m = k₁ := by
      rw [Int.add_mul_ediv_left _ _ hm.ne', Int.ediv_eq_zero_of_lt h3 (by simp only [m]; simp only at h4; omega), zero_add]
    have q2 : (k₂ + m * k₁) % m = k₂ := by
      rw [Int.add_mul_emod_self_left, Int.emod_eq_of_lt h3 (by simp only [m]; simp only at h4; omega)]
    change (if _ then _ else _) = _
    rw [show pos (0, Int.tdiv (Nx : ℤ) 2 + 1, 1) k₁ k₂ = k₂ + m * k₁ from hp, q1, q2, if_pos ⟨h1, h2⟩]
    simp only [pos, Int.toNat_natCast]
  · intro p hp
    change (if _ then _ else _) = _
    rw [if_neg]
    rintro ⟨h1, h2⟩
    refine hp (p / m) (p % m) h1 h2 (Int.emod_nonneg _ hm.ne') ?_ ?_
    · have := Int.emod_lt_of_pos p hm
      simp only [m] at this ⊢
      omega
    · have := Int.emod_add_mul_ediv p m
      simp only [pos]
      change p = 0 + p / m * m + p % m * 1
      rw [mul_comm m] at this
      omega

/-- the contract of the backward transform can be met after a forward transform -/
theorem backward_exists {v : ℤ → ℝ} {w w' : ℤ → ℂ} (h : Forward (descOf Nx Ny junk).forw v w w') (u : ℤ → ℝ) :
    ∃ u', Backward (descOf Nx Ny junk).back w' u u' := by
  have hf := @forward_coeff Nx Ny junk v w w' h
  have hr := @forward_rest Nx Ny hx hy junk v w w' h
  rw [descOf, create_ok]
  classical
  refine ⟨fun p => if 0 ≤ p / Nx ∧ p / Nx < Ny then Nx * Ny * v p else u p, fun _ Z hZ hw => ⟨?_, ?_⟩⟩
  · simp only at hZ hw
    -- the spectrum is that of `v`
    have hcoef : ∀ kx ky : ℕ, kx ≤ Nx / 2 → ky < Ny → Z ky kx = coeff Nx Ny (onLattice Nx v) kx ky := by
      intro kx ky h1 h2
      rw [← hw ky kx (by omega) (by omega) (by omega) (by rw [half_eq]; exact_mod_cast h1), ← hf kx ky h1 h2, half_eq]
      congr 1
      simp only [pos]
      push_cast
      ring
    have hall : ∀ kx ky : ℕ, kx < Nx → ky < Ny → Z ky kx = coeff Nx Ny (onLattice Nx v) kx ky := by
      intro kx ky h1 h2
      by_cases hc : kx ≤ Nx / 2
      · exact hcoef kx ky hc h2
      · have h3 := hZ ky kx (by omega) (by omega) (by omega) (by omega)
        have e1 : ((Ny : ℤ) - ky) % Ny = ((Ny - ky) % Ny : ℕ) := by
          rw [← Nat.cast_sub h2.le, Int.natCast_mod]
        have e2 : ((Nx : ℤ) - kx) % Nx = (Nx - kx : ℕ) := by
          rw [Int.emod_eq_of_lt (by omega) (by omega), Nat.cast_sub h1.le]
        rw [e1, e2] at h3
        have h4 := hcoef (Nx - kx) ((Ny - ky) % Ny) (by omega) (Nat.mod_lt _ hy)
        rw [← hf (Nx - kx) ((Ny - ky) % Ny) (by omega) (Nat.mod_lt _ hy)] at h4
        rw [← hr kx ky (by omega) h1 h2, ← h4, h3, Complex.conj_conj]
    intro j₁ j₂ h1 h2 h3 h4
    simp only at h2 h4
    obtain ⟨b, rfl⟩ := Int.eq_ofNat_of_zero_le h1
    obtain ⟨a, rfl⟩ := Int.eq_ofNat_of_zero_le h3
    have q := back_pos hx (b : ℤ) (a : ℤ) h3 h4
    have e : pos (0, (Nx : ℤ), 1) b a = b * Nx + a := by simp only [pos]; ring
    simp only [e, q.1, if_pos (And.intro h1 h2), Int.toNat_natCast]
    have s := coeff_inv hx hy (onLattice Nx v) a b (by omega) (by omega)
    have e3 : onLattice Nx v a b = v (b * Nx + a) := by
      rw [onLattice]
      congr 1
      ring
    rw [e3] at s
    push_cast
    rw [← s]
    refine Finset.sum_congr rfl fun ky hky => Finset.sum_congr rfl fun kx hkx => ?_
    rw [hall kx ky (Finset.mem_range.1 hkx) (Finset.mem_range.1 hky)]
  · intro p hp
    simp only
    rw [if_neg]
    rintro ⟨h1, h2⟩
    refine hp (p / Nx) (p % Nx) h1 h2 (Int.emod_nonneg _ (by omega)) (Int.emod_lt_of_pos _ (by omega)) ?_
    have := Int.emod_add_mul_ediv p Nx
    simp only [pos]
    rw [mul_comm] at this
    omega

/-- **C92** translations of the lattice (C13) multiply the coefficients by the wave if `pbc_shift` is a multiple
of `Nx` -/
theorem coeff_translate (s : ℤ) (hs : 0 ≤ s) (hd : (Nx : ℤ) ∣ s) (junkMap : ℤ → ℤ) (v : ℤ → ℝ) (ax ay : ℕ) (hax : ax < Nx) (hay : ay < Ny) (kx ky : ℤ) :
    coeff Nx Ny (onLattice Nx fun c => v (Lattice.cellAdd Nx Ny s junkMap (ax + Nx * ay) c)) kx ky
      = wave Nx Ny kx ky ax ay * coeff Nx Ny (onLattice Nx v) kx ky := by
  have hx' : (Nx : ℤ) ≠ 0 := by omega
  have hy' : (Ny : ℤ) ≠ 0 := by omega
  -- the periodic continuation
  let g : ℤ → ℤ → ℂ := fun x y => v (Lattice.cellOf Nx Ny s x y) * (phase Nx (-(kx * x)) * phase Ny (-(ky * y)))
  have gx : ∀ x y, g (x + Nx) y = g x y := by
    intro x y
    simp only [g]
    congr 2
    · rw [Lattice.cellOf, Lattice.cellOf, add_right_comm, Int.add_emod_right]
    · refine phase_congr _ hx' ⟨-kx, ?_⟩
      ring
  have gy : ∀ x y, g x (y + Ny) = g x y := by
    intro x y
    simp only [g]
    congr 2
    · rw [Lattice.cellOf, Lattice.cellOf, Int.add_emod_right, Int.add_ediv_of_dvd_right (dvd_refl _), Int.ediv_self hy',
        mul_add, mul_one, ← add_assoc]
      congr 2
      rw [Int.add_emod, Int.emod_eq_zero_of_dvd hd, add_zero, Int.emod_emod]
    · refine phase_congr _ hy' ⟨-ky, ?_⟩
      ring
  have e1 : coeff Nx Ny (onLattice Nx v) kx ky = ∑ x ∈ Finset.range Nx, ∑ y ∈ Finset.range Ny, g x y := by
    refine Finset.sum_congr rfl fun x h1 => Finset.sum_congr rfl fun y h2 => ?_
    have h1 := Finset.mem_range.1 h1
    have h2 := Finset.mem_range.1 h2
    rw [wave_conj]
    simp only [g, onLattice]
    rw [Lattice.cellOf_self Nx Ny s x y (by omega) (by omega) (by omega) (by omega)]
  have e2 : coeff Nx Ny (onLattice Nx fun c => v (Lattice.cellAdd Nx Ny s junkMap (ax + Nx * ay) c)) kx ky
      = wave Nx Ny kx ky ax ay * ∑ x ∈ Finset.range Nx, ∑ y ∈ Finset.range Ny, g (x + ax) (y + ay) := by
    rw [Finset.mul_sum]
    refine Finset.sum_congr rfl fun x h1 => ?_
    rw [Finset.mul_sum]
    refine Finset.sum_congr rfl fun y h2 => ?_
    have h1 := Finset.mem_range.1 h1
    have h2 := Finset.mem_range.1 h2
    have hc := Lattice.sumMap_is_addition Nx Ny hx hy s hs junkMap ax ay x y
    rw [Lattice.cellOf_self Nx Ny s x y (by omega) (by omega) (by omega) (by omega),
      Lattice.cellOf_self Nx Ny s ax ay (by omega) (by omega) (by omega) (by omega)] at hc
    simp only [onLattice, g, hc]
    rw [wave_conj, wave_eq]
    rw [add_comm (x : ℤ) ax, add_comm (y : ℤ) ay, mul_add, mul_add, neg_add, neg_add, phase_add, phase_add]
    have p1 : phase Nx (kx * ax) * phase Nx (-(kx * ax)) = 1 := by rw [← phase_add, add_neg_cancel, phase_zero]
    have p2 : phase Ny (ky * ay) * phase Ny (-(ky * ay)) = 1 := by rw [← phase_add, add_neg_cancel, phase_zero]
    linear_combination (-(v (Lattice.cellOf Nx Ny s (ax + x) (ay + y)) : ℂ) * phase Nx (-(kx * x)) * phase Ny (-(ky * y)))
      * (phase Ny (ky * ay) * phase Ny (-(ky * ay)) * p1 + p2)
  rw [e1, e2]
  congr 1
  have e3 : ∀ x ∈ Finset.range Nx, ∑ y ∈ Finset.range Ny, g (x + ax) (y + ay) = ∑ y ∈ Finset.range Ny, g (x + ax) y :=
    fun x _ => periodic_sum (h := fun y => g (x + ax) y) (fun y => gy _ y) ay
  rw [Finset.sum_congr rfl e3]
  exact periodic_sum (h := fun x => ∑ y ∈ Finset.range Ny, g x y) (fun x => Finset.sum_congr rfl fun y _ => gx x y) ax

/-- **C92** and only then: for any other shift the translation by one row does not multiply the coefficients by the
wave -/
theorem coeff_translate_iff (hy2 : 1 < Ny) (s : ℤ) (hs : 0 ≤ s) (junkMap : ℤ → ℤ) :
    (∀ (v : ℤ → ℝ) (ax ay : ℕ), ax < Nx → ay < Ny → ∀ kx ky : ℤ,
      coeff Nx Ny (onLattice Nx fun c => v (Lattice.cellAdd Nx Ny s junkMap (ax + Nx * ay) c)) kx ky
        = wave Nx Ny kx ky ax ay * coeff Nx Ny (onLattice Nx v) kx ky) ↔ (Nx : ℤ) ∣ s := by
  refine ⟨fun h => ?_, fun hd v ax ay hax hay kx ky => coeff_translate hx hy s hs hd junkMap v ax ay hax hay kx ky⟩
  have hx' : (Nx : ℤ) ≠ 0 := by omega
  classical
  have h1 := h (fun c => if c = 0 then 1 else 0) 0 1 hx hy2 1 0
  have w1 : wave Nx Ny 1 0 (0 : ℕ) (1 : ℕ) = 1 := by
    rw [wave_eq, zero_mul, phase_zero, Nat.cast_zero, mul_zero, phase_zero, one_mul]
  have c1 : coeff Nx Ny (onLattice Nx fun c => if c = 0 then 1 else 0) 1 0 = 1 := by
    unfold coeff
    rw [Finset.sum_eq_single_of_mem 0 (Finset.mem_range.2 hx), Finset.sum_eq_single_of_mem 0 (Finset.mem_range.2 hy)]
    · rw [wave_conj]
      simp [onLattice, phase_zero]
    · intro y _ h2
      have : (Nx : ℤ) * y ≠ 0 := mul_ne_zero hx' (by exact_mod_cast h2)
      simp [onLattice, this]
    · intro x h2 h3
      refine Finset.sum_eq_zero fun y _ => ?_
      have : (x : ℤ) + Nx * y ≠ 0 := by
        have : 0 ≤ (Nx : ℤ) * y := by positivity
        omega
      simp only [onLattice, if_neg this, Complex.ofReal_zero, zero_mul]
  have c2 : coeff Nx Ny (onLattice Nx fun c => if Lattice.cellAdd Nx Ny s junkMap ((0 : ℕ) + Nx * (1 : ℕ)) c = 0 then 1 else 0) 1 0
      = phase Nx s := by
    have hm0 := Int.emod_nonneg (-s) hx'
    have hm1 := Int.emod_lt_of_pos (-s) (show (0 : ℤ) < Nx by omega)
    obtain ⟨x₀, hx₀⟩ := Int.eq_ofNat_of_zero_le hm0
    have key : ∀ x y : ℕ, x < Nx → y < Ny →
        (Lattice.cellAdd Nx Ny s junkMap ((0 : ℕ) + Nx * (1 : ℕ)) (x + Nx * y) = 0 ↔ x = x₀ ∧ y = Ny - 1) := by
      intro x y h2 h3
      have hc := Lattice.sumMap_is_addition Nx Ny hx hy s hs junkMap (0 : ℕ) (1 : ℕ) x y
      rw [Lattice.cellOf_self Nx Ny s x y (by omega) (by omega) (by omega) (by omega),
        Lattice.cellOf_self Nx Ny s (0 : ℕ) (1 : ℕ) (by omega) (by omega) (by omega) (by omega)] at hc
      rw [hc, Lattice.cellOf, Nat.cast_zero, Nat.cast_one, zero_add]
      have p0 := Int.emod_nonneg ((x : ℤ) + s * ((1 + y) / Ny)) hx'
      constructor
      · intro h4
        have h5 := Int.emod_nonneg (1 + (y : ℤ)) (show (Ny : ℤ) ≠ 0 by omega)
        have h6 : (1 + (y : ℤ)) % Ny = 0 := by
          by_contra hne
          have : (0 : ℤ) < Nx * ((1 + y) % Ny) := mul_pos (by omega) (by omega)
          omega
        have h7 : y = Ny - 1 := by
          by_contra hne
          rw [Int.emod_eq_of_lt (by omega) (by omega)] at h6
          omega
        refine ⟨?_, h7⟩
        have h8 : (1 + (y : ℤ)) / Ny = 1 := by
          rw [h7, Nat.cast_sub hy, Nat.cast_one, add_sub_cancel, Int.ediv_self (by omega)]
        rw [h6, h8, mul_zero, add_zero, mul_one] at h4
        have h9 : ((x : ℤ) - -s) % Nx = 0 := by rw [sub_neg_eq_add]; exact h4
        have h10 := (Int.emod_eq_emod_iff_emod_sub_eq_zero).2 h9
        rw [Int.emod_eq_of_lt (by omega) (by omega), hx₀] at h10
        exact_mod_cast h10
      · rintro ⟨rfl, rfl⟩
        rw [Nat.cast_sub hy, Nat.cast_one, add_sub_cancel, Int.ediv_self (by omega), Int.emod_self, mul_zero, add_zero, mul_one]
        have : ((x : ℤ)) % Nx = (-s) % Nx := by
          rw [← Int.natCast_emod]
          rw [Nat.mod_eq_of_lt h2, hx₀]
        rw [Int.add_emod, this, ← Int.add_emod, neg_add_cancel, Int.zero_emod]
    have hx1 : x₀ < Nx := by
      have : (x₀ : ℤ) < Nx := hx₀ ▸ hm1
      exact_mod_cast this
    unfold coeff
    rw [Finset.sum_eq_single_of_mem x₀ (Finset.mem_range.2 hx1), Finset.sum_eq_single_of_mem (Ny - 1) (Finset.mem_range.2 (by omega))]
    · rw [onLattice, if_pos ((key x₀ (Ny - 1) hx1 (by omega)).2 ⟨rfl, rfl⟩), wave_conj, zero_mul, neg_zero, phase_zero, mul_one,
        Complex.ofReal_one, one_mul, one_mul]
      refine phase_congr _ hx' ?_
      have : (x₀ : ℤ) = (-s) % Nx := hx₀.symm
      rw [this, Int.emod_def]
      exact ⟨(-s) / Nx, by ring⟩
    · intro y h2 h3
      rw [onLattice, if_neg fun h4 => h3 ((key x₀ y hx1 (Finset.mem_range.1 h2)).1 h4).2, Complex.ofReal_zero, zero_mul]
    · intro x h2 h3
      refine Finset.sum_eq_zero fun y h4 => ?_
      rw [onLattice, if_neg fun h5 => h3 ((key x y (Finset.mem_range.1 h2) (Finset.mem_range.1 h4)).1 h5).1, Complex.ofReal_zero,
        zero_mul]
  rw [w1, c1, one_mul] at h1
  exact (phase_eq_one_iff _ _ hx').1 (c2.symm.trans h1)

end transform

/-- non-vacuity: on a 5×6 lattice there are the buffers of the theorems above, and the spectrum of an impulse in the
cell 7 = (2, 1) at the momentum (4, 5) is read from the stored element (1, 1) -/
example (junk : LatticeDesc) : ∃ (w w' : ℤ → ℂ) (u u' : ℤ → ℝ),
    Forward (descOf 5 6 junk).forw (fun i => if i = 7 then 1 else 0) w w' ∧ Backward (descOf 5 6 junk).back w' u u' ∧
    (starRingEnd ℂ) (w' 4) = coeff 5 6 (onLattice 5 fun i => if i = 7 then 1 else 0) 4 5 ∧ u' 7 = 30 ∧ u' 8 = 0 := by
  obtain ⟨w', h⟩ := forward_exists (Nx := 5) (Ny := 6) (junk := junk) (fun i => if i = 7 then 1 else 0) 0
  obtain ⟨u', h'⟩ := backward_exists (by decide) (by decide) h 0
  have h1 := forward_rest (by decide) (by decide) h 4 5 (by decide) (by decide) (by decide)
  have h2 := round_trip (by decide) (by decide) h h' 7 (by decide)
  have h3 := round_trip (by decide) (by decide) h h' 8 (by decide)
  refine ⟨0, w', 0, u', h, h', ?_, ?_, ?_⟩
  · exact_mod_cast h1
  · rw [descOf, create_ok] at h2
    norm_num at h2
    linarith
  · rw [descOf, create_ok] at h3
    norm_num at h3
    exact h3

/-- non-vacuity: on a 4×3 lattice the shift 1 is not a multiple of 4, the shift 8 is -/
example : ¬ ((4 : ℕ) : ℤ) ∣ 1 ∧ ((4 : ℕ) : ℤ) ∣ 8 := by decide

/-- a failure of the seventh call is reported -/
example (junk : LatticeDesc) : (create 4 6 [0, 0, 0, 0, 0, 0, 3, 0, 0, 0, 0, 0] junk).1 = 3 := by
  rw [create_status _ _ _ rfl]
  rfl

end Verif.Fourier
