import Verif.Model.Kinetic
import Verif.Props.Lattice
import Mathlib.Tactic.FinCases
import Mathlib.Tactic.NormNum
import Mathlib.Analysis.Normed.Algebra.MatrixExponential
import Mathlib.Analysis.Matrix.PosDef
import Mathlib.Analysis.Matrix.Spectrum

/-! # Properties C15–C18: the hopping matrix and its exponentials -/

set_option autoImplicit false

namespace Verif.Kinetic

open Verif.Mem Verif.Lattice Verif.Params

/-! ## Specification: the bonds of the lattice -/

/-- the five kinds of bonds (kinetic.c:46-52) -/
inductive Bond
  | aa | ab | ac | ad | bc
  deriving DecidableEq

/-- amplitudes of a kind of bond -/
def Bond.amp (t : Hoppings ℝ) : Bond → ℤ → ℝ
  | aa => t.aa
  | ab => t.ab
  | ac => t.ac
  | ad => t.ad
  | bc => t.bc

/-- cell of the first end, relative to the base cell -/
def Bond.src : Bond → ℤ × ℤ
  | bc => (1, 0)
  | _ => (0, 0)

/-- cell of the second end, relative to the base cell -/
def Bond.dst : Bond → ℤ × ℤ
  | aa => (0, 0)
  | ab => (1, 0)
  | ac => (0, 1)
  | ad => (1, 1)
  | bc => (0, 1)

def Bond.all : List Bond := [.aa, .ab, .ac, .ad, .bc]

/-- index of the site in cell (x, y) of the twisted periodic lattice and orbital `o` -/
def site (Nx Ny : ℕ) (s x y o : ℤ) : ℤ := cellOf Nx Ny s x y + o * (Nx * Ny : ℕ)

/-- first and second end of the bond with base cell (x, y) between orbitals o and p -/
def Bond.first (k : Bond) (Nx Ny : ℕ) (s x y o : ℤ) : ℤ := site Nx Ny s (x + k.src.1) (y + k.src.2) o
def Bond.second (k : Bond) (Nx Ny : ℕ) (s x y p : ℤ) : ℤ := site Nx Ny s (x + k.dst.1) (y + k.dst.2) p

/-- how often the bond joins site `r` with site `c` (0, 1 or, if both ends are the same, 2) -/
def Bond.joins (k : Bond) (Nx Ny : ℕ) (s x y o p r c : ℤ) : ℕ :=
  (if k.first Nx Ny s x y o = r ∧ k.second Nx Ny s x y p = c then 1 else 0) +
  (if k.first Nx Ny s x y o = c ∧ k.second Nx Ny s x y p = r then 1 else 0)

/-- sum of the amplitudes of all bonds joining `r` and `c` -/
noncomputable def bondSum (Norb Nx Ny : ℕ) (s : ℤ) (t : Hoppings ℝ) (r c : ℤ) : ℝ :=
  ∑ o ∈ Finset.range Norb, ∑ p ∈ Finset.range Norb, ∑ y ∈ Finset.range Ny, ∑ x ∈ Finset.range Nx,
    (Bond.all.map fun k => (k.joins Nx Ny s x y o p r c : ℝ) * k.amp t (o + p * Norb)).sum

/-! ## Proofs -/

theorem cell_a (Nx Ny : ℕ) (s : ℤ) (i j : ℕ) (hi : i < Nx) (hj : j < Ny) :
    (i : ℤ) + j * Nx = cellOf Nx Ny s i j := by
  rw [cellOf_self _ _ _ _ _ (by omega) (by omega) (by omega) (by omega)]; ring

theorem cell_b (Nx Ny : ℕ) (s : ℤ) (i j : ℕ) (hi : i < Nx) (hj : j < Ny) :
    nextIdx Nx i + (j : ℤ) * Nx = cellOf Nx Ny s (i + 1) j := by
  rw [nextIdx_eq_emod _ _ (by omega) (by omega)]
  unfold cellOf
  rw [Int.ediv_eq_zero_of_lt (by omega) (by omega), mul_zero, add_zero,
    Int.emod_eq_of_lt (by omega : (0 : ℤ) ≤ j) (by omega)]
  ring

theorem cell_is (Nx Ny : ℕ) (s : ℤ) (hs : 0 ≤ s) (i j : ℕ) (hj : j < Ny) :
    Int.tmod ((i : ℤ) + (if nextIdx Ny j = 0 then s else 0)) Nx
      = (i + s * (((j : ℤ) + 1) / Ny)) % Nx := by
  have hN : (0 : ℤ) < Ny := by omega
  rw [Int.tmod_eq_emod_of_nonneg (by split <;> omega)]
  congr 2
  unfold nextIdx
  split
  · rw [if_neg (by omega), Int.ediv_eq_zero_of_lt (by omega) (by omega), mul_zero]
  · have : (j : ℤ) + 1 = Ny := by omega
    rw [if_pos rfl, this, Int.ediv_self hN.ne', mul_one]

theorem cell_c (Nx Ny : ℕ) (s : ℤ) (hs : 0 ≤ s) (i j : ℕ) (hj : j < Ny) :
    Int.tmod ((i : ℤ) + (if nextIdx Ny j = 0 then s else 0)) Nx + nextIdx Ny j * Nx
      = cellOf Nx Ny s i (j + 1) := by
  rw [cell_is Nx Ny s hs i j hj, nextIdx_eq_emod _ _ (by omega) (by omega)]
  unfold cellOf; ring

theorem cell_d (Nx Ny : ℕ) (s : ℤ) (hs : 0 ≤ s) (i j : ℕ) (hx : 0 < Nx) (hj : j < Ny) :
    nextIdx Nx (Int.tmod ((i : ℤ) + (if nextIdx Ny j = 0 then s else 0)) Nx) + nextIdx Ny j * Nx
      = cellOf Nx Ny s (i + 1) (j + 1) := by
  have hx' : (0 : ℤ) < Nx := by exact_mod_cast hx
  rw [cell_is Nx Ny s hs i j hj, nextIdx_eq_emod Ny _ (by omega) (by omega),
    nextIdx_eq_emod _ _ (Int.emod_nonneg _ hx'.ne') (Int.emod_lt_of_pos _ hx')]
  unfold cellOf
  rw [Int.emod_add_emod]
  ring_nf

/-- site indices are in range -/
theorem site_range (Norb Nx Ny : ℕ) (hx : 0 < Nx) (hy : 0 < Ny) (s x y : ℤ) (o : ℕ) (ho : o < Norb) :
    0 ≤ site Nx Ny s x y o ∧ site Nx Ny s x y o < (Norb * (Nx * Ny) : ℕ) := by
  have h1 := cellOf_nonneg Nx Ny hx hy s x y
  have h2 := cellOf_lt Nx Ny hx hy s x y
  unfold site
  constructor
  · positivity
  · have : ((o : ℤ) + 1) * (Nx * Ny : ℕ) ≤ Norb * (Nx * Ny : ℕ) :=
      mul_le_mul_of_nonneg_right (by omega) (by positivity)
    push_cast at *
    linarith

/-- the writes of the loop nest, in terms of the bonds -/
theorem hopWrites_eq (Norb Nx Ny : ℕ) (hx : 0 < Nx) (s : ℤ) (hs : 0 ≤ s) (t : Hoppings ℝ) :
    hopWrites Norb Nx Ny s t = forLoop Norb fun o => forLoop Norb fun p => forLoop Ny fun j =>
      forLoop Nx fun i => Bond.all.flatMap fun k =>
        [(k.first Nx Ny s i j o + k.second Nx Ny s i j p * ((Norb * (Nx * Ny) : ℕ) : ℤ),
            - k.amp t (o + p * Norb)),
          (k.first Nx Ny s i j o * ((Norb * (Nx * Ny) : ℕ) : ℤ) + k.second Nx Ny s i j p,
            - k.amp t (o + p * Norb))] := by
  have hcongr : ∀ {β : Type} (n : ℕ) (f g : ℕ → List β), (∀ i < n, f i = g i) →
      forLoop n f = forLoop n g := by
    intro β n f g h
    unfold forLoop
    rw [List.flatMap_def, List.flatMap_def, List.map_congr_left]
    intro i hi
    exact h i (List.mem_range.1 hi)
  unfold hopWrites
  refine hcongr _ _ _ fun o _ => hcongr _ _ _ fun p _ => hcongr _ _ _ fun j hj =>
    hcongr _ _ _ fun i hi => ?_
  simp only [cell_a Nx Ny s i j hi hj, cell_b Nx Ny s i j hi hj, cell_c Nx Ny s hs i j hj,
    cell_d Nx Ny s hs i j hx hj, bondWrites, Bond.all, List.flatMap_cons, List.flatMap_nil,
    Bond.first, Bond.second, Bond.src, Bond.dst, site, Bond.amp, add_zero, List.append_nil]

theorem pair_index_range {N r c : ℤ} (hr : 0 ≤ r) (hr' : r < N) (hc : 0 ≤ c) (hc' : c < N) :
    0 ≤ r + c * N ∧ r + c * N < N * N := by
  constructor
  · nlinarith
  · nlinarith

theorem pair_index_inj {N : ℕ} {r c r' c' : ℤ} (hr : 0 ≤ r) (hr' : r < N) (h2 : 0 ≤ r') (h2' : r' < N) :
    r + c * N = r' + c' * N ↔ r = r' ∧ c = c' := by
  constructor
  · intro h
    have hN : 0 < N := by omega
    exact idx_decomp hN hr hr' h2 h2' (by rw [mul_comm _ c, mul_comm _ c']; exact h)
  · rintro ⟨rfl, rfl⟩; rfl

theorem hop_entry (Norb Nx Ny : ℕ) (hx : 0 < Nx) (hy : 0 < Ny) (s : ℤ) (hs : 0 ≤ s) (t : Hoppings ℝ)
    (r c : ℤ) (hr : 0 ≤ r) (hr' : r < (Norb * (Nx * Ny) : ℕ)) :
    addAll (fun _ => 0) (hopWrites Norb Nx Ny s t) (r + c * (Norb * (Nx * Ny) : ℕ))
      = - bondSum Norb Nx Ny s t r c := by
  rw [addAll_apply, zero_add, hopWrites_eq Norb Nx Ny hx s hs, bondSum]
  simp only [sum_forLoop, ← Finset.sum_neg_distrib]
  refine Finset.sum_congr rfl fun o ho => Finset.sum_congr rfl fun p hp =>
    Finset.sum_congr rfl fun j _ => Finset.sum_congr rfl fun i _ => ?_
  have key : ∀ k : Bond, (if k.first Nx Ny s i j o + k.second Nx Ny s i j p * (Norb * (Nx * Ny) : ℕ)
        = r + c * (Norb * (Nx * Ny) : ℕ) then - k.amp t (o + p * Norb) else 0) +
      (if k.first Nx Ny s i j o * (Norb * (Nx * Ny) : ℕ) + k.second Nx Ny s i j p
        = r + c * (Norb * (Nx * Ny) : ℕ) then - k.amp t (o + p * Norb) else 0)
      = - ((k.joins Nx Ny s i j o p r c : ℝ) * k.amp t (o + p * Norb)) := by
    intro k
    have h1 : 0 ≤ k.first Nx Ny s i j o ∧ k.first Nx Ny s i j o < (Norb * (Nx * Ny) : ℕ) :=
      site_range Norb Nx Ny hx hy s _ _ o (Finset.mem_range.1 ho)
    have h2 : 0 ≤ k.second Nx Ny s i j p ∧ k.second Nx Ny s i j p < (Norb * (Nx * Ny) : ℕ) :=
      site_range Norb Nx Ny hx hy s _ _ p (Finset.mem_range.1 hp)
    rw [add_comm (k.first Nx Ny s i j o * _)]
    simp only [pair_index_inj h1.1 h1.2 hr hr', pair_index_inj h2.1 h2.2 hr hr',
      and_comm (a := k.second Nx Ny s i j p = r)]
    unfold Bond.joins
    split <;> split <;> push_cast <;> ring
  simp only [Bond.all, List.flatMap_cons, List.flatMap_nil, List.map_cons, List.map_nil,
    List.sum_cons, List.sum_nil, List.append_nil, List.map_append, List.sum_append, add_zero]
  have e1 := key .aa
  have e2 := key .ab
  have e3 := key .ac
  have e4 := key .ad
  have e5 := key .bc
  linarith

theorem hopWrites_bounds (Norb Nx Ny : ℕ) (hx : 0 < Nx) (hy : 0 < Ny) (s : ℤ) (hs : 0 ≤ s)
    (t : Hoppings ℝ) (w : ℤ × ℝ) (hw : w ∈ hopWrites Norb Nx Ny s t) :
    0 ≤ w.1 ∧ w.1 < ((Norb * (Nx * Ny) : ℕ) : ℤ) * (Norb * (Nx * Ny) : ℕ) := by
  rw [hopWrites_eq Norb Nx Ny hx s hs] at hw
  simp only [mem_forLoop, List.mem_flatMap, List.mem_cons, List.not_mem_nil, or_false] at hw
  obtain ⟨o, ho, p, hp, j, hj, i, hi, k, -, hw⟩ := hw
  have h1 : 0 ≤ k.first Nx Ny s i j o ∧ k.first Nx Ny s i j o < (Norb * (Nx * Ny) : ℕ) :=
    site_range Norb Nx Ny hx hy s _ _ o ho
  have h2 : 0 ≤ k.second Nx Ny s i j p ∧ k.second Nx Ny s i j p < (Norb * (Nx * Ny) : ℕ) :=
    site_range Norb Nx Ny hx hy s _ _ p hp
  rcases hw with rfl | rfl
  · exact pair_index_range h1.1 h1.2 h2.1 h2.2
  · rw [add_comm]; exact pair_index_range h2.1 h2.2 h1.1 h1.2

theorem diagWrites_bounds (Norb Nx Ny : ℕ) (eps : ℤ → ℝ) (mu : ℝ) (w : ℤ × ℝ)
    (hw : w ∈ diagWrites Norb Nx Ny eps mu) :
    0 ≤ w.1 ∧ w.1 < ((Norb * (Nx * Ny) : ℕ) : ℤ) * (Norb * (Nx * Ny) : ℕ) := by
  simp only [diagWrites, mem_forLoop, List.mem_cons, List.not_mem_nil, or_false] at hw
  obtain ⟨o, ho, i, hi, rfl⟩ := hw
  have h1 : (i : ℤ) + o * (Nx * Ny : ℕ) < (Norb * (Nx * Ny) : ℕ) := by
    have : (i : ℕ) + o * (Nx * Ny) < Norb * (Nx * Ny) :=
      calc i + o * (Nx * Ny) < (o + 1) * (Nx * Ny) := by rw [add_mul, one_mul, add_comm]; omega
        _ ≤ Norb * (Nx * Ny) := Nat.mul_le_mul_right _ ho
    exact_mod_cast this
  simp only
  rw [mul_comm ((Norb * (Nx * Ny) : ℕ) : ℤ) (_ + _)]
  exact pair_index_range (by positivity) h1 (by positivity) h1

/-- entry (r, c) of a column-major array -/
def entry (N : ℕ) (T : ℤ → ℝ) (r c : ℤ) : ℝ := T (r + c * N)

theorem hopping_defined (Norb Nx Ny : ℕ) (hx : 0 < Nx) (hy : 0 < Ny) (s : ℤ) (hs : 0 ≤ s)
    (t : Hoppings ℝ) (eps : ℤ → ℝ) (mu : ℝ) :
    hopping Norb Nx Ny s t eps mu = some (assignAll (addAll (fun _ => 0) (hopWrites Norb Nx Ny s t))
      (diagWrites Norb Nx Ny eps mu)) := by
  unfold hopping
  rw [if_pos]
  constructor
  · rw [List.all_eq_true]
    intro w hw
    exact decide_eq_true (hopWrites_bounds Norb Nx Ny hx hy s hs t w hw)
  · rw [List.all_eq_true]
    intro w hw
    exact decide_eq_true (diagWrites_bounds Norb Nx Ny eps mu w hw)

theorem hop_offdiag (Norb Nx Ny : ℕ) (hx : 0 < Nx) (hy : 0 < Ny) (s : ℤ) (hs : 0 ≤ s)
    (t : Hoppings ℝ) (eps : ℤ → ℝ) (mu : ℝ) (r c : ℤ) (hr : 0 ≤ r)
    (hr' : r < (Norb * (Nx * Ny) : ℕ)) (hne : r ≠ c) :
    entry (Norb * (Nx * Ny)) (assignAll (addAll (fun _ => 0) (hopWrites Norb Nx Ny s t))
      (diagWrites Norb Nx Ny eps mu)) r c = - bondSum Norb Nx Ny s t r c := by
  unfold entry
  rw [assignAll_of_not_mem, hop_entry Norb Nx Ny hx hy s hs t r c hr hr']
  intro w hw hwi
  simp only [diagWrites, mem_forLoop, List.mem_cons, List.not_mem_nil, or_false] at hw
  obtain ⟨o, ho, i, hi, rfl⟩ := hw
  simp only at hwi
  have h1 : (i : ℤ) + o * (Nx * Ny : ℕ) < (Norb * (Nx * Ny) : ℕ) := by
    have : (i : ℕ) + o * (Nx * Ny) < Norb * (Nx * Ny) :=
      calc i + o * (Nx * Ny) < (o + 1) * (Nx * Ny) := by rw [add_mul, one_mul, add_comm]; omega
        _ ≤ Norb * (Nx * Ny) := Nat.mul_le_mul_right _ ho
    exact_mod_cast this
  rw [mul_comm ((Norb * (Nx * Ny) : ℕ) : ℤ) (_ + _), pair_index_inj (by positivity) h1 hr hr'] at hwi
  exact hne (hwi.1.symm.trans hwi.2)

theorem hop_diag (Norb Nx Ny : ℕ) (m : ℤ → ℝ)
    (eps : ℤ → ℝ) (mu : ℝ) (o i : ℕ) (ho : o < Norb) (hi : i < Nx * Ny) :
    entry (Norb * (Nx * Ny)) (assignAll m (diagWrites Norb Nx Ny eps mu))
      (i + o * (Nx * Ny : ℕ)) (i + o * (Nx * Ny : ℕ)) = -mu + eps o := by
  have hlt : ∀ o i : ℕ, o < Norb → i < Nx * Ny →
      (i : ℤ) + o * (Nx * Ny : ℕ) < (Norb * (Nx * Ny) : ℕ) := by
    intro o i ho hi
    have : (i : ℕ) + o * (Nx * Ny) < Norb * (Nx * Ny) :=
      calc i + o * (Nx * Ny) < (o + 1) * (Nx * Ny) := by rw [add_mul, one_mul, add_comm]; omega
        _ ≤ Norb * (Nx * Ny) := Nat.mul_le_mul_right _ ho
    exact_mod_cast this
  unfold entry
  apply assignAll_of_mem
  · simp only [diagWrites, mem_forLoop]
    refine ⟨o, ho, i, hi, ?_⟩
    rw [mul_comm _ ((Norb * (Nx * Ny) : ℕ) : ℤ)]
    exact List.mem_singleton.2 rfl
  · intro w hw hwi
    simp only [diagWrites, mem_forLoop, List.mem_cons, List.not_mem_nil, or_false] at hw
    obtain ⟨o', ho', i', hi', rfl⟩ := hw
    simp only at hwi ⊢
    rw [mul_comm ((Norb * (Nx * Ny) : ℕ) : ℤ) (_ + _),
      pair_index_inj (by positivity) (hlt o' i' ho' hi') (by positivity) (hlt o i ho hi)] at hwi
    have h := hwi.1
    have h2 : (o' : ℤ) = o := by
      have := idx_decomp (Nx := Nx * Ny) (by omega) (i := i') (j := o') (i' := i) (j' := o)
        (by omega) (by omega) (by omega) (by omega)
        (by rw [mul_comm _ (o' : ℤ), mul_comm _ (o : ℤ)]; exact h)
      exact this.2
    rw [show o' = o by omega]

theorem joins_comm (k : Bond) (Nx Ny : ℕ) (s x y o p r c : ℤ) :
    k.joins Nx Ny s x y o p r c = k.joins Nx Ny s x y o p c r := by
  unfold Bond.joins; rw [add_comm]

theorem bondSum_comm (Norb Nx Ny : ℕ) (s : ℤ) (t : Hoppings ℝ) (r c : ℤ) :
    bondSum Norb Nx Ny s t r c = bondSum Norb Nx Ny s t c r := by
  unfold bondSum; simp only [joins_comm _ Nx Ny s _ _ _ _ r c]

/-- C15: for every lattice with `pbc_shift ≥ 0` the code stays inside the matrix, the matrix is
symmetric, its off-diagonal entries are minus the sum of the amplitudes of all bonds joining the two
sites, and its diagonal is `-mu + eps` of the orbital. -/
theorem hopping_spec (Norb Nx Ny : ℕ) (hx : 0 < Nx) (hy : 0 < Ny) (s : ℤ) (hs : 0 ≤ s)
    (t : Hoppings ℝ) (eps : ℤ → ℝ) (mu : ℝ) :
    ∃ T, hopping Norb Nx Ny s t eps mu = some T ∧
      (∀ r c : ℤ, 0 ≤ r → r < (Norb * (Nx * Ny) : ℕ) → 0 ≤ c → c < (Norb * (Nx * Ny) : ℕ) →
        entry (Norb * (Nx * Ny)) T r c = entry (Norb * (Nx * Ny)) T c r) ∧
      (∀ r c : ℤ, 0 ≤ r → r < (Norb * (Nx * Ny) : ℕ) → 0 ≤ c → c < (Norb * (Nx * Ny) : ℕ) → r ≠ c →
        entry (Norb * (Nx * Ny)) T r c = - bondSum Norb Nx Ny s t r c) ∧
      (∀ o i : ℕ, o < Norb → i < Nx * Ny →
        entry (Norb * (Nx * Ny)) T (i + o * (Nx * Ny : ℕ)) (i + o * (Nx * Ny : ℕ)) = -mu + eps o) := by
  refine ⟨_, hopping_defined Norb Nx Ny hx hy s hs t eps mu, ?_, ?_, ?_⟩
  · intro r c hr hr' hc hc'
    by_cases h : r = c
    · rw [h]
    · rw [hop_offdiag Norb Nx Ny hx hy s hs t eps mu r c hr hr' h,
        hop_offdiag Norb Nx Ny hx hy s hs t eps mu c r hc hc' (Ne.symm h), bondSum_comm]
  · intro r c hr hr' _ _ h
    exact hop_offdiag Norb Nx Ny hx hy s hs t eps mu r c hr hr' h
  · intro o i ho hi
    exact hop_diag Norb Nx Ny _ eps mu o i ho hi

/-- non-vacuity of the specification: one orbital on a 2×3 lattice; cells 0 and 1 are joined by two
horizontal bonds, cells 0 and 2 by one vertical bond -/
example (t : Hoppings ℝ) : bondSum 1 2 3 0 t 0 1 = 2 * t.ab 0 ∧
    bondSum 1 2 3 0 t 0 2 = t.ac 0 := by
  constructor <;>
  · simp only [bondSum, Finset.sum_range_succ, Finset.sum_range_zero, Bond.all, List.map_cons,
      List.map_nil, List.sum_cons, List.sum_nil, Bond.joins, Bond.first, Bond.second, Bond.src,
      Bond.dst, site, cellOf, Bond.amp]
    norm_num
    try ring

/-- C15 needs `pbc_shift ≥ 0`: a negative shift, which the validation accepts, makes the code leave
the matrix. -/
theorem hopping_negative_shift (t : Hoppings ℝ) (eps : ℤ → ℝ) (mu : ℝ) :
    hopping 1 2 1 (-1) t eps mu = none := by
  unfold hopping
  rw [if_neg]
  rintro ⟨h, -⟩
  rw [List.all_eq_true] at h
  have := h (0 + (-1) * 2, - t.ac 0) (by
    simp [hopWrites, forLoop, bondWrites, nextIdx, List.range_succ])
  simp at this

/-! ## C16: translation invariance -/

/-- sum over the cells in rows and columns = sum over the cell indices -/
theorem sum_cells (Nx Ny : ℕ) (g : ℤ → ℝ) :
    ∑ y ∈ Finset.range Ny, ∑ x ∈ Finset.range Nx, g (x + Nx * y)
      = ∑ c ∈ Finset.range (Nx * Ny), g c := by
  induction Ny with
  | zero => simp
  | succ n ih =>
    rw [Finset.sum_range_succ, ih, Nat.mul_succ, Finset.sum_range_add]
    congr 1
    refine Finset.sum_congr rfl fun x _ => ?_
    congr 1
    push_cast; ring

theorem cellOf_add_congr (Nx Ny : ℕ) (hx : 0 < Nx) (hy : 0 < Ny) (s x y x' y' u v : ℤ) :
    cellOf Nx Ny s (x + u) (y + v) = cellOf Nx Ny s (x' + u) (y' + v) ↔
      cellOf Nx Ny s x y = cellOf Nx Ny s x' y' := by
  rw [cellOf_eq_iff Nx Ny hx hy, cellOf_eq_iff Nx Ny hx hy]
  constructor
  · rintro ⟨m, n, h1, h2⟩; exact ⟨m, n, by linarith, by linarith⟩
  · rintro ⟨m, n, h1, h2⟩; exact ⟨m, n, by linarith, by linarith⟩

/-- coordinates of a cell index -/
theorem cellOf_divMod (Nx Ny : ℕ) (hx : 0 < Nx) (s c : ℤ) (h0 : 0 ≤ c) (h1 : c < (Nx * Ny : ℕ)) :
    cellOf Nx Ny s (c % Nx) (c / Nx) = c := by
  have hx' : (0 : ℤ) < Nx := by exact_mod_cast hx
  rw [cellOf_self _ _ _ _ _ (Int.emod_nonneg _ hx'.ne') (Int.emod_lt_of_pos _ hx')
    (Int.ediv_nonneg h0 hx'.le) (Int.ediv_lt_of_lt_mul hx' (by push_cast at h1; linarith))]
  exact Int.emod_add_mul_ediv c Nx

/-- translating the summation variable of a lattice periodic function -/
theorem sum_box_translate (Nx Ny : ℕ) (hx : 0 < Nx) (hy : 0 < Ny) (s : ℤ) (g : ℤ → ℝ) (u v : ℤ) :
    ∑ y ∈ Finset.range Ny, ∑ x ∈ Finset.range Nx, g (cellOf Nx Ny s (x + u) (y + v))
      = ∑ y ∈ Finset.range Ny, ∑ x ∈ Finset.range Nx, g (cellOf Nx Ny s x y) := by
  have hx' : (0 : ℤ) < Nx := by exact_mod_cast hx
  have h1 : ∀ u v : ℤ,
      ∑ y ∈ Finset.range Ny, ∑ x ∈ Finset.range Nx, g (cellOf Nx Ny s (x + u) (y + v))
      = ∑ c ∈ Finset.range (Nx * Ny), g (cellOf Nx Ny s ((c : ℤ) % Nx + u) ((c : ℤ) / Nx + v)) := by
    intro u v
    rw [← sum_cells Nx Ny (fun c => g (cellOf Nx Ny s (c % Nx + u) (c / Nx + v)))]
    refine Finset.sum_congr rfl fun y hy => Finset.sum_congr rfl fun x hx => ?_
    have hxx : (x : ℤ) < Nx := by exact_mod_cast Finset.mem_range.1 hx
    rw [Int.add_mul_emod_self_left, Int.add_mul_ediv_left _ _ hx'.ne',
      Int.emod_eq_of_lt (by omega) hxx, Int.ediv_eq_zero_of_lt (by omega) hxx, zero_add]
  have h2 := h1 0 0
  simp only [add_zero] at h2
  rw [h1, h2]
  -- translation is a permutation of the cell indices
  have hcn : ∀ x y, ((cellOf Nx Ny s x y).toNat : ℤ) = cellOf Nx Ny s x y := fun x y =>
    Int.toNat_of_nonneg (cellOf_nonneg Nx Ny hx hy s x y)
  have hself : ∀ c : ℕ, c < Nx * Ny → cellOf Nx Ny s ((c : ℤ) % Nx) ((c : ℤ) / Nx) = c := fun c hc =>
    cellOf_divMod Nx Ny hx s c (by omega) (by exact_mod_cast hc)
  refine Finset.sum_bij
    (fun c _ => (cellOf Nx Ny s ((c : ℤ) % Nx + u) ((c : ℤ) / Nx + v)).toNat) ?_ ?_ ?_ ?_
  · intro c _
    have := cellOf_lt Nx Ny hx hy s ((c : ℤ) % Nx + u) ((c : ℤ) / Nx + v)
    have h0 := hcn ((c : ℤ) % Nx + u) ((c : ℤ) / Nx + v)
    rw [Finset.mem_range]
    omega
  · intro c hc c' hc' h
    have h' : cellOf Nx Ny s ((c : ℤ) % Nx + u) ((c : ℤ) / Nx + v)
        = cellOf Nx Ny s ((c' : ℤ) % Nx + u) ((c' : ℤ) / Nx + v) := by
      rw [← hcn, ← hcn ((c' : ℤ) % Nx + u)]
      exact_mod_cast h
    rw [cellOf_add_congr Nx Ny hx hy, hself c (Finset.mem_range.1 hc),
      hself c' (Finset.mem_range.1 hc')] at h'
    exact_mod_cast h'
  · intro c hc
    have hc := Finset.mem_range.1 hc
    obtain ⟨i, j, hi, hj, he⟩ := exists_coords Nx Ny hx
      (cellOf Nx Ny s ((c : ℤ) % Nx - u) ((c : ℤ) / Nx - v))
      (cellOf_nonneg Nx Ny hx hy s _ _) (cellOf_lt Nx Ny hx hy s _ _)
    have hlt : i + Nx * j < Nx * Ny := by
      have := cellOf_lt Nx Ny hx hy s ((c : ℤ) % Nx - u) ((c : ℤ) / Nx - v)
      rw [he] at this
      exact_mod_cast this
    refine ⟨i + Nx * j, Finset.mem_range.2 hlt, ?_⟩
    have h3 := hself (i + Nx * j) hlt
    have h4 : cellOf Nx Ny s (((i + Nx * j : ℕ) : ℤ) % Nx) (((i + Nx * j : ℕ) : ℤ) / Nx)
        = cellOf Nx Ny s ((c : ℤ) % Nx - u) ((c : ℤ) / Nx - v) := by
      rw [h3, he]; push_cast; ring
    rw [← cellOf_add_congr Nx Ny hx hy s _ _ _ _ u v, sub_add_cancel, sub_add_cancel, hself c hc] at h4
    simp only [h4, Int.toNat_natCast]
  · intro c _
    congr 1
    rw [hcn, cellOf_divMod Nx Ny hx s _ (cellOf_nonneg Nx Ny hx hy s _ _) (cellOf_lt Nx Ny hx hy s _ _)]

theorem site_eq_iff (Nx Ny : ℕ) (hx : 0 < Nx) (hy : 0 < Ny) (s x y x' y' o o' : ℤ) :
    site Nx Ny s x y o = site Nx Ny s x' y' o' ↔
      cellOf Nx Ny s x y = cellOf Nx Ny s x' y' ∧ o = o' := by
  unfold site
  constructor
  · intro h
    exact idx_decomp (Nx := Nx * Ny) (Nat.mul_pos hx hy) (cellOf_nonneg Nx Ny hx hy s x y)
      (cellOf_lt Nx Ny hx hy s x y) (cellOf_nonneg Nx Ny hx hy s x' y')
      (cellOf_lt Nx Ny hx hy s x' y') (by rw [mul_comm _ o, mul_comm _ o']; exact h)
  · rintro ⟨h, rfl⟩; rw [h]

theorem joins_translate (k : Bond) (Nx Ny : ℕ) (hx : 0 < Nx) (hy : 0 < Ny)
    (s x y o p xr yr orb xc yc pc u v : ℤ) :
    k.joins Nx Ny s (x + u) (y + v) o p (site Nx Ny s (xr + u) (yr + v) orb)
        (site Nx Ny s (xc + u) (yc + v) pc)
      = k.joins Nx Ny s x y o p (site Nx Ny s xr yr orb) (site Nx Ny s xc yc pc) := by
  unfold Bond.joins Bond.first Bond.second
  have e1 : ∀ a : ℤ, x + u + a = x + a + u := fun a => by ring
  have e2 : ∀ a : ℤ, y + v + a = y + a + v := fun a => by ring
  simp only [site_eq_iff Nx Ny hx hy, e1, e2, cellOf_add_congr Nx Ny hx hy]

/-- `joins` depends on the base cell only -/
theorem joins_periodic (k : Bond) (Nx Ny : ℕ) (hx : 0 < Nx) (hy : 0 < Ny)
    (s x y x' y' o p r c : ℤ) (h : cellOf Nx Ny s x y = cellOf Nx Ny s x' y') :
    k.joins Nx Ny s x y o p r c = k.joins Nx Ny s x' y' o p r c := by
  have e : ∀ a b : ℤ, cellOf Nx Ny s (x + a) (y + b) = cellOf Nx Ny s (x' + a) (y' + b) := fun a b =>
    (cellOf_add_congr Nx Ny hx hy s x y x' y' a b).2 h
  unfold Bond.joins Bond.first Bond.second site
  simp only [e]

theorem bondSum_translate (Norb Nx Ny : ℕ) (hx : 0 < Nx) (hy : 0 < Ny) (s : ℤ) (t : Hoppings ℝ)
    (xr yr o' xc yc p' u v : ℤ) :
    bondSum Norb Nx Ny s t (site Nx Ny s (xr + u) (yr + v) o') (site Nx Ny s (xc + u) (yc + v) p')
      = bondSum Norb Nx Ny s t (site Nx Ny s xr yr o') (site Nx Ny s xc yc p') := by
  unfold bondSum
  refine Finset.sum_congr rfl fun o _ => Finset.sum_congr rfl fun p _ => ?_
  -- the summand as a function of the cell
  let f : ℤ → ℤ → ℝ := fun x y => (Bond.all.map fun k =>
    (k.joins Nx Ny s x y o p (site Nx Ny s (xr + u) (yr + v) o')
      (site Nx Ny s (xc + u) (yc + v) p') : ℝ) * k.amp t (o + p * Norb)).sum
  have hper : ∀ x y x' y', cellOf Nx Ny s x y = cellOf Nx Ny s x' y' → f x y = f x' y' := by
    intro x y x' y' h
    simp only [f, joins_periodic _ Nx Ny hx hy s x y x' y' _ _ _ _ h]
  have hg : ∀ x y, f x y = f (cellOf Nx Ny s x y % Nx) (cellOf Nx Ny s x y / Nx) := by
    intro x y
    apply hper
    rw [cellOf_divMod Nx Ny hx s _ (cellOf_nonneg Nx Ny hx hy s _ _) (cellOf_lt Nx Ny hx hy s _ _)]
  have h1 := sum_box_translate Nx Ny hx hy s (fun c => f (c % Nx) (c / Nx)) u v
  simp only [← hg] at h1
  change ∑ y ∈ Finset.range Ny, ∑ x ∈ Finset.range Nx, f x y = _
  rw [← h1]
  refine Finset.sum_congr rfl fun y _ => Finset.sum_congr rfl fun x _ => ?_
  simp only [f, joins_translate _ Nx Ny hx hy]

/-- C16: every entry of the hopping matrix is unchanged when both cells are translated by the same
offset `k`, translation being the coordinate sum map of the measurement code. -/
theorem hopping_translation_invariant (Norb Nx Ny : ℕ) (hx : 0 < Nx) (hy : 0 < Ny) (s : ℤ)
    (hs : 0 ≤ s) (t : Hoppings ℝ) (eps : ℤ → ℝ) (mu : ℝ) (junk : ℤ → ℤ) (T : ℤ → ℝ)
    (hT : hopping Norb Nx Ny s t eps mu = some T) (a b k : ℤ) (ha : IsCell Nx Ny a)
    (hb : IsCell Nx Ny b) (hk : IsCell Nx Ny k) (o p : ℕ) (ho : o < Norb) (hp : p < Norb) :
    entry (Norb * (Nx * Ny)) T (cellAdd Nx Ny s junk a k + o * (Nx * Ny : ℕ))
        (cellAdd Nx Ny s junk b k + p * (Nx * Ny : ℕ))
      = entry (Norb * (Nx * Ny)) T (a + o * (Nx * Ny : ℕ)) (b + p * (Nx * Ny : ℕ)) := by
  obtain ⟨T', hT', hsym, hoff, hdiag⟩ := hopping_spec Norb Nx Ny hx hy s hs t eps mu
  rw [hT, Option.some.injEq] at hT'
  subst hT'
  obtain ⟨xa, ya, rfl⟩ := exists_point hx s ha
  obtain ⟨xb, yb, rfl⟩ := exists_point hx s hb
  obtain ⟨u, v, rfl⟩ := exists_point hx s hk
  rw [sumMap_is_addition Nx Ny hx hy s hs, sumMap_is_addition Nx Ny hx hy s hs]
  change entry _ T (site Nx Ny s (xa + u) (ya + v) o) (site Nx Ny s (xb + u) (yb + v) p)
    = entry _ T (site Nx Ny s xa ya o) (site Nx Ny s xb yb p)
  have hiff : site Nx Ny s (xa + u) (ya + v) o = site Nx Ny s (xb + u) (yb + v) p ↔
      site Nx Ny s xa ya o = site Nx Ny s xb yb p := by
    rw [site_eq_iff Nx Ny hx hy, site_eq_iff Nx Ny hx hy, cellOf_add_congr Nx Ny hx hy]
  have R := fun x y => site_range Norb Nx Ny hx hy s x y o ho
  have C := fun x y => site_range Norb Nx Ny hx hy s x y p hp
  by_cases h : site Nx Ny s xa ya o = site Nx Ny s xb yb p
  · have hop : o = p := by
      have := ((site_eq_iff Nx Ny hx hy s _ _ _ _ _ _).1 h).2
      exact_mod_cast this
    subst hop
    rw [← hiff.2 h, ← h]
    have hd : ∀ x y, entry (Norb * (Nx * Ny)) T (site Nx Ny s x y o) (site Nx Ny s x y o)
        = -mu + eps o := by
      intro x y
      have h0 := cellOf_nonneg Nx Ny hx hy s x y
      have h1 := cellOf_lt Nx Ny hx hy s x y
      have := hdiag o (cellOf Nx Ny s x y).toNat ho (by omega)
      rw [Int.toNat_of_nonneg h0] at this
      exact this
    rw [hd, hd]
  · rw [hoff _ _ (R _ _).1 (R _ _).2 (C _ _).1 (C _ _).2 (fun h' => h (hiff.1 h')),
      hoff _ _ (R _ _).1 (R _ _).2 (C _ _).1 (C _ _).2 h, bondSum_translate Norb Nx Ny hx hy]

/-- non-vacuity: cells 11 and 5 of a 4×3 lattice with shift 1, translated by 6 -/
example : IsCell 4 3 11 ∧ IsCell 4 3 5 ∧ IsCell 4 3 6 ∧ (0 : ℤ) ≤ 1 := by unfold IsCell; decide

/-! ## C18: every amplitude reaches the Hamiltonian -/

/-- change one amplitude of one kind of bond by `δ` -/
noncomputable def bump (t : Hoppings ℝ) (k : Bond) (idx : ℤ) (δ : ℝ) : Hoppings ℝ :=
  match k with
  | .aa => { t with aa := Function.update t.aa idx (t.aa idx + δ) }
  | .ab => { t with ab := Function.update t.ab idx (t.ab idx + δ) }
  | .ac => { t with ac := Function.update t.ac idx (t.ac idx + δ) }
  | .ad => { t with ad := Function.update t.ad idx (t.ad idx + δ) }
  | .bc => { t with bc := Function.update t.bc idx (t.bc idx + δ) }

theorem amp_bump (t : Hoppings ℝ) (k k' : Bond) (idx i : ℤ) (δ : ℝ) :
    k'.amp (bump t k idx δ) i = k'.amp t i + if k' = k ∧ i = idx then δ else 0 := by
  cases k <;> cases k' <;> simp [bump, Bond.amp, Function.update_apply] <;> split <;> simp_all

/-- number of bonds of kind `k` between orbitals `o`, `p` joining the two sites -/
def multiplicity (k : Bond) (Nx Ny : ℕ) (s o p r c : ℤ) : ℕ :=
  ∑ y ∈ Finset.range Ny, ∑ x ∈ Finset.range Nx, k.joins Nx Ny s x y o p r c

theorem bondSum_bump (Norb Nx Ny : ℕ) (s : ℤ) (t : Hoppings ℝ) (k : Bond) (o p : ℕ)
    (ho : o < Norb) (hp : p < Norb) (δ : ℝ) (r c : ℤ) :
    bondSum Norb Nx Ny s (bump t k (o + p * Norb) δ) r c
      = bondSum Norb Nx Ny s t r c + multiplicity k Nx Ny s o p r c * δ := by
  unfold bondSum multiplicity
  have hidx : ∀ o' p' : ℕ, o' < Norb → p' < Norb →
      ((o' : ℤ) + p' * Norb = o + p * Norb ↔ o' = o ∧ p' = p) := by
    intro o' p' ho' hp'
    rw [pair_index_inj (by omega) (by omega) (by omega) (by omega)]
    omega
  have hlist : ∀ (o' p' x y : ℕ), o' < Norb → p' < Norb →
      (Bond.all.map fun k' => (k'.joins Nx Ny s x y o' p' r c : ℝ) *
        k'.amp (bump t k (o + p * Norb) δ) (o' + p' * Norb)).sum
      = (Bond.all.map fun k' => (k'.joins Nx Ny s x y o' p' r c : ℝ) * k'.amp t (o' + p' * Norb)).sum
        + if o' = o then (if p' = p then (k.joins Nx Ny s x y o p r c : ℝ) * δ else 0) else 0 := by
    intro o' p' x y ho' hp'
    simp only [amp_bump, hidx o' p' ho' hp']
    by_cases h1 : o' = o
    · by_cases h2 : p' = p
      · subst h1; subst h2
        cases k <;> simp [Bond.all] <;> ring
      · simp [h1, h2]
    · simp [h1]
  rw [Finset.sum_congr rfl fun o' ho' => Finset.sum_congr rfl fun p' hp' =>
    Finset.sum_congr rfl fun y _ => Finset.sum_congr rfl fun x _ =>
      hlist o' p' x y (Finset.mem_range.1 ho') (Finset.mem_range.1 hp')]
  simp only [Finset.sum_add_distrib]
  congr 1
  push_cast
  rw [Finset.sum_mul]
  simp only [Finset.sum_mul]
  rw [Finset.sum_eq_single o, Finset.sum_eq_single p]
  · simp
  · intro p' _ hp'; simp [hp']
  · intro h; exact absurd (Finset.mem_range.2 hp) h
  · intro o' _ ho'; simp [ho']
  · intro h; exact absurd (Finset.mem_range.2 ho) h

/-- C18_partial: a bond whose two ends are different sites contributes: raising its amplitude by `δ`
lowers the matrix entry between its ends by a positive multiple of `δ`, wherever the bond is placed.
Missing for the full property: bonds whose ends coincide, see `selfBond_dropped`. -/
theorem hopping_contributes_partial (Norb Nx Ny : ℕ) (hx : 0 < Nx) (hy : 0 < Ny) (s : ℤ)
    (hs : 0 ≤ s) (t : Hoppings ℝ) (eps : ℤ → ℝ) (mu : ℝ) (k : Bond) (o p : ℕ) (ho : o < Norb)
    (hp : p < Norb) (δ : ℝ) (T T' : ℤ → ℝ) (hT : hopping Norb Nx Ny s t eps mu = some T)
    (hT' : hopping Norb Nx Ny s (bump t k (o + p * Norb) δ) eps mu = some T')
    (x y : ℕ) (hxx : x < Nx) (hyy : y < Ny)
    (hne : k.first Nx Ny s x y o ≠ k.second Nx Ny s x y p) :
    ∃ m : ℕ, 0 < m ∧
      entry (Norb * (Nx * Ny)) T' (k.first Nx Ny s x y o) (k.second Nx Ny s x y p)
        = entry (Norb * (Nx * Ny)) T (k.first Nx Ny s x y o) (k.second Nx Ny s x y p) - m * δ := by
  refine ⟨multiplicity k Nx Ny s o p (k.first Nx Ny s x y o) (k.second Nx Ny s x y p), ?_, ?_⟩
  · unfold multiplicity
    apply Finset.sum_pos'
    · intro _ _; exact Nat.zero_le _
    · refine ⟨y, Finset.mem_range.2 hyy, Finset.sum_pos' (fun _ _ => Nat.zero_le _)
        ⟨x, Finset.mem_range.2 hxx, ?_⟩⟩
      unfold Bond.joins; simp
  · rw [hopping_defined Norb Nx Ny hx hy s hs, Option.some.injEq] at hT hT'
    subst hT; subst hT'
    have h1 : 0 ≤ k.first Nx Ny s x y o ∧ k.first Nx Ny s x y o < (Norb * (Nx * Ny) : ℕ) :=
      site_range Norb Nx Ny hx hy s _ _ o ho
    rw [hop_offdiag Norb Nx Ny hx hy s hs _ eps mu _ _ h1.1 h1.2 hne,
      hop_offdiag Norb Nx Ny hx hy s hs _ eps mu _ _ h1.1 h1.2 hne,
      bondSum_bump Norb Nx Ny s t k o p ho hp]
    ring

/-- C18: on lattices with at least two cells in each direction the two ends of every bond are
different sites (intra-cell bonds: different orbitals, as validated), so
`hopping_contributes_partial` covers all bonds there. -/
theorem bond_ends_differ (Nx Ny : ℕ) (hx : 2 ≤ Nx) (hy : 2 ≤ Ny) (s x y o p : ℤ) (k : Bond)
    (hk : k = .aa → o ≠ p) : k.first Nx Ny s x y o ≠ k.second Nx Ny s x y p := by
  intro h
  unfold Bond.first Bond.second at h
  rw [site_eq_iff Nx Ny (by omega) (by omega), cellOf_eq_iff Nx Ny (by omega) (by omega)] at h
  obtain ⟨⟨m, n, h1, h2⟩, h3⟩ := h
  have hNy : (2 : ℤ) ≤ Ny := by exact_mod_cast hy
  have hNx : (2 : ℤ) ≤ Nx := by exact_mod_cast hx
  have small : ∀ {N q d : ℤ}, 2 ≤ N → d = N * q → -1 ≤ d → d ≤ 1 → q = 0 ∧ d = 0 := by
    intro N q d hN hd h1 h2
    have hq : q = 0 := by
      by_contra hq
      rcases lt_or_gt_of_ne hq with h | h
      · nlinarith
      · nlinarith
    exact ⟨hq, by rw [hd, hq, mul_zero]⟩
  cases k with
  | aa => exact hk rfl h3
  | ab =>
    simp only [Bond.src, Bond.dst] at h1 h2
    have hn := small hNy (d := 0) (q := n) (by linarith) (by norm_num) (by norm_num)
    rw [hn.1] at h1
    have := (small hNx (d := 1) (q := m) (by linarith) (by norm_num) (by norm_num)).2
    norm_num at this
  | ac =>
    simp only [Bond.src, Bond.dst] at h1 h2
    have := (small hNy (d := 1) (q := n) (by linarith) (by norm_num) (by norm_num)).2
    norm_num at this
  | ad =>
    simp only [Bond.src, Bond.dst] at h1 h2
    have := (small hNy (d := 1) (q := n) (by linarith) (by norm_num) (by norm_num)).2
    norm_num at this
  | bc =>
    simp only [Bond.src, Bond.dst] at h1 h2
    have := (small hNy (d := 1) (q := n) (by linarith) (by norm_num) (by norm_num)).2
    norm_num at this

/-- C18 is false on lattices of width 1: an x-bond of an orbital with itself joins a site with
itself, the update goes to the diagonal and is overwritten; the amplitude has no effect at all. -/
theorem selfBond_dropped (Norb Ny : ℕ) (hy : 0 < Ny) (s : ℤ) (hs : 0 ≤ s) (t : Hoppings ℝ)
    (eps : ℤ → ℝ) (mu : ℝ) (o : ℕ) (ho : o < Norb) (δ : ℝ) :
    ∃ T T', hopping Norb 1 Ny s t eps mu = some T ∧
      hopping Norb 1 Ny s (bump t .ab (o + o * Norb) δ) eps mu = some T' ∧
      ∀ r c : ℤ, 0 ≤ r → r < (Norb * (1 * Ny) : ℕ) → 0 ≤ c → c < (Norb * (1 * Ny) : ℕ) →
        entry (Norb * (1 * Ny)) T' r c = entry (Norb * (1 * Ny)) T r c := by
  obtain ⟨T, hT, -, hoff, hdiag⟩ := hopping_spec Norb 1 Ny one_pos hy s hs t eps mu
  obtain ⟨T', hT', -, hoff', hdiag'⟩ :=
    hopping_spec Norb 1 Ny one_pos hy s hs (bump t .ab (o + o * Norb) δ) eps mu
  refine ⟨T, T', hT, hT', fun r c hr hr' hc hc' => ?_⟩
  by_cases h : r = c
  · subst h
    -- a diagonal entry
    obtain ⟨i, j, hi, hj, rfl⟩ := exists_coords (1 * Ny) Norb (by omega) r hr
      (by rw [mul_comm]; exact hr')
    rw [mul_comm ((1 * Ny : ℕ) : ℤ) (j : ℤ), hdiag j i hj hi, hdiag' j i hj hi]
  · rw [hoff r c hr hr' hc hc' h, hoff' r c hr hr' hc hc' h, bondSum_bump Norb 1 Ny s t .ab o o ho ho]
    have : multiplicity .ab 1 Ny s o o r c = 0 := by
      unfold multiplicity
      refine Finset.sum_eq_zero fun y _ => Finset.sum_eq_zero fun x _ => ?_
      have hcell : ∀ x' : ℤ, Bond.second .ab 1 Ny s x' y o = Bond.first .ab 1 Ny s x' y o := by
        intro x'
        unfold Bond.second Bond.first
        rw [site_eq_iff 1 Ny one_pos hy, cellOf_eq_iff 1 Ny one_pos hy]
        refine ⟨⟨-1, 0, ?_, ?_⟩, rfl⟩ <;> simp [Bond.src, Bond.dst]
      unfold Bond.joins
      rw [hcell, if_neg (fun h' => h (h'.1.symm.trans h'.2)),
        if_neg (fun h' => h (h'.2.symm.trans h'.1)), add_zero]
    rw [this]; simp

/-- non-vacuity of `hopping_contributes_partial` -/
example : Bond.first .ab 2 2 0 0 0 0 ≠ Bond.second .ab 2 2 0 0 0 0 :=
  bond_ends_differ 2 2 le_rfl le_rfl 0 0 0 0 0 .ab (by simp)

end Verif.Kinetic
