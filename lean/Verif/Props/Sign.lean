import Verif.Props.SimulationInv
import Verif.Props.KineticExp
import Mathlib.LinearAlgebra.Matrix.Notation
import Mathlib.LinearAlgebra.Matrix.Determinant.Basic

/-!
# Cases without sign problem: C63, C64; a concrete simulation

The sign used in all measurements is the product of the two stored signs.
-/

set_option autoImplicit false

namespace Verif.MonteCarlo

open Matrix Verif.Lapack Verif.TimeFlow Verif.Greens Verif.Stratonovich Verif.Progress

variable {σ : Type} {N : ℕ} {M : Type} {sys : Sys σ N M}

/-- sign of a record is the sign of the determinant -/
theorem GoodG.sgn_pos_iff {B : ℕ → Mat N} {L l : ℕ} {G : GreensFn N} (h : GoodG B L l G) :
    (G.sgndet = 1 ∧ 0 < (1 + cyclicProd B L l).det) ∨
    (G.sgndet = -1 ∧ (1 + cyclicProd B L l).det < 0) := by
  have hd := h.det
  rw [det_nonsing_inv, Ring.inverse_eq_inv'] at hd
  have he := Real.exp_pos G.logdet
  rcases h.sgn with hs | hs
  · left
    refine ⟨hs, inv_pos.1 ?_⟩
    rw [← hd, hs]
    simpa using he
  · right
    refine ⟨hs, inv_neg''.1 ?_⟩
    rw [← hd, hs]
    simpa using he

/-- the sign of a configuration is the sign of the product of both determinants -/
theorem Exact.sign_eq_one_iff {L l : ℕ} {E : ℕ → Fin N → ℝ} {s : ℕ → Fin N → Fin 2}
    {Gu Gd : GreensFn N} (h : Exact sys L E s l Gu Gd) :
    Gu.sgndet * Gd.sgndet = 1 ↔
      0 < (1 + cyclicProd (sys.fieldB sys.hs.expVu s E) L l).det
        * (1 + cyclicProd (sys.fieldB sys.hs.expVd s E) L l).det := by
  rcases h.up.sgn_pos_iff with ⟨a1, a2⟩ | ⟨a1, a2⟩ <;>
    rcases h.down.sgn_pos_iff with ⟨b1, b2⟩ | ⟨b1, b2⟩ <;> rw [a1, b1]
  · exact ⟨fun _ => mul_pos a2 b2, fun _ => by norm_num⟩
  · exact ⟨fun h => by norm_num at h, fun h => absurd h (not_lt.2 (mul_neg_of_pos_of_neg a2 b2).le)⟩
  · exact ⟨fun h => by norm_num at h, fun h => absurd h (not_lt.2 (mul_neg_of_neg_of_pos a2 b2).le)⟩
  · exact ⟨fun _ => mul_pos_of_neg_of_neg a2 b2, fun _ => by norm_num⟩

/-- C63: without Hubbard interaction, with or without phonons, every sign is +1 -/
theorem sign_without_interaction (Norb : ℕ) (U : ℕ → ℝ) (dt : ℝ)
    (hp : fill Norb U dt = some sys.hs) (hN : ∀ i : Fin N, sys.orb i < Norb)
    (hU : ∀ o < Norb, U o = 0) {L l : ℕ} {E : ℕ → Fin N → ℝ} {s : ℕ → Fin N → Fin 2}
    {Gu Gd : GreensFn N} (h : Exact sys L E s l Gu Gd) : Gu.sgndet * Gd.sgndet = 1 ∧ Gu = Gd := by
  have hz := fun (i : Fin N) v => fill_zero Norb U dt sys.hs hp (sys.orb i) (hU _ (hN i)) v
  have e : sys.fieldB sys.hs.expVu s E = sys.fieldB sys.hs.expVd s E := by
    funext l
    simp only [Sys.fieldB, (hz _ _).1, (hz _ _).2.1]
  have hg : Gu = Gd := h.up.unique (e ▸ h.down)
  refine ⟨?_, hg⟩
  rw [hg]
  rcases h.down.sgn with hs | hs <;> rw [hs] <;> norm_num

/-! ## Half filling on bipartite lattices -/

theorem prodSeq_conj (D : Mat N) (hD : D * D = 1) (A : ℕ → Mat N) (k : ℕ) :
    prodSeq (fun l => D * A l * D) k = D * prodSeq A k * D := by
  induction k with
  | zero => rw [prodSeq, prodSeq, Matrix.mul_one, hD]
  | succ k ih =>
    rw [prodSeq, prodSeq, ih]
    calc D * A k * D * (D * prodSeq A k * D) = D * A k * (D * D) * prodSeq A k * D := by
          simp only [Matrix.mul_assoc]
      _ = D * (A k * prodSeq A k) * D := by rw [hD, Matrix.mul_one]; simp only [Matrix.mul_assoc]

theorem prodSeq_transpose_mul (A C : ℕ → Mat N) (h : ∀ l, (A l)ᵀ * C l = 1) (k : ℕ) :
    (prodSeq A k)ᵀ * prodSeq C k = 1 := by
  induction k with
  | zero => simp [prodSeq]
  | succ k ih =>
    rw [prodSeq, prodSeq, transpose_mul]
    calc (prodSeq A k)ᵀ * (A k)ᵀ * (C k * prodSeq C k)
        = (prodSeq A k)ᵀ * ((A k)ᵀ * C k) * prodSeq C k := by simp only [Matrix.mul_assoc]
      _ = 1 := by rw [h, Matrix.mul_one, ih]

theorem prodSeq_det_pos (A : ℕ → Mat N) (h : ∀ l, 0 < (A l).det) (k : ℕ) : 0 < (prodSeq A k).det := by
  induction k with
  | zero => simp [prodSeq]
  | succ k ih => rw [prodSeq, det_mul]; exact mul_pos (h k) ih

/-- particle-hole symmetry of the kinetic exponential: a sign `η` on the sites such that the hopping
only connects sites of opposite sign and there is no on-site energy -/
structure ParticleHole (sys : Sys σ N M) (η : Fin N → ℝ) : Prop where
  sq : ∀ i, η i * η i = 1
  symm : sys.expKᵀ = sys.expK
  inv : sys.expK * sys.invExpK = 1
  conj : diagonal η * sys.expK * diagonal η = sys.invExpK
  pos : 0 < sys.expK.det

theorem ParticleHole.diag_sq {η : Fin N → ℝ} (hph : ParticleHole sys η) :
    (diagonal η : Mat N) * diagonal η = 1 := by
  rw [diagonal_mul_diagonal, ← diagonal_one]
  congr 1
  funext i
  exact hph.sq i

/-- the time flow of spin down is, up to the signs, the transposed inverse of that of spin up -/
theorem flow_half_filling (η : Fin N → ℝ) (hph : ParticleHole sys η)
    (hc : ∀ i : Fin N, Consistent sys.hs (sys.orb i)) (L l : ℕ) (s : ℕ → Fin N → Fin 2) :
    (cyclicProd (sys.fieldB sys.hs.expVu s (fun _ _ => 1)) L l)ᵀ *
      (diagonal η * cyclicProd (sys.fieldB sys.hs.expVd s (fun _ _ => 1)) L l * diagonal η) = 1 := by
  have hDD := hph.diag_sq
  set D : Mat N := diagonal η with hDdef
  set Bu := fun k => sys.fieldB sys.hs.expVu s (fun _ _ => 1) ((l + k) % L) with hBu
  set Bd := fun k => sys.fieldB sys.hs.expVd s (fun _ _ => 1) ((l + k) % L) with hBd
  have h1 : ∀ k, (Bu k)ᵀ * (D * Bd k * D) = 1 := by
    intro k
    simp only [hBu, hBd, Sys.fieldB, mul_one]
    rw [transpose_mul, diagonal_transpose, hph.symm]
    have hcomm : ∀ (d : Fin N → ℝ), D * diagonal d = diagonal d * D := by
      intro d
      rw [hDdef, diagonal_mul_diagonal, diagonal_mul_diagonal]
      congr 1
      funext i
      exact mul_comm _ _
    have hVV : (diagonal fun i => sys.hs.expVu (s ((l + k) % L) i) (sys.orb i))
        * (diagonal fun i => sys.hs.expVd (s ((l + k) % L) i) (sys.orb i)) = (1 : Mat N) := by
      rw [diagonal_mul_diagonal, ← diagonal_one]
      congr 1
      funext i
      rw [(hc i).reversed]
      exact (hc i).reciprocal _
    calc sys.expK * (diagonal fun i => sys.hs.expVu (s ((l + k) % L) i) (sys.orb i)) *
          (D * ((diagonal fun i => sys.hs.expVd (s ((l + k) % L) i) (sys.orb i)) * sys.expK) * D)
        = sys.expK * ((diagonal fun i => sys.hs.expVu (s ((l + k) % L) i) (sys.orb i)) *
          ((D * (diagonal fun i => sys.hs.expVd (s ((l + k) % L) i) (sys.orb i))) * sys.expK * D)) := by
          simp only [Matrix.mul_assoc]
      _ = sys.expK * (((diagonal fun i => sys.hs.expVu (s ((l + k) % L) i) (sys.orb i)) *
          (diagonal fun i => sys.hs.expVd (s ((l + k) % L) i) (sys.orb i))) *
          (D * sys.expK * D)) := by
          rw [hcomm]; simp only [Matrix.mul_assoc]
      _ = 1 := by rw [hVV, Matrix.one_mul, hph.conj, hph.inv]
  have := prodSeq_transpose_mul Bu (fun k => D * Bd k * D) h1 L
  rwa [prodSeq_conj D hDD] at this

/-- C64: at half filling on a bipartite lattice the product of both determinants is not negative -/
theorem det_product_half_filling (η : Fin N → ℝ) (hph : ParticleHole sys η)
    (hc : ∀ i : Fin N, Consistent sys.hs (sys.orb i)) (L l : ℕ) (s : ℕ → Fin N → Fin 2) :
    let Au := cyclicProd (sys.fieldB sys.hs.expVu s (fun _ _ => 1)) L l
    let Ad := cyclicProd (sys.fieldB sys.hs.expVd s (fun _ _ => 1)) L l
    0 < Au.det ∧ (1 + Au).det = Au.det * (1 + Ad).det ∧ 0 ≤ (1 + Au).det * (1 + Ad).det := by
  intro Au Ad
  have hDD := hph.diag_sq
  have h2 : Auᵀ * (diagonal η * Ad * diagonal η) = 1 := flow_half_filling η hph hc L l s
  set D : Mat N := diagonal η with hDdef
  set Bu := fun k => sys.fieldB sys.hs.expVu s (fun _ _ => 1) ((l + k) % L) with hBu
  have h3 : 0 < Au.det := by
    refine prodSeq_det_pos Bu (fun k => ?_) L
    simp only [hBu, Sys.fieldB, mul_one, det_mul, det_diagonal]
    exact mul_pos (Finset.prod_pos fun i _ => ((hc i).pos _).1) hph.pos
  have h4 : (1 + Ad).det = (1 + D * Ad * D).det := by
    have e : 1 + D * Ad * D = D * (1 + Ad) * D := by
      rw [Matrix.mul_add, Matrix.mul_one, Matrix.add_mul, hDD]
    have hd : D.det * D.det = 1 := by rw [← det_mul, hDD, det_one]
    rw [e, det_mul, det_mul, mul_right_comm, hd, one_mul]
  have h5 : (1 + Au).det = Au.det * (1 + Ad).det := by
    rw [h4, ← det_transpose Au, ← det_mul, Matrix.mul_add, h2, Matrix.mul_one,
      ← det_transpose (1 + Au), transpose_add, transpose_one, add_comm]
  refine ⟨h3, h5, ?_⟩
  rw [h5, mul_assoc]
  exact mul_nonneg h3.le (mul_self_nonneg _)

/-- C64: at half filling on a bipartite lattice every sign is +1 -/
theorem sign_half_filling (η : Fin N → ℝ) (hph : ParticleHole sys η)
    (hc : ∀ i : Fin N, Consistent sys.hs (sys.orb i)) {L l : ℕ} {s : ℕ → Fin N → Fin 2}
    {Gu Gd : GreensFn N} (h : Exact sys L (fun _ _ => 1) s l Gu Gd) : Gu.sgndet * Gd.sgndet = 1 := by
  rw [h.sign_eq_one_iff]
  exact lt_of_le_of_ne (det_product_half_filling η hph hc L l s).2.2
    (mul_ne_zero h.up.det_ne h.down.det_ne).symm

/-- particle-hole symmetry follows from the hopping matrix: it changes sign under `η`, i.e. all hops
connect opposite signs and `mu = eps = 0` -/
theorem particleHole_of_kinetic (η : Fin N → ℝ) (hη : ∀ i, η i * η i = 1) (K : Mat N) (dt : ℝ)
    (hK : ∀ i j, K i j ≠ 0 → η i * η j = -1)
    (he : sys.expK = NormedSpace.exp (-dt • K)) (hi : sys.invExpK = NormedSpace.exp (dt • K))
    (hinv : sys.expK * sys.invExpK = 1) (hpos : sys.expK.PosDef) (hsym : sys.expK.IsSymm) :
    ParticleHole sys η := by
  refine ⟨hη, hsym, hinv, ?_, hpos.det_pos⟩
  have hDD : (diagonal η : Mat N) * diagonal η = 1 := by
    rw [diagonal_mul_diagonal, ← diagonal_one]
    congr 1
    funext i
    exact hη i
  have hunit : IsUnit (diagonal η : Mat N) := ⟨⟨diagonal η, diagonal η, hDD, hDD⟩, rfl⟩
  have hDinv : (diagonal η : Mat N)⁻¹ = diagonal η := inv_eq_left_inv hDD
  have hc : diagonal η * (-dt • K) * diagonal η = dt • K := by
    ext i j
    rw [mul_diagonal, diagonal_mul, Matrix.smul_apply, Matrix.smul_apply, smul_eq_mul, smul_eq_mul]
    by_cases h0 : K i j = 0
    · rw [h0]; ring
    · linear_combination (-dt * K i j) * hK i j h0
  have := Matrix.exp_conj (diagonal η) (-dt • K) hunit
  rw [hDinv] at this
  rw [he, hi, ← this, hc]

/-! ### Nearest neighbour hopping on an even lattice -/

section Bipartite

open Verif.Kinetic Verif.Lattice Verif.Params

/-- row plus column of the cell of a site -/
def parity (Nx Ny : ℕ) (r : ℤ) : ℤ := (r % (Nx * Ny : ℕ)) % Nx + (r % (Nx * Ny : ℕ)) / Nx

theorem parity_site (Nx Ny : ℕ) (hx : 0 < Nx) (hy : 0 < Ny) (s : ℤ) (hNx : 2 ∣ Nx) (hNy : 2 ∣ Ny)
    (hs : 2 ∣ s) (x y o : ℤ) : (2 : ℤ) ∣ parity Nx Ny (site Nx Ny s x y o) - (x + y) := by
  have h0 := cellOf_nonneg Nx Ny hx hy s x y
  have h1 := cellOf_lt Nx Ny hx hy s x y
  have hx' : (0 : ℤ) < Nx := by exact_mod_cast hx
  have e1 : site Nx Ny s x y o % (Nx * Ny : ℕ) = cellOf Nx Ny s x y := by
    unfold site
    rw [Int.add_mul_emod_self_right, Int.emod_eq_of_lt h0 h1]
  unfold parity
  rw [e1]
  unfold cellOf
  have ha := Int.emod_nonneg (x + s * (y / Ny)) hx'.ne'
  have hb := Int.emod_lt_of_pos (x + s * (y / Ny)) hx'
  rw [Int.add_mul_emod_self_left, Int.emod_emod, Int.add_mul_ediv_left _ _ hx'.ne',
    Int.ediv_eq_zero_of_lt ha hb, zero_add, Int.emod_def, Int.emod_def]
  obtain ⟨a, hae⟩ := hNx
  obtain ⟨b, hbe⟩ := hNy
  obtain ⟨c, rfl⟩ := hs
  refine ⟨c * (y / Ny) - a * ((x + 2 * c * (y / Ny)) / Nx) - b * (y / Ny), ?_⟩
  have ha' : (Nx : ℤ) = 2 * a := by exact_mod_cast hae
  have hb' : (Ny : ℤ) = 2 * b := by exact_mod_cast hbe
  generalize (x + 2 * c * (y / (Ny : ℤ))) / (Nx : ℤ) = q1
  generalize y / (Ny : ℤ) = q2
  rw [ha', hb']
  ring

/-- +1 on one sublattice, -1 on the other -/
noncomputable def checker (Nx Ny : ℕ) (r : ℤ) : ℝ := if (2 : ℤ) ∣ parity Nx Ny r then 1 else -1

theorem checker_sq (Nx Ny : ℕ) (r : ℤ) : checker Nx Ny r * checker Nx Ny r = 1 := by
  unfold checker
  split <;> norm_num

theorem checker_opposite (Nx Ny : ℕ) (r c : ℤ) (h : ¬ (2 : ℤ) ∣ parity Nx Ny r - parity Nx Ny c) :
    checker Nx Ny r * checker Nx Ny c = -1 := by
  unfold checker
  split <;> split <;> first | (exfalso; omega) | norm_num

/-- C64 for the parameters of the program: an even lattice with even shift, hopping between
horizontal and vertical neighbours only (within or between orbitals), and `eps = mu` in all orbitals
has particle-hole symmetry -/
theorem bipartite_particleHole (Norb Nx Ny : ℕ) (hx : 0 < Nx) (hy : 0 < Ny) (s : ℤ) (hs0 : 0 ≤ s)
    (hNx : 2 ∣ Nx) (hNy : 2 ∣ Ny) (hs : 2 ∣ s) (t : Hoppings ℝ) (haa : ∀ k, t.aa k = 0)
    (had : ∀ k, t.ad k = 0) (hbc : ∀ k, t.bc k = 0) (eps : ℤ → ℝ) (mu dt : ℝ)
    (heps : ∀ o : ℕ, o < Norb → eps o = mu) (es : Eigensolver (Norb * (Nx * Ny)))
    (sys : Sys σ (Norb * (Nx * Ny)) M) (K : KineticExp (Norb * (Nx * Ny)))
    (hK : kineticExponential Norb Nx Ny s t eps mu dt es = some K)
    (h1 : sys.expK = K.expK) (h2 : sys.invExpK = K.invExpK) :
    ParticleHole sys fun i => checker Nx Ny i.val := by
  obtain ⟨T, K', hT, hK', e1, e2, e3, -, e4, -, e5, -⟩ :=
    kinetic_exponentials Norb Nx Ny hx hy s hs0 t eps mu dt es
  rw [hK] at hK'
  cases hK'
  obtain ⟨T', hT', -, hoff, hdiag⟩ := hopping_spec Norb Nx Ny hx hy s hs0 t eps mu
  rw [hT] at hT'
  cases hT'
  refine particleHole_of_kinetic _ (fun i => checker_sq Nx Ny _)
    (toMatrix (Norb * (Nx * Ny)) T) dt (fun i j hij => ?_)
    (h1.trans e1) (h2.trans e2) (by rw [h1, h2]; exact e3) (h1 ▸ e5) (h1 ▸ e4)
  have hij' : entry (Norb * (Nx * Ny)) T i j ≠ 0 := hij
  by_cases hd : i = j
  · exfalso
    subst hd
    have hpos : 0 < Nx * Ny := Nat.mul_pos hx hy
    have ho : i.val / (Nx * Ny) < Norb := Nat.div_lt_of_lt_mul (lt_of_lt_of_eq i.2 (mul_comm _ _))
    have := hdiag (i.val / (Nx * Ny)) (i.val % (Nx * Ny)) ho (Nat.mod_lt _ hpos)
    have hi : (((i.val % (Nx * Ny) : ℕ) : ℤ) + ((i.val / (Nx * Ny) : ℕ) : ℤ) * ((Nx * Ny : ℕ) : ℤ))
        = i.val := by
      have := Nat.mod_add_div' i.val (Nx * Ny)
      exact_mod_cast this
    rw [hi, heps _ ho] at this
    exact hij' (by rw [this]; ring)
  · have hne : (i.val : ℤ) ≠ j.val := by
      intro h
      exact hd (Fin.ext (by exact_mod_cast h))
    have hb := hoff i.val j.val (by omega) (by exact_mod_cast i.2) (by omega) (by exact_mod_cast j.2)
      hne
    apply checker_opposite
    intro hpar
    apply hij'
    rw [hb, neg_eq_zero]
    unfold bondSum
    refine Finset.sum_eq_zero fun o _ => Finset.sum_eq_zero fun p _ => Finset.sum_eq_zero fun y _ =>
      Finset.sum_eq_zero fun x _ => ?_
    have key : ∀ k : Bond, k = .ab ∨ k = .ac → k.joins Nx Ny s x y o p i.val j.val = 0 := by
      intro k hk
      have hodd : ¬ (2 : ℤ) ∣ parity Nx Ny (k.first Nx Ny s x y o)
          - parity Nx Ny (k.second Nx Ny s x y p) := by
        have a1 := parity_site Nx Ny hx hy s hNx hNy hs (x + k.src.1) (y + k.src.2) o
        have a2 := parity_site Nx Ny hx hy s hNx hNy hs (x + k.dst.1) (y + k.dst.2) p
        unfold Bond.first Bond.second
        generalize parity Nx Ny (site Nx Ny s (x + k.src.1) (y + k.src.2) o) = A at *
        generalize parity Nx Ny (site Nx Ny s (x + k.dst.1) (y + k.dst.2) p) = B at *
        rcases hk with rfl | rfl <;> simp only [Bond.src, Bond.dst] at a1 a2 <;> omega
      unfold Bond.joins
      rw [if_neg, if_neg]
      · rintro ⟨b1, b2⟩
        rw [b1, b2] at hodd
        omega
      · rintro ⟨b1, b2⟩
        rw [b1, b2] at hodd
        omega
    simp [Bond.all, key .ab (Or.inl rfl), key .ac (Or.inr rfl), Bond.amp, haa, had, hbc]

/-- C64: simulations of the half filled nearest neighbour Hubbard model on even lattices have sign +1
in every configuration -/
theorem sign_bipartite (Norb Nx Ny : ℕ) (hx : 0 < Nx) (hy : 0 < Ny) (s : ℤ) (hs0 : 0 ≤ s)
    (hNx : 2 ∣ Nx) (hNy : 2 ∣ Ny) (hs : 2 ∣ s) (t : Hoppings ℝ) (haa : ∀ k, t.aa k = 0)
    (had : ∀ k, t.ad k = 0) (hbc : ∀ k, t.bc k = 0) (eps : ℤ → ℝ) (mu dt : ℝ) (U : ℕ → ℝ)
    (heps : ∀ o : ℕ, o < Norb → eps o = mu) (es : Eigensolver (Norb * (Nx * Ny)))
    (sys : Sys σ (Norb * (Nx * Ny)) M) (K : KineticExp (Norb * (Nx * Ny)))
    (hK : kineticExponential Norb Nx Ny s t eps mu dt es = some K)
    (h1 : sys.expK = K.expK) (h2 : sys.invExpK = K.invExpK) (hU : fill Norb U dt = some sys.hs)
    (hc : sys.Ncell = Nx * Ny) {L l : ℕ} {f : ℕ → Fin (Norb * (Nx * Ny)) → Fin 2}
    {Gu Gd : GreensFn (Norb * (Nx * Ny))} (h : Exact sys L (fun _ _ => 1) f l Gu Gd) :
    Gu.sgndet * Gd.sgndet = 1 := by
  refine sign_half_filling _ (bipartite_particleHole Norb Nx Ny hx hy s hs0 hNx hNy hs t haa had hbc
    eps mu dt heps es sys K hK h1 h2) (fun i => fill_consistent Norb U dt _ hU _ ?_) h
  show i.val / sys.Ncell < Norb
  rw [hc]
  exact Nat.div_lt_of_lt_mul (lt_of_lt_of_eq i.2 (mul_comm _ _))

/-! ### General colourings -/

/-- a colouring of the sites by two colours: the colour of orbital `o` in cell `(x, y)` is the parity of
`ax x + ay y + c o` -/
structure Coloring where
  ax : ℤ
  ay : ℤ
  c : ℕ → ℤ

/-- number whose parity is the colour -/
def Coloring.num (col : Coloring) (x y : ℤ) (o : ℕ) : ℤ := col.ax * x + col.ay * y + col.c o

/-- the same for the index of a site -/
def Coloring.site (col : Coloring) (Nx Ny : ℕ) (r : ℤ) : ℤ :=
  col.num ((r % (Nx * Ny : ℕ)) % Nx) ((r % (Nx * Ny : ℕ)) / Nx) (r / (Nx * Ny : ℕ)).toNat

/-- +1 on the sites of one colour, -1 on the others -/
noncomputable def Coloring.sign (col : Coloring) (Nx Ny : ℕ) (r : ℤ) : ℝ :=
  if (2 : ℤ) ∣ col.site Nx Ny r then 1 else -1

theorem Coloring.sign_sq (col : Coloring) (Nx Ny : ℕ) (r : ℤ) : col.sign Nx Ny r * col.sign Nx Ny r = 1 := by
  unfold Coloring.sign
  split <;> norm_num

/-- the colouring is periodic, and all bonds join sites of different colours -/
structure Coloring.Fits (col : Coloring) (Norb Nx Ny : ℕ) (s : ℤ) (t : Hoppings ℝ) : Prop where
  wrapX : 2 ∣ col.ax * Nx
  wrapY : 2 ∣ col.ay * Ny - col.ax * s
  bonds : ∀ (k : Bond) (o q : ℕ), o < Norb → q < Norb → k.amp t (o + q * Norb) ≠ 0 →
    ¬ (2 : ℤ) ∣ col.num k.dst.1 k.dst.2 q - col.num k.src.1 k.src.2 o

theorem Coloring.site_eq (col : Coloring) {Norb Nx Ny : ℕ} (hx : 0 < Nx) (hy : 0 < Ny) {s : ℤ} {t : Hoppings ℝ}
    (h : col.Fits Norb Nx Ny s t) (x y : ℤ) (o : ℕ) :
    (2 : ℤ) ∣ col.site Nx Ny (Kinetic.site Nx Ny s x y o) - col.num x y o := by
  have h0 := cellOf_nonneg Nx Ny hx hy s x y
  have h1 := cellOf_lt Nx Ny hx hy s x y
  have hx' : (0 : ℤ) < Nx := by exact_mod_cast hx
  have hxy : (0 : ℤ) < (Nx * Ny : ℕ) := by exact_mod_cast Nat.mul_pos hx hy
  have e1 : Kinetic.site Nx Ny s x y o % (Nx * Ny : ℕ) = cellOf Nx Ny s x y := by
    unfold Kinetic.site
    rw [Int.add_mul_emod_self_right, Int.emod_eq_of_lt h0 h1]
  have e2 : (Kinetic.site Nx Ny s x y o / (Nx * Ny : ℕ)).toNat = o := by
    unfold Kinetic.site
    rw [Int.add_mul_ediv_right _ _ hxy.ne', Int.ediv_eq_zero_of_lt h0 h1, zero_add, Int.toNat_natCast]
  unfold Coloring.site
  rw [e1, e2]
  unfold cellOf Coloring.num
  have ha := Int.emod_nonneg (x + s * (y / Ny)) hx'.ne'
  have hb := Int.emod_lt_of_pos (x + s * (y / Ny)) hx'
  rw [Int.add_mul_emod_self_left, Int.emod_emod, Int.add_mul_ediv_left _ _ hx'.ne',
    Int.ediv_eq_zero_of_lt ha hb, zero_add, Int.emod_def, Int.emod_def]
  obtain ⟨a, hae⟩ := h.wrapX
  obtain ⟨b, hbe⟩ := h.wrapY
  generalize (x + s * (y / (Ny : ℤ))) / (Nx : ℤ) = q1
  generalize y / (Ny : ℤ) = q2
  exact ⟨-(a * q1) - b * q2, by linear_combination (-q1) * hae - q2 * hbe⟩

/-- sites which are joined by bonds have different colours -/
theorem Coloring.bond_sign (col : Coloring) {Norb Nx Ny : ℕ} (hx : 0 < Nx) (hy : 0 < Ny) {s : ℤ} {t : Hoppings ℝ}
    (hcol : col.Fits Norb Nx Ny s t) {i j : ℤ} (hij : bondSum Norb Nx Ny s t i j ≠ 0) :
    col.sign Nx Ny i * col.sign Nx Ny j = -1 := by
  have hopp : ¬ (2 : ℤ) ∣ col.site Nx Ny i - col.site Nx Ny j := by
    intro hpar
    apply hij
    unfold bondSum
    refine Finset.sum_eq_zero fun o ho => Finset.sum_eq_zero fun q hq => Finset.sum_eq_zero fun y _ =>
      Finset.sum_eq_zero fun x _ => ?_
    have key : ∀ k : Bond, (k.joins Nx Ny s x y o q i j : ℝ) * k.amp t (o + q * Norb) = 0 := by
      intro k
      by_cases ht : k.amp t (o + q * Norb) = 0
      · rw [ht, mul_zero]
      have hodd : ¬ (2 : ℤ) ∣ col.site Nx Ny (k.first Nx Ny s x y o) - col.site Nx Ny (k.second Nx Ny s x y q) := by
        have a0 := hcol.bonds k o q (Finset.mem_range.1 ho) (Finset.mem_range.1 hq) ht
        have a1 := col.site_eq hx hy hcol (x + k.src.1) (y + k.src.2) o
        have a2 := col.site_eq hx hy hcol (x + k.dst.1) (y + k.dst.2) q
        unfold Bond.first Bond.second
        have e : ∀ (u v w z : ℤ) (r : ℕ), col.num (u + v) (w + z) r = col.ax * u + col.ay * w + col.num v z r := by
          intro u v w z r
          unfold Coloring.num
          ring
        rw [e] at a1 a2
        omega
      unfold Bond.joins
      rw [if_neg, if_neg]
      · simp
      · rintro ⟨b1, b2⟩
        rw [b1, b2] at hodd
        omega
      · rintro ⟨b1, b2⟩
        rw [b1, b2] at hodd
        omega
    simp only [Bond.all, List.map_cons, List.map_nil, List.sum_cons, List.sum_nil, key, add_zero]
  unfold Coloring.sign
  split <;> split <;> first | (exfalso; omega) | norm_num

/-- C64 for the parameters of the program: if all bonds join sites of different colours and `eps = mu` in all orbitals,
the system has particle-hole symmetry -/
theorem colored_particleHole (col : Coloring) (Norb Nx Ny : ℕ) (hx : 0 < Nx) (hy : 0 < Ny) (s : ℤ) (hs0 : 0 ≤ s)
    (t : Hoppings ℝ) (hcol : col.Fits Norb Nx Ny s t) (eps : ℤ → ℝ) (mu dt : ℝ)
    (heps : ∀ o : ℕ, o < Norb → eps o = mu) (es : Eigensolver (Norb * (Nx * Ny)))
    (sys : Sys σ (Norb * (Nx * Ny)) M) (K : KineticExp (Norb * (Nx * Ny)))
    (hK : kineticExponential Norb Nx Ny s t eps mu dt es = some K)
    (h1 : sys.expK = K.expK) (h2 : sys.invExpK = K.invExpK) :
    ParticleHole sys fun i => col.sign Nx Ny i.val := by
  obtain ⟨T, K', hT, hK', e1, e2, e3, -, e4, -, e5, -⟩ :=
    kinetic_exponentials Norb Nx Ny hx hy s hs0 t eps mu dt es
  rw [hK] at hK'
  cases hK'
  obtain ⟨T', hT', -, hoff, hdiag⟩ := hopping_spec Norb Nx Ny hx hy s hs0 t eps mu
  rw [hT] at hT'
  cases hT'
  refine particleHole_of_kinetic _ (fun i => col.sign_sq Nx Ny _)
    (toMatrix (Norb * (Nx * Ny)) T) dt (fun i j hij => ?_)
    (h1.trans e1) (h2.trans e2) (by rw [h1, h2]; exact e3) (h1 ▸ e5) (h1 ▸ e4)
  have hij' : entry (Norb * (Nx * Ny)) T i j ≠ 0 := hij
  by_cases hd : i = j
  · exfalso
    subst hd
    have hpos : 0 < Nx * Ny := Nat.mul_pos hx hy
    have ho : i.val / (Nx * Ny) < Norb := Nat.div_lt_of_lt_mul (lt_of_lt_of_eq i.2 (mul_comm _ _))
    have := hdiag (i.val / (Nx * Ny)) (i.val % (Nx * Ny)) ho (Nat.mod_lt _ hpos)
    have hi : (((i.val % (Nx * Ny) : ℕ) : ℤ) + ((i.val / (Nx * Ny) : ℕ) : ℤ) * ((Nx * Ny : ℕ) : ℤ))
        = i.val := by
      have := Nat.mod_add_div' i.val (Nx * Ny)
      exact_mod_cast this
    rw [hi, heps _ ho] at this
    exact hij' (by rw [this]; ring)
  · have hne : (i.val : ℤ) ≠ j.val := by
      intro h
      exact hd (Fin.ext (by exact_mod_cast h))
    have hb := hoff i.val j.val (by omega) (by exact_mod_cast i.2) (by omega) (by exact_mod_cast j.2)
      hne
    exact col.bond_sign hx hy hcol fun h => hij' (by rw [hb, h, neg_zero])

end Bipartite

/-! ## A concrete simulation -/

section Example

/-- two sites, hopping with `cosh = 5/4`, `sinh = 3/4` -/
noncomputable def exK : Mat 2 := !![5 / 4, 3 / 4; 3 / 4, 5 / 4]

/-- its inverse -/
noncomputable def exInvK : Mat 2 := !![5 / 4, -3 / 4; -3 / 4, 5 / 4]

theorem exHS_exists : ∃ p, fill 1 (fun _ => 4) (1 / 8) = some p :=
  fill_defined fun _ _ => by norm_num

/-- `U = 4`, `dt = 1/8` -/
noncomputable def exHS : HSParams := Classical.choose exHS_exists

theorem exHS_fill : fill 1 (fun _ => 4) (1 / 8) = some exHS := Classical.choose_spec exHS_exists

/-- random numbers 1/2, sites in order; the measurement data count the equal time samples -/
noncomputable def exSys : Sys Unit 2 ℕ where
  rng :=
    { uniform := fun _ => (1 / 2, ())
      shuffle := fun N _ => some (List.finRange N, ())
      site := fun N _ => if h : 0 < N then some (⟨0, h⟩, ()) else none }
  lp := Classical.choice (lapack_exists 2)
  Ncell := 2
  expK := exK
  invExpK := exInvK
  hs := exHS
  nwraps := 2
  meas := { eq := fun _ _ m => some (m + 1), phonon := fun _ _ _ _ m => some m,
            uneq := fun _ _ _ m => some m }
  W0 := 0
  junk := fun _ => 0

theorem exSys_orb (i : Fin 2) : exSys.orb i = 0 := by
  show i.val / 2 = 0
  omega

theorem exSys_ok : exSys.Ok 2 where
  expK := by
    show exK * exInvK = 1
    ext i j
    fin_cases i <;> fin_cases j <;> simp [exK, exInvK, Matrix.mul_apply, Fin.sum_univ_two] <;> norm_num
  hs := fun i => fill_consistent 1 _ _ _ exHS_fill _ (by rw [exSys_orb]; norm_num)
  rng := ⟨fun _ => by simp [exSys], fun _ => by simp only [exSys]; norm_num, fun r l r' h => by
    simp only [exSys, Option.some.injEq, Prod.mk.injEq] at h
    rw [← h.1]⟩
  dvd := dvd_rfl

/-- the example has particle-hole symmetry -/
theorem exSys_particleHole : ParticleHole exSys ![1, -1] where
  sq := fun i => by fin_cases i <;> simp
  symm := by
    show exKᵀ = exK
    ext i j
    fin_cases i <;> fin_cases j <;> simp [exK]
  inv := exSys_ok.expK
  conj := by
    show diagonal ![1, -1] * exK * diagonal ![1, -1] = exInvK
    ext i j
    fin_cases i <;> fin_cases j <;> simp [exK, exInvK, mul_diagonal, diagonal_mul] <;> norm_num
  pos := by
    show 0 < exK.det
    rw [det_fin_two]
    simp only [exK, of_apply, cons_val', cons_val_zero, cons_val_one, cons_val_fin_one]
    norm_num

/-- products of non-negative 2×2 matrices with positive determinant -/
theorem two_by_two (A : ℕ → Mat 2) (h : ∀ l i j, 0 ≤ A l i j) (hd : ∀ l, 0 < (A l).det) (k : ℕ) :
    0 < (1 + prodSeq A k).det := by
  have h1 : ∀ k i j, 0 ≤ prodSeq A k i j := by
    intro k
    induction k with
    | zero => intro i j; rw [prodSeq, one_apply]; split <;> norm_num
    | succ k ih =>
      intro i j
      rw [prodSeq, mul_apply]
      exact Finset.sum_nonneg fun x _ => mul_nonneg (h _ _ _) (ih _ _)
  have h2 := prodSeq_det_pos A hd k
  have e : (1 + prodSeq A k).det
      = 1 + prodSeq A k 0 0 + prodSeq A k 1 1 + (prodSeq A k).det := by
    rw [det_fin_two, det_fin_two]
    simp only [Matrix.add_apply, one_apply_eq, one_apply_ne (show (0 : Fin 2) ≠ 1 by decide),
      one_apply_ne (show (1 : Fin 2) ≠ 0 by decide)]
    ring
  rw [e]
  have := h1 k 0 0
  have := h1 k 1 1
  linarith

theorem exSys_weight (L : ℕ) (s : ℕ → Fin 2 → Fin 2) (E : ℕ → Fin 2 → ℝ) (hE : ∀ l i, 0 < E l i) :
    exSys.weight L s E ≠ 0 := by
  have key : ∀ expV : Fin 2 → ℕ → ℝ, (∀ v, 0 < expV v 0) →
      0 < (1 + cyclicProd (exSys.fieldB expV s E) L 0).det := by
    intro expV hV
    refine two_by_two _ (fun l i j => ?_) (fun l => ?_) L
    · simp only [Sys.fieldB, diagonal_mul, exSys_orb]
      refine mul_nonneg (mul_pos (hV _) (hE _ _)).le ?_
      show 0 ≤ exK i j
      fin_cases i <;> fin_cases j <;> simp [exK] <;> norm_num
    · simp only [Sys.fieldB, det_mul, det_diagonal, exSys_orb]
      exact mul_pos (Finset.prod_pos fun i _ => mul_pos (hV _) (hE _ _)) exSys_particleHole.pos
  have hc : Consistent exSys.hs 0 := fill_consistent 1 _ _ _ exHS_fill 0 (by norm_num)
  have hu := key exSys.hs.expVu fun v => (hc.pos v).1
  have hd := key exSys.hs.expVd fun v => (hc.pos v).2
  unfold Sys.weight Sys.flow
  simp only [ne_eq, abs_eq_zero, mul_eq_zero, not_or]
  exact ⟨hu.ne', hd.ne'⟩

/-- four slices in blocks of two, two equilibration and three measurement iterations -/
def exCfg : Cfg :=
  { L := 4, prodBlen := 2, usePhonons := false, noHS := false, nequil := 2, nsampl := 3, neqlt := 3,
    nuneqlt := 2 }

noncomputable def exPh : Phonon :=
  { dt := 1 / 8, mu := 0, g := fun _ => 1, omega := fun _ => 1, localBox := 1, blockBox := 1,
    nLocal := 2, nBlock := 1 }

theorem exSys_counts : CountsBy exSys id 1 0 0 where
  eq := fun _ _ m m' h => by simp only [exSys, Option.some.injEq] at h; simp [← h]
  phonon := fun _ _ _ _ m m' h => by simp only [exSys, Option.some.injEq] at h; simp [← h]
  uneq := fun _ _ _ m m' h => by simp only [exSys, Option.some.injEq] at h; simp [← h]

/-- the concrete simulation runs to its end, its final state is exact, the sign is +1 and it takes
`3 * (4 / 3)` samples -/
theorem exSimulation : ∃ r, simulate exSys exPh exCfg (fun _ => false) 0 () (fun _ _ => 0) (fun _ _ => 0)
      (fun _ _ => 1) ⟨0, 0, 0, 0, 0, 0⟩ 0 = some r ∧
    Inv exSys (fun _ _ => 1) 4 2 0 r.state ∧ r.iteration = 5 ∧ r.state.meas = 3 ∧
    r.state.Gu.sgndet * r.state.Gd.sgndet = 1 := by
  obtain ⟨r, h⟩ := simulate_defined (sys := exSys) (ph := exPh) (cfg := exCfg) exSys_ok
    (by norm_num [exCfg]) (by norm_num [exCfg]) rfl (fun _ => false) 0 () (fun _ _ => 0) (fun _ _ => 0)
    (fun _ _ => 1) ⟨0, 0, 0, 0, 0, 0⟩ 0 (exSys_weight _ _ _ fun _ _ => one_pos) (fun _ => by simp [exSys])
    (fun _ _ _ => by simp [exSys]) (fun _ _ _ => by simp [exSys])
  have hi := (simulate_inv (sys := exSys) (ph := exPh) (cfg := exCfg) exSys_ok
    (by norm_num [exCfg]) (by norm_num [exCfg]) (fun _ => True)
    ⟨fun _ _ _ _ _ _ _ _ _ _ _ _ _ _ => trivial,
      fun _ _ _ _ _ _ _ _ _ _ _ _ _ _ _ _ _ => trivial, fun _ _ _ _ _ => trivial⟩ _ _ _ _ _ _ _ _
    (fun h => by cases h) trivial r h).1
  obtain ⟨h1, h2⟩ := equal_time_samples exCfg exSys_counts (by decide) (by decide) _ _ _ _ _ _ r h
  have hi' : Inv exSys (fun _ _ => 1) 4 2 0 r.state := by
    unfold AtRest at hi
    exact hi
  exact ⟨r, h, hi', h1, by simpa [exCfg] using h2,
    sign_half_filling _ exSys_particleHole exSys_ok.hs ⟨hi'.up.good, hi'.down.good⟩⟩

/-- the phonon case: the set-up succeeds and establishes the invariant of all phonon theorems, for
every field and displacement -/
theorem exPhononStart (s : ℕ → Fin 2 → Fin 2) (X : ℕ → Fin 2 → ℝ) :
    ∃ st, startState exSys { exCfg with usePhonons := true } () s X (exSys.expOf exPh X)
      ⟨0, 0, 0, 0, 0, 0⟩ 0 = some st ∧ PhInv exSys exPh 4 2 0 st := by
  obtain ⟨st, h⟩ := startState_defined_ph (sys := exSys) (cfg := { exCfg with usePhonons := true })
    (by norm_num [exCfg]) (by norm_num [exCfg]) rfl () s X (exSys.expOf exPh X) ⟨0, 0, 0, 0, 0, 0⟩ 0
    (exSys_weight _ _ _ fun _ _ => Real.exp_pos _)
  exact ⟨st, h, startState_phInv (cfg := { exCfg with usePhonons := true }) exSys_ok
    (by norm_num [exCfg]) (by norm_num [exCfg]) rfl () s X _ _ _ (fun _ _ _ => rfl) st h⟩

end Example

end Verif.MonteCarlo
