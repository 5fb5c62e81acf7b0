import Verif.Props.Fock
import Verif.Props.MonteCarlo
import Verif.Props.KineticExp
import Mathlib.Data.Fin.Tuple.Basic

/-! # Properties C71, C72: the sum over the fields is the Trotter approximation of the Hubbard model -/

set_option autoImplicit false

namespace Verif.Fock

open Matrix Verif.Lapack Verif.TimeFlow Verif.Greens Verif.GreensUneq Verif.Measurement
open Verif.Stratonovich Verif.MonteCarlo

variable {N : ℕ}

/-! ## Specification -/

/-- kinetic energy `Σ_σ Σ_ij K_ij c†_iσ c_jσ` -/
noncomputable def hopOp (K : Mat N) : Op (Mode N) :=
  ∑ s : Bool, ∑ i, ∑ j, K i j • (cre (i, s) * ann (j, s))

/-- potential energy `Σ_i v_i (n_i↑ + n_i↓)` -/
noncomputable def potOp (v : Fin N → ℝ) : Op (Mode N) := ∑ i, v i • (num (i, true) + num (i, false))

/-- repulsion `Σ_i U_i (n_i↑ - 1/2)(n_i↓ - 1/2)` -/
noncomputable def repOp (U : Fin N → ℝ) : Op (Mode N) :=
  ∑ i, U i • ((num (i, true) - (1 / 2 : ℝ) • 1) * (num (i, false) - (1 / 2 : ℝ) • 1))

/-- one time step of length `dt` with the potential `v` -/
noncomputable def stepOp (K : Mat N) (U : Fin N → ℝ) (dt : ℝ) (v : Fin N → ℝ) : Op (Mode N) :=
  NormedSpace.exp (-dt • repOp U) * NormedSpace.exp (-dt • potOp v) * NormedSpace.exp (-dt • hopOp K)

/-- ordered product `t (k-1) ... t 1 t 0` -/
def oprod {R : Type} [Monoid R] (t : ℕ → R) : ℕ → R
  | 0 => 1
  | k + 1 => t k * oprod t k

/-- a field on `L` slices, continued by an arbitrary value -/
def extend {α : Type} [Inhabited α] {L : ℕ} (s : Fin L → α) (l : ℕ) : α := if h : l < L then s ⟨l, h⟩ else default

/-! ## The three factors of a time step -/

theorem hopOp_eq (K : Mat N) : hopOp K = oneBody (both K K) := by
  unfold hopOp oneBody
  have h : ∀ f : Mode N → Op (Mode N), ∑ a, f a = ∑ s : Bool, ∑ i, f (i, s) := by
    intro f
    rw [Fintype.sum_prod_type, Finset.sum_comm]
  rw [h]
  refine Finset.sum_congr rfl fun s _ => Finset.sum_congr rfl fun i _ => ?_
  rw [h, Finset.sum_eq_single s]
  · refine Finset.sum_congr rfl fun j _ => ?_
    congr 1
    simp [both, spinG]
  · intro s' _ hs
    refine Finset.sum_eq_zero fun j _ => ?_
    rw [show both K K (i, s) (j, s') = 0 by simp [both, spinG, Ne.symm hs], zero_smul]
  · simp

theorem both_smul (r : ℝ) (U D : Mat N) : r • both U D = both (r • U) (r • D) := by
  ext a b
  simp only [both, Matrix.smul_apply, Matrix.of_apply, spinG]
  split
  · split <;> rfl
  · simp

theorem oneBody_smul {m : Type} [Fintype m] [LinearOrder m] (r : ℝ) (T : Matrix m m ℝ) :
    r • oneBody T = oneBody (r • T) := by
  simp only [oneBody, Finset.smul_sum, smul_smul, Matrix.smul_apply, smul_eq_mul]

theorem exp_both (U D : Mat N) : NormedSpace.exp (both U D) = both (NormedSpace.exp U) (NormedSpace.exp D) := by
  have h : ∀ s : Bool, both U D * (Matrix.of fun (a : Mode N) j => if a = (j, s) then (1 : ℝ) else 0)
      = (Matrix.of fun (a : Mode N) j => if a = (j, s) then (1 : ℝ) else 0) * (if s then U else D) := by
    intro s
    ext ⟨i, t⟩ j
    rw [Matrix.mul_apply, Matrix.mul_apply]
    simp only [Matrix.of_apply, mul_ite, mul_one, mul_zero, Finset.sum_ite_eq', Finset.mem_univ, if_true,
      Prod.mk.injEq, ite_mul, one_mul, zero_mul, both, spinG]
    by_cases ht : t = s
    · subst ht
      cases t <;> simp
    · simp [ht]
  ext ⟨i, t⟩ ⟨j, s⟩
  have := congrFun (congrFun (exp_intertwine _ _ _ (h s)) (i, t)) j
  rw [Matrix.mul_apply, Matrix.mul_apply] at this
  simp only [Matrix.of_apply, mul_ite, mul_one, mul_zero, Finset.sum_ite_eq', Finset.mem_univ, if_true,
      Prod.mk.injEq, ite_mul, one_mul, zero_mul] at this
  rw [this]
  simp only [both, spinG, Matrix.of_apply]
  by_cases ht : t = s
  · subst ht
    cases t <;> simp
  · simp [ht]

theorem exp_hopOp (dt : ℝ) (K : Mat N) :
    NormedSpace.exp (-dt • hopOp K) = gamma (both (NormedSpace.exp (-dt • K)) (NormedSpace.exp (-dt • K))) := by
  rw [hopOp_eq, oneBody_smul, both_smul, exp_oneBody, exp_both]

/-! ### Operators which are diagonal in the occupation numbers -/

/-- occupation number of a mode -/
def occN (S : Finset (Mode N)) (a : Mode N) : ℝ := if a ∈ S then 1 else 0

theorem exp_diag {p : Type} [Fintype p] [DecidableEq p] (f : p → ℝ) :
    NormedSpace.exp (diagonal f) = diagonal fun S => Real.exp (f S) := by
  rw [exp_diagonal]
  congr 1
  funext S
  rw [Pi.coe_exp, Real.exp_eq_exp_ℝ]

theorem diagonal_sum' {p : Type} [DecidableEq p] {q : Type} (t : Finset q) (f : q → p → ℝ) :
    ∑ i ∈ t, diagonal (f i) = diagonal fun S => ∑ i ∈ t, f i S := by
  ext a b
  rw [Matrix.sum_apply]
  by_cases h : a = b
  · subst h; simp
  · simp [h]

theorem repOp_eq (U : Fin N → ℝ) :
    repOp U = diagonal fun S => ∑ i, U i * ((occN S (i, true) - 1 / 2) * (occN S (i, false) - 1 / 2)) := by
  unfold repOp num
  rw [← diagonal_sum']
  refine Finset.sum_congr rfl fun i _ => ?_
  rw [← diagonal_one, ← diagonal_smul, diagonal_sub, diagonal_sub, diagonal_mul_diagonal, ← diagonal_smul]
  congr 1
  funext S
  simp [occN]

theorem potOp_eq (v : Fin N → ℝ) :
    potOp v = diagonal fun S => ∑ i, v i * (occN S (i, true) + occN S (i, false)) := by
  unfold potOp num
  rw [← diagonal_sum']
  refine Finset.sum_congr rfl fun i _ => ?_
  rw [diagonal_add, ← diagonal_smul]
  congr 1

/-- a diagonal propagator in terms of the occupation numbers -/
theorem gamma_both_diagonal (a b : Fin N → ℝ) :
    gamma (both (diagonal a) (diagonal b)) = diagonal fun S => ∏ i,
      ((if (i, true) ∈ S then a i else 1) * (if (i, false) ∈ S then b i else 1)) := by
  have h : both (diagonal a) (diagonal b) = diagonal fun x : Mode N => if x.2 then a x.1 else b x.1 := by
    ext ⟨i, s⟩ ⟨j, t⟩
    simp only [both, spinG, Matrix.of_apply, diagonal_apply, Prod.mk.injEq]
    by_cases hs : s = t
    · subst hs
      cases s <;> simp
    · simp [hs]
  rw [h, gamma_diagonal]
  congr 1
  funext S
  have e : ∀ f : Mode N → ℝ, ∏ x ∈ S, f x = ∏ x, if x ∈ S then f x else 1 := by
    intro f
    rw [Finset.prod_ite_mem, Finset.univ_inter]
  rw [e, Fintype.prod_prod_type]
  refine Finset.prod_congr rfl fun i _ => ?_
  rw [Fintype.prod_bool]
  simp

/-- the propagator of the potential -/
theorem exp_potOp (dt : ℝ) (v : Fin N → ℝ) :
    NormedSpace.exp (-dt • potOp v)
      = gamma (both (diagonal fun i => Real.exp (-dt * v i)) (diagonal fun i => Real.exp (-dt * v i))) := by
  rw [potOp_eq, gamma_both_diagonal, ← diagonal_smul, exp_diag]
  congr 1
  funext S
  rw [Pi.smul_apply, smul_eq_mul, Finset.mul_sum, Real.exp_sum]
  refine Finset.prod_congr rfl fun i _ => ?_
  unfold occN
  split <;> split <;> simp [← Real.exp_add, mul_add]

/-- the discrete Hubbard-Stratonovich transformation of the propagator of the repulsion -/
theorem exp_repOp {Norb : ℕ} {U : ℕ → ℝ} {dt : ℝ} {p : HSParams}
    (hU : ∀ o < Norb, 0 ≤ dt * U o) (hp : fill Norb U dt = some p) (orb : Fin N → ℕ) (ho : ∀ i, orb i < Norb) :
    NormedSpace.exp (-dt • repOp fun i => U (orb i))
      = (∏ i, (1 / 2 * Real.exp (-(dt * U (orb i) / 4)))) • ∑ σ : Fin N → Fin 2,
        gamma (both (diagonal fun i => p.expVu (σ i) (orb i)) (diagonal fun i => p.expVd (σ i) (orb i))) := by
  obtain ⟨p', hp', hd⟩ := hs_decoupling Norb U dt hU
  obtain rfl : p' = p := Option.some.inj (hp'.symm.trans hp)
  simp only [gamma_both_diagonal]
  rw [diagonal_sum', ← diagonal_smul, repOp_eq, ← diagonal_smul, exp_diag]
  congr 1
  funext S
  rw [Pi.smul_apply, Pi.smul_apply, smul_eq_mul, smul_eq_mul, Finset.mul_sum, Real.exp_sum]
  have e := Finset.prod_univ_sum (fun _ : Fin N => (Finset.univ : Finset (Fin 2))) fun i s =>
    (if (i, true) ∈ S then p'.expVu s (orb i) else 1) * (if (i, false) ∈ S then p'.expVd s (orb i) else 1)
  rw [Fintype.piFinset_univ] at e
  rw [← e, ← Finset.prod_mul_distrib]
  refine Finset.prod_congr rfl fun i _ => ?_
  have h := hd (orb i) (ho i) (if (i, true) ∈ S then 1 else 0) (if (i, false) ∈ S then 1 else 0)
  have h2 : ∀ (b : Prop) [Decidable b] (x : ℝ), occ x (if b then 1 else 0) = if b then x else 1 := by
    intro b _ x
    unfold occ
    split <;> simp
  have h3 : ∀ (b : Prop) [Decidable b], (((if b then 1 else 0 : Fin 2) : ℕ) : ℝ) = if b then 1 else 0 := by
    intro b _
    split <;> simp
  simp only [h2, h3] at h
  rw [mul_right_comm, h, mul_right_comm, ← Real.exp_add, add_neg_cancel, Real.exp_zero, one_mul]
  congr 1
  unfold occN
  ring

/-! ### Ordered products of sums -/

theorem oprod_congr {R : Type} [Monoid R] {t t' : ℕ → R} {k : ℕ} (h : ∀ l < k, t l = t' l) :
    oprod t k = oprod t' k := by
  induction k with
  | zero => rfl
  | succ k ih => rw [oprod, oprod, h k (by omega), ih fun l hl => h l (by omega)]

theorem extend_snoc {α : Type} [Inhabited α] {L : ℕ} (s : Fin L → α) (a : α) :
    extend (Fin.snoc s a : Fin (L + 1) → α) L = a ∧
    ∀ l < L, extend (Fin.snoc s a : Fin (L + 1) → α) l = extend s l := by
  constructor
  · simp [extend, Fin.snoc]
  · intro l hl
    have : l < L + 1 := by omega
    simp [extend, Fin.snoc, hl, this]

/-- a product of sums is the sum over all fields -/
theorem oprod_sum {R α : Type} [Semiring R] [Fintype α] [Inhabited α] (f : ℕ → α → R) (L : ℕ) :
    oprod (fun l => ∑ a, f l a) L = ∑ s : Fin L → α, oprod (fun l => f l (extend s l)) L := by
  induction L with
  | zero => simp [oprod]
  | succ L ih =>
    rw [← (Fin.snocEquiv fun _ : Fin (L + 1) => α).sum_comp, Fintype.sum_prod_type, oprod, ih, Finset.sum_mul]
    refine Finset.sum_congr rfl fun a _ => ?_
    rw [Finset.mul_sum]
    refine Finset.sum_congr rfl fun s _ => ?_
    obtain ⟨h1, h2⟩ := extend_snoc s a
    show _ = oprod (fun l => f l (extend (Fin.snoc s a : Fin (L + 1) → α) l)) (L + 1)
    rw [oprod, h1]
    congr 1
    exact oprod_congr fun l hl => by rw [h2 l hl]

theorem oprod_smul {m : Type} [Fintype m] [DecidableEq m] (c : ℝ) (t : ℕ → Matrix m m ℝ) (k : ℕ) :
    oprod (fun l => c • t l) k = c ^ k • oprod t k := by
  induction k with
  | zero => simp [oprod]
  | succ k ih => rw [oprod, oprod, ih, smul_mul_smul_comm, pow_succ']

theorem oprod_gamma (Bu Bd : ℕ → Mat N) (k : ℕ) :
    oprod (fun l => gamma (both (Bu l) (Bd l))) k = gamma (both (prodSeq Bu k) (prodSeq Bd k)) := by
  induction k with
  | zero => rw [oprod, prodSeq, prodSeq, both_one, gamma_one]
  | succ k ih => rw [oprod, ih, prodSeq, prodSeq, gamma_mul', both_mul]

theorem oprod_sum_mul {R α : Type} [Semiring R] [Fintype α] [Inhabited α] (f : ℕ → α → R) (l : ℕ)
    (g : (ℕ → α) → R) (hg : ∀ s s' : ℕ → α, (∀ j < l, s j = s' j) → g s = g s') (k : ℕ) :
    oprod (fun j => ∑ a, f (l + j) a) k * ∑ s : Fin l → α, g (extend s)
      = ∑ s : Fin (l + k) → α, oprod (fun j => f (l + j) (extend s (l + j))) k * g (extend s) := by
  induction k with
  | zero => simp [oprod]
  | succ k ih =>
    have e : ∀ F : (Fin (l + (k + 1)) → α) → R, ∑ s, F s = ∑ a : α, ∑ s : Fin (l + k) → α, F (Fin.snoc s a) := by
      intro F
      refine ((Fin.snocEquiv fun _ : Fin (l + k + 1) => α).sum_comp F).symm.trans ?_
      rw [Fintype.sum_prod_type]
      rfl
    rw [oprod, mul_assoc, ih, Finset.sum_mul, e]
    refine Finset.sum_congr rfl fun a _ => ?_
    rw [Finset.mul_sum]
    refine Finset.sum_congr rfl fun s _ => ?_
    obtain ⟨h1, h2⟩ := extend_snoc s a
    show _ = oprod (fun j => f (l + j) (extend (Fin.snoc s a : Fin (l + k + 1) → α) (l + j))) (k + 1)
      * g (extend (Fin.snoc s a : Fin (l + k + 1) → α))
    rw [oprod, h1, hg _ (extend s) fun j hj => h2 j (by omega), mul_assoc]
    congr 2
    exact oprod_congr fun j hj => by rw [h2 (l + j) (by omega)]

/-! ## C71: the partition function -/

variable {σ M : Type}

/-- the constant data of the simulation belong to the hopping matrix `K`, the repulsion `U` of the
orbitals and the time step `dt` -/
structure Describes (sys : Sys σ N M) (Norb : ℕ) (K : Mat N) (U : ℕ → ℝ) (dt : ℝ) : Prop where
  nonneg : ∀ o < Norb, 0 ≤ dt * U o
  orb : ∀ i, sys.orb i < Norb
  hs : fill Norb U dt = some sys.hs
  expK : sys.expK = NormedSpace.exp (-dt • K)

/-- weight of a field with its sign -/
noncomputable def signed (sys : Sys σ N M) (L : ℕ) (s : ℕ → Fin N → Fin 2) (E : ℕ → Fin N → ℝ) : ℝ :=
  (1 + sys.flow sys.hs.expVu L s E).det * (1 + sys.flow sys.hs.expVd L s E).det

theorem weight_eq (sys : Sys σ N M) (L : ℕ) (s : ℕ → Fin N → Fin 2) (E : ℕ → Fin N → ℝ) :
    sys.weight L s E = |signed sys L s E| := rfl

/-- constant factor of a time step -/
noncomputable def stepConst (U : Fin N → ℝ) (dt : ℝ) : ℝ := ∏ i, (1 / 2 * Real.exp (-(dt * U i / 4)))

theorem stepConst_pos (U : Fin N → ℝ) (dt : ℝ) : 0 < stepConst U dt :=
  Finset.prod_pos fun _ _ => mul_pos (by norm_num) (Real.exp_pos _)

variable {sys : Sys σ N M} {Norb : ℕ} {K : Mat N} {U : ℕ → ℝ} {dt : ℝ}

/-- propagator of slice `l` for a field -/
noncomputable def fieldOp (sys : Sys σ N M) (E : ℕ → Fin N → ℝ) (l : ℕ) (a : Fin N → Fin 2) : Op (Mode N) :=
  gamma (both (sys.fieldB sys.hs.expVu (fun _ => a) E l) (sys.fieldB sys.hs.expVd (fun _ => a) E l))

theorem step_sum (h : Describes sys Norb K U dt) (v : ℕ → Fin N → ℝ) (l : ℕ) :
    stepOp K (fun i => U (sys.orb i)) dt (v l)
      = stepConst (fun i => U (sys.orb i)) dt •
        ∑ a : Fin N → Fin 2, fieldOp sys (fun l i => Real.exp (-dt * v l i)) l a := by
  unfold stepOp
  rw [exp_repOp h.nonneg h.hs _ h.orb, exp_potOp, exp_hopOp, smul_mul_assoc, smul_mul_assoc, Finset.sum_mul,
    Finset.sum_mul]
  unfold stepConst
  congr 1
  refine Finset.sum_congr rfl fun a _ => ?_
  rw [gamma_mul', gamma_mul', both_mul, both_mul, diagonal_mul_diagonal, diagonal_mul_diagonal, ← h.expK]
  rfl

theorem fieldOp_extend (sys : Sys σ N M) (E : ℕ → Fin N → ℝ) (l : ℕ) (s : ℕ → Fin N → Fin 2) :
    fieldOp sys E l (s l)
      = gamma (both (sys.fieldB sys.hs.expVu s E l) (sys.fieldB sys.hs.expVd s E l)) := rfl

theorem flow_eq (sys : Sys σ N M) (expV : Fin 2 → ℕ → ℝ) (L : ℕ) (s : ℕ → Fin N → Fin 2)
    (E : ℕ → Fin N → ℝ) : sys.flow expV L s E = prodSeq (sys.fieldB expV s E) L := by
  unfold Sys.flow
  rw [cyclic_seg _ (Nat.zero_le L), seg_self, one_mul, seg_zero]

/-- C71: summing the weights (with their signs) of all fields gives, up to a known constant factor, the
trace of the product of the time steps of the Hubbard model -/
theorem partition_function (h : Describes sys Norb K U dt) (v : ℕ → Fin N → ℝ) (L : ℕ) :
    (oprod (fun l => stepOp K (fun i => U (sys.orb i)) dt (v l)) L).trace
      = stepConst (fun i => U (sys.orb i)) dt ^ L *
        ∑ s : Fin L → Fin N → Fin 2, signed sys L (extend s) fun l i => Real.exp (-dt * v l i) := by
  simp only [step_sum h]
  rw [oprod_smul, oprod_sum, Matrix.trace_smul, Matrix.trace_sum, smul_eq_mul]
  congr 1
  refine Finset.sum_congr rfl fun s _ => ?_
  simp only [fieldOp_extend]
  rw [oprod_gamma, trace_gamma, one_add_both, both_det]
  unfold signed
  rw [flow_eq, flow_eq]

/-! ## C72: expectation values -/

/-- sum over the fields of a trace with the operators `X` at slice `l` and `Y` at slice 0 -/
theorem trace_sum_fields (h : Describes sys Norb K U dt) (v : ℕ → Fin N → ℝ) {L l : ℕ} (hl : l ≤ L)
    (X Y : Op (Mode N)) :
    let E := fun l i => Real.exp (-dt * v l i)
    let H := fun l => stepOp K (fun i => U (sys.orb i)) dt (v l)
    let Bu := fun s : Fin L → Fin N → Fin 2 => sys.fieldB sys.hs.expVu (extend s) E
    let Bd := fun s : Fin L → Fin N → Fin 2 => sys.fieldB sys.hs.expVd (extend s) E
    (oprod (fun j => H (l + j)) (L - l) * X * oprod H l * Y).trace
      = stepConst (fun i => U (sys.orb i)) dt ^ L * ∑ s : Fin L → Fin N → Fin 2,
        (gamma (both (seg (Bu s) L l) (seg (Bd s) L l)) * X
          * gamma (both (prodSeq (Bu s) l) (prodSeq (Bd s) l)) * Y).trace := by
  intro E H Bu Bd
  obtain ⟨k, rfl⟩ := Nat.exists_eq_add_of_le hl
  have hH : ∀ j, H j = stepConst (fun i => U (sys.orb i)) dt • ∑ a : Fin N → Fin 2, fieldOp sys E j a :=
    fun j => step_sum h v j
  rw [Nat.add_sub_cancel_left, show H = fun j => stepConst (fun i => U (sys.orb i)) dt •
    ∑ a : Fin N → Fin 2, fieldOp sys E j a from funext hH]
  rw [oprod_smul, oprod_smul, smul_mul_assoc, smul_mul_smul_comm, smul_mul_assoc, ← pow_add, Matrix.trace_smul,
    smul_eq_mul, add_comm k l]
  congr 1
  rw [oprod_sum (fieldOp sys E) l, mul_assoc (oprod _ k), Finset.mul_sum,
    oprod_sum_mul (fieldOp sys E) l (fun s => X * oprod (fun j => fieldOp sys E j (s j)) l)
      (fun s s' hs => by
        congr 1
        exact oprod_congr fun j hj => by rw [hs j hj]) k,
    Finset.sum_mul, Matrix.trace_sum]
  refine Finset.sum_congr rfl fun s _ => ?_
  simp only [fieldOp_extend]
  rw [oprod_gamma, oprod_gamma]
  simp only [seg, Nat.add_sub_cancel_left, mul_assoc]
  rfl

/-- specification: thermal expectation value of `X` at time slice `l` and `Y` at time slice 0, for the
time steps `H` -/
noncomputable def thermal (H : ℕ → Op (Mode N)) (L l : ℕ) (X Y : Op (Mode N)) : ℝ :=
  (oprod (fun j => H (l + j)) (L - l) * X * oprod H l * Y).trace / (oprod H L).trace

/-- specification: average over all fields of `O` times the sign of the weight, with the absolute
values of the weights as probabilities, divided by the average sign -/
noncomputable def signedAverage (sys : Sys σ N M) (L : ℕ) (E : ℕ → Fin N → ℝ)
    (O : (ℕ → Fin N → Fin 2) → ℝ) : ℝ :=
  let w := fun s : Fin L → Fin N → Fin 2 => sys.weight L (extend s) E
  let sgn := fun s : Fin L → Fin N → Fin 2 => (SignType.sign (signed sys L (extend s) E) : ℝ)
  let avg := fun f : (Fin L → Fin N → Fin 2) → ℝ => (∑ s, w s * f s) / ∑ s, w s
  avg (fun s => sgn s * O (extend s)) / avg sgn

theorem signedAverage_eq (sys : Sys σ N M) (L : ℕ) (E : ℕ → Fin N → ℝ) (O : (ℕ → Fin N → Fin 2) → ℝ)
    (hne : ∀ s : Fin L → Fin N → Fin 2, signed sys L (extend s) E ≠ 0) :
    signedAverage sys L E O
      = (∑ s : Fin L → Fin N → Fin 2, signed sys L (extend s) E * O (extend s))
        / ∑ s : Fin L → Fin N → Fin 2, signed sys L (extend s) E := by
  unfold signedAverage
  simp only [weight_eq, ← mul_assoc, abs_mul_sign]
  refine div_div_div_cancel_right₀ (ne_of_gt ?_) _ _
  exact Finset.sum_pos (fun s _ => abs_pos.2 (hne s)) Finset.univ_nonempty

/-- the trace of the propagators of a field is its weight with sign -/
theorem expect_signed (sys : Sys σ N M) (E : ℕ → Fin N → ℝ) {L l : ℕ} (hl : l ≤ L) (s : ℕ → Fin N → Fin 2)
    (hne : signed sys L s E ≠ 0) (X Y : Op (Mode N)) :
    let W₂ := gamma (both (seg (sys.fieldB sys.hs.expVu s E) L l) (seg (sys.fieldB sys.hs.expVd s E) L l))
    let W₁ := gamma (both (prodSeq (sys.fieldB sys.hs.expVu s E) l) (prodSeq (sys.fieldB sys.hs.expVd s E) l))
    signed sys L s E * expect W₂ W₁ X Y = (W₂ * X * W₁ * Y).trace := by
  intro W₂ W₁
  have e : (W₂ * W₁).trace = signed sys L s E := by
    rw [total_trace, both_mul, ← seg_zero, ← seg_zero, seg_mul _ (Nat.zero_le _) hl,
      seg_mul _ (Nat.zero_le _) hl, seg_zero, seg_zero, one_add_both, both_det, ← flow_eq, ← flow_eq]
    rfl
  unfold expect
  rw [e, mul_div_cancel₀ _ hne]

/-- the estimators at equal times for one field -/
theorem equal_expect (sys : Sys σ N M) (E : ℕ → Fin N → ℝ) {L l : ℕ} (hl : l ≤ L) (s : ℕ → Fin N → Fin 2)
    (hne : signed sys L s E ≠ 0) :
    let W₂ := gamma (both (seg (sys.fieldB sys.hs.expVu s E) L l) (seg (sys.fieldB sys.hs.expVd s E) L l))
    let W₁ := gamma (both (prodSeq (sys.fieldB sys.hs.expVu s E) l) (prodSeq (sys.fieldB sys.hs.expVd s E) l))
    let P := equalTime (1 + cyclicProd (sys.fieldB sys.hs.expVu s E) L l)⁻¹
        (1 + cyclicProd (sys.fieldB sys.hs.expVd s E) L l)⁻¹
    (∀ X Y : OneBody N, P.corr X Y = expect W₂ W₁ (opOf X * opOf Y) 1) ∧
    (∀ X : OneBody N, P.mean X = expect W₂ W₁ (opOf X) 1) ∧
    (∀ X Y : PairOp N, P.pairCorr X Y = expect W₂ W₁ (pairOf X * (pairOf Y)ᵀ) 1) := by
  intro W₂ W₁ P
  have hu : (1 + cyclicProd (sys.fieldB sys.hs.expVu s E) L l).det ≠ 0 := by
    rw [det_cyclic _ hl]; exact left_ne_zero_of_mul hne
  have hd : (1 + cyclicProd (sys.fieldB sys.hs.expVd s E) L l).det ≠ 0 := by
    rw [det_cyclic _ hl]; exact right_ne_zero_of_mul hne
  have hP : P = tracePairs 1 (both (cyclicProd (sys.fieldB sys.hs.expVu s E) L l)
        (cyclicProd (sys.fieldB sys.hs.expVd s E) L l)) := equalTime_is_trace _ _ hu hd
  have hdet : (1 + both (cyclicProd (sys.fieldB sys.hs.expVu s E) L l)
        (cyclicProd (sys.fieldB sys.hs.expVd s E) L l) * 1).det ≠ 0 := by
    rw [mul_one, one_add_both, both_det]
    exact mul_ne_zero hu hd
  -- move the operators next to each other by a cyclic permutation
  have cyc : ∀ X Y : Op (Mode N),
      expect (gamma (both (cyclicProd (sys.fieldB sys.hs.expVu s E) L l)
          (cyclicProd (sys.fieldB sys.hs.expVd s E) L l))) (gamma 1) X Y = expect W₂ W₁ (X * Y) 1 := by
    intro X Y
    unfold expect
    rw [cyclic_seg _ hl, cyclic_seg _ hl, seg_zero, seg_zero, ← both_mul, ← gamma_mul', gamma_one, mul_one, mul_one,
      mul_one, Matrix.trace_mul_comm _ W₁, Matrix.trace_mul_comm W₂ W₁]
    simp only [mul_assoc]
    rfl
  refine ⟨fun X Y => ?_, fun X => ?_, fun X Y => ?_⟩
  · rw [hP, ← expect_corr _ _ hdet, cyc]
  · rw [hP, ← expect_mean, cyc, mul_one]
  · rw [hP, ← expect_pairCorr _ _ hdet, cyc]

theorem thermal_eq (h : Describes sys Norb K U dt) (v : ℕ → Fin N → ℝ) {L l : ℕ} (hl : l ≤ L)
    (hne : ∀ s : Fin L → Fin N → Fin 2, signed sys L (extend s) (fun l i => Real.exp (-dt * v l i)) ≠ 0)
    (X Y : Op (Mode N)) (O : (ℕ → Fin N → Fin 2) → ℝ) :
    let E := fun l i => Real.exp (-dt * v l i)
    let H := fun l => stepOp K (fun i => U (sys.orb i)) dt (v l)
    (∀ s : Fin L → Fin N → Fin 2, O (extend s) =
      expect (gamma (both (seg (sys.fieldB sys.hs.expVu (extend s) E) L l)
          (seg (sys.fieldB sys.hs.expVd (extend s) E) L l)))
        (gamma (both (prodSeq (sys.fieldB sys.hs.expVu (extend s) E) l)
          (prodSeq (sys.fieldB sys.hs.expVd (extend s) E) l))) X Y) →
    thermal H L l X Y = signedAverage sys L E O := by
  intro E H hO
  have hc := (pow_pos (stepConst_pos (fun i => U (sys.orb i)) dt) L).ne'
  rw [signedAverage_eq sys L E O hne]
  unfold thermal
  rw [trace_sum_fields h v hl X Y, partition_function h v L, mul_div_mul_left _ _ hc]
  congr 1
  refine Finset.sum_congr rfl fun s _ => ?_
  rw [hO s, expect_signed sys E hl _ (hne s)]

/-- C72, unequal times: if no weight vanishes, the thermal expectation values of the Hubbard model (in the Trotter
approximation) are the averages over the fields of the quantities which the estimators of the code
compute. -/
theorem thermal_averages (h : Describes sys Norb K U dt) (v : ℕ → Fin N → ℝ) {L l : ℕ} (hl : l ≤ L)
    (hne : ∀ s : Fin L → Fin N → Fin 2, signed sys L (extend s) (fun l i => Real.exp (-dt * v l i)) ≠ 0) :
    let E := fun l i => Real.exp (-dt * v l i)
    let H := fun l => stepOp K (fun i => U (sys.orb i)) dt (v l)
    let P := fun s : ℕ → Fin N → Fin 2 =>
      unequalTime (exactG (sys.fieldB sys.hs.expVu s E) L) (exactG (sys.fieldB sys.hs.expVd s E) L) l
    (∀ X Y : OneBody N,
      thermal H L l (opOf X) (opOf Y) = signedAverage sys L E fun s => (P s).corr X Y) ∧
    (∀ X : OneBody N, thermal H L l (opOf X) 1 = signedAverage sys L E fun s => (P s).mean X) ∧
    (∀ X Y : PairOp N,
      thermal H L l (pairOf X) (pairOf Y)ᵀ = signedAverage sys L E fun s => (P s).pairCorr X Y) := by
  intro E H P
  have est : ∀ s : Fin L → Fin N → Fin 2, _ := fun s => estimators_are_traces
    (sys.fieldB sys.hs.expVu (extend s) E) (sys.fieldB sys.hs.expVd (extend s) E) L
    (by rw [← flow_eq]; exact left_ne_zero_of_mul (hne s))
    (by rw [← flow_eq]; exact right_ne_zero_of_mul (hne s)) l hl
  exact ⟨fun X Y => thermal_eq h v hl hne _ _ _ fun s => (est s).1 X Y,
    fun X => thermal_eq h v hl hne _ _ _ fun s => (est s).2.1 X,
    fun X Y => thermal_eq h v hl hne _ _ _ fun s => (est s).2.2 X Y⟩


/-- C72, equal times: the same for the measurements at slice `l`, which use the Green's functions
`(1 + B_{l-1} ... B_0 B_{L-1} ... B_l)⁻¹` -/
theorem thermal_averages_eq (h : Describes sys Norb K U dt) (v : ℕ → Fin N → ℝ) {L l : ℕ} (hl : l ≤ L)
    (hne : ∀ s : Fin L → Fin N → Fin 2, signed sys L (extend s) (fun l i => Real.exp (-dt * v l i)) ≠ 0) :
    let E := fun l i => Real.exp (-dt * v l i)
    let H := fun l => stepOp K (fun i => U (sys.orb i)) dt (v l)
    let P := fun s : ℕ → Fin N → Fin 2 =>
      equalTime (1 + cyclicProd (sys.fieldB sys.hs.expVu s E) L l)⁻¹
        (1 + cyclicProd (sys.fieldB sys.hs.expVd s E) L l)⁻¹
    (∀ X Y : OneBody N,
      thermal H L l (opOf X * opOf Y) 1 = signedAverage sys L E fun s => (P s).corr X Y) ∧
    (∀ X : OneBody N, thermal H L l (opOf X) 1 = signedAverage sys L E fun s => (P s).mean X) ∧
    (∀ X Y : PairOp N,
      thermal H L l (pairOf X * (pairOf Y)ᵀ) 1 = signedAverage sys L E fun s => (P s).pairCorr X Y) := by
  intro E H P
  have est : ∀ s : Fin L → Fin N → Fin 2, _ := fun s => equal_expect sys E hl (extend s) (hne s)
  exact ⟨fun X Y => thermal_eq h v hl hne _ _ _ fun s => (est s).1 X Y,
    fun X => thermal_eq h v hl hne _ _ _ fun s => (est s).2.1 X,
    fun X Y => thermal_eq h v hl hne _ _ _ fun s => (est s).2.2 X Y⟩

/-! ### The average sign -/

theorem posDef_pow {m : Type} [Fintype m] [DecidableEq m] {A : Matrix m m ℝ} (hA : A.PosDef) :
    ∀ k, (A ^ k).PosDef
  | 0 => by rw [pow_zero]; exact Matrix.PosDef.one
  | 1 => by rwa [pow_one]
  | k + 2 => by
    have := (posDef_pow hA k).conjTranspose_mul_mul_same (B := A)
      (Matrix.mulVec_injective_of_isUnit hA.isUnit)
    rw [hA.isHermitian] at this
    rwa [pow_succ, pow_succ']

theorem exp_posDef {m : Type} [Fintype m] [DecidableEq m] {A : Matrix m m ℝ} (hA : A.IsSymm) :
    (NormedSpace.exp A).PosDef := by
  have e : NormedSpace.exp A = (NormedSpace.exp ((1 / 2 : ℝ) • A))ᴴ * 1 * NormedSpace.exp ((1 / 2 : ℝ) • A) := by
    rw [mul_one, ← Matrix.exp_conjTranspose, Matrix.conjTranspose_smul, Matrix.conjTranspose_eq_transpose_of_trivial, hA]
    rw [star_trivial, ← Matrix.exp_add_of_commute _ _ (Commute.refl _), ← add_smul]
    norm_num
  rw [e]
  exact Matrix.PosDef.one.conjTranspose_mul_mul_same (Matrix.mulVec_injective_of_isUnit (Matrix.isUnit_exp _))

theorem trace_pow_comm {m : Type} [Fintype m] [DecidableEq m] (A B : Matrix m m ℝ) (k : ℕ) :
    ((A * B) ^ k).trace = ((B * A) ^ k).trace := by
  cases k with
  | zero => simp
  | succ k => rw [pow_succ, ← mul_assoc, mul_pow_mul, Matrix.trace_mul_comm, ← mul_assoc, ← pow_succ']

theorem trace_exp_pos {m : Type} [Fintype m] [DecidableEq m] [Nonempty m] {A B : Matrix m m ℝ} (hA : A.IsSymm)
    (hB : B.IsSymm) (k : ℕ) : 0 < ((NormedSpace.exp A * NormedSpace.exp B) ^ k).trace := by
  set F := NormedSpace.exp ((1 / 2 : ℝ) • B) with hF
  have e : NormedSpace.exp B = F * F := by
    rw [hF, ← Matrix.exp_add_of_commute _ _ (Commute.refl _), ← add_smul]
    norm_num
  have hs : Fᴴ = F := by
    rw [hF, ← Matrix.exp_conjTranspose, Matrix.conjTranspose_smul, Matrix.conjTranspose_eq_transpose_of_trivial, hB, star_trivial]
  rw [e, ← mul_assoc, trace_pow_comm]
  have := (exp_posDef hA).conjTranspose_mul_mul_same (B := F)
      (Matrix.mulVec_injective_of_isUnit (Matrix.isUnit_exp _))
  rw [hs, mul_assoc] at this
  exact (posDef_pow this k).trace_pos

theorem oprod_const {R : Type} [Monoid R] (a : R) (k : ℕ) : oprod (fun _ => a) k = a ^ k := by
  induction k with
  | zero => simp [oprod]
  | succ k ih => rw [oprod, ih, pow_succ']

theorem oneBody_symm {m : Type} [Fintype m] [LinearOrder m] {T : Matrix m m ℝ} (hT : T.IsSymm) :
    (oneBody T).IsSymm := by
  unfold oneBody Matrix.IsSymm
  simp only [Matrix.transpose_sum, Matrix.transpose_smul, Matrix.transpose_mul, ← cre_transpose, Matrix.transpose_transpose]
  rw [Finset.sum_comm]
  refine Finset.sum_congr rfl fun a _ => Finset.sum_congr rfl fun b _ => ?_
  rw [hT.apply]

theorem both_symm {A : Mat N} (hA : A.IsSymm) : (both A A).IsSymm := by
  ext ⟨i, s⟩ ⟨j, t⟩
  simp only [Matrix.transpose_apply, both, Matrix.of_apply, spinG, hA.apply]
  cases s <;> cases t <;> simp [hA.apply j i]

/-- C72: with a potential that does not depend on time (in particular without phonons) the sum of the
weights with their signs is positive, so the average sign is positive -/
theorem average_sign_pos (h : Describes sys Norb K U dt) (hK : K.IsSymm) (v : Fin N → ℝ) (L : ℕ) :
    0 < ∑ s : Fin L → Fin N → Fin 2, signed sys L (extend s) fun _ i => Real.exp (-dt * v i) := by
  have hp := partition_function h (fun _ => v) L
  rw [oprod_const] at hp
  have hpos : 0 < (stepOp K (fun i => U (sys.orb i)) dt v ^ L).trace := by
    have e : stepOp K (fun i => U (sys.orb i)) dt v
        = NormedSpace.exp (-dt • (repOp (fun i => U (sys.orb i)) + potOp v)) * NormedSpace.exp (-dt • hopOp K) := by
      unfold stepOp
      rw [smul_add, Matrix.exp_add_of_commute]
      rw [repOp_eq, potOp_eq, ← diagonal_smul, ← diagonal_smul]
      exact Matrix.commute_diagonal _ _
    rw [e]
    refine trace_exp_pos ?_ ?_ L
    · rw [repOp_eq, potOp_eq, diagonal_add, ← diagonal_smul]
      exact Matrix.isSymm_diagonal _
    · rw [hopOp_eq]
      exact (oneBody_symm (both_symm hK)).smul _
  rw [hp] at hpos
  exact pos_of_mul_pos_right hpos (pow_nonneg (stepConst_pos _ _).le _)

end Verif.Fock
