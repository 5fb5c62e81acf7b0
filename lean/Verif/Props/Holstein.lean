import Verif.Lemmas.PathIntegral
import Verif.Props.FreshStart
import Verif.Props.Expected

/-! # The sum over the fields and the integral over the phonon coordinates, as a path integral (C78) -/

set_option autoImplicit false

namespace Verif.MonteCarlo

open Matrix MeasureTheory Verif.Lapack Verif.TimeFlow Verif.Fock Verif.Greens Verif.GreensUneq Verif.Measurement

variable {σ : Type} {N : ℕ} {M : Type} {L : ℕ}

/-! ## Specification -/

/-- time step of the electrons for the phonon coordinates `y`: the Hubbard model with the potential `g y` -/
noncomputable def stepAt (sys : Sys σ N M) (ph : Phonon) (K : Mat N) (U : ℕ → ℝ) (y : Fin N → ℝ) : Op (Mode N) :=
  stepOp K (fun i => U (sys.orb i)) ph.dt fun i => ph.g (sys.orb i) * y i

/-- trace over the states of the electrons of the time steps along a path, with the operators `X` at slice `l` and `Y` at
slice 0 -/
noncomputable def electronTrace (sys : Sys σ N M) (ph : Phonon) (K : Mat N) (U : ℕ → ℝ) (L l : ℕ) (X Y : Op (Mode N))
    (x : Paths L N) : ℝ :=
  (oprod (fun j => stepAt sys ph K U (extendX x (l + j))) (L - l) * X * oprod (fun j => stepAt sys ph K U (extendX x j)) l * Y).trace

/-- path integral of the Hubbard-Holstein model: the trace over the electrons times a function `F` of the phonon
coordinates, integrated over the phonon coordinates with the weight `exp(-dt energy)` -/
noncomputable def holstein (sys : Sys σ N M) (ph : Phonon) (rest : Measure ℝ) (K : Mat N) (U : ℕ → ℝ) (L l : ℕ)
    (F : Paths L N → ℝ) (X Y : Op (Mode N)) : ℝ :=
  ∫ x, electronTrace sys ph K U L l X Y x * F x * Real.exp (-ph.dt * sys.energy ph L (extendX x)) ∂pathBase sys ph rest L

/-- the partition function -/
noncomputable def holsteinZ (sys : Sys σ N M) (ph : Phonon) (rest : Measure ℝ) (K : Mat N) (U : ℕ → ℝ) (L : ℕ) : ℝ :=
  holstein sys ph rest K U L 0 (fun _ => 1) 1 1

/-- expectation value of `X` at slice `l`, `Y` at slice 0 and the function `F` of the phonon coordinates -/
noncomputable def holsteinPair (sys : Sys σ N M) (ph : Phonon) (rest : Measure ℝ) (K : Mat N) (U : ℕ → ℝ) (L l : ℕ)
    (F : Paths L N → ℝ) (X Y : Op (Mode N)) : ℝ :=
  holstein sys ph rest K U L l F X Y / holsteinZ sys ph rest K U L

/-! ## Integrals with respect to the distribution of the configurations -/

/-- sign of the weight of a configuration -/
noncomputable def sgnPh (sys : Sys σ N M) (ph : Phonon) (L : ℕ) (x : Conf L N) : ℝ :=
  (SignType.sign (signed sys L (Fock.extend x.1) (sys.expOf ph (extendX x.2))) : ℝ)

variable {sys : Sys σ N M} {ph : Phonon} {rest : Measure ℝ} {K : Mat N} {U : ℕ → ℝ} {Norb : ℕ}

theorem confWeight_sgn (x : Conf L N) : confWeight sys ph L x * sgnPh sys ph L x
    = signed sys L (Fock.extend x.1) (sys.expOf ph (extendX x.2)) * Real.exp (-ph.dt * sys.energy ph L (extendX x.2)) := by
  unfold confWeight Sys.fullWeight sgnPh
  rw [weight_eq, mul_right_comm, abs_mul_sign]

/-- everything needed for the integrals to exist -/
structure Sound (sys : Sys σ N M) (ph : Phonon) (rest : Measure ℝ) (L : ℕ) : Prop where
  dt : 0 < ph.dt
  omega : ∀ i, ph.g (sys.orb i) ≠ 0 → ph.omega (sys.orb i) ≠ 0
  rest : Light rest
  weight : ∀ s : Field L N, ∃ X, confWeight sys ph L (s, X) ≠ 0

variable [SigmaFinite rest]

theorem conf_integral (h : Sound sys ph rest L) {O : Conf L N → ℝ} {f : Field L N → Paths L N → ℝ} (hf : ∀ s, Tame (f s))
    (hO : ∀ s x, signed sys L (Fock.extend s) (sys.expOf ph (extendX x)) ≠ 0 →
      signed sys L (Fock.extend s) (sys.expOf ph (extendX x)) * O (s, x) = f s x) :
    Integrable (fun x => sgnPh sys ph L x * O x) (confDist sys ph rest L) ∧
    ∫ x, sgnPh sys ph L x * O x ∂confDist sys ph rest L
      = ∫ x, (∑ s, f s x) * Real.exp (-ph.dt * sys.energy ph L (extendX x)) ∂pathBase sys ph rest L := by
  set g : Conf L N → ℝ := fun x => f x.1 x.2 * Real.exp (-ph.dt * sys.energy ph L (extendX x.2)) with hg
  have hgs : ∀ s, Integrable (fun x => g (s, x)) (pathBase sys ph rest L) := fun s =>
    (hf s).integrable h.rest h.dt h.omega
  have hmg : Measurable g := measurable_from_prod_countable_right fun s =>
    ((hf s).cont.mul (Real.continuous_exp.comp (continuous_const.mul energy_continuous))).measurable
  have hae : (fun x : Conf L N => (ENNReal.ofReal (confWeight sys ph L x)).toReal • (sgnPh sys ph L x * O x))
      =ᵐ[confBase sys ph rest L] g := by
    filter_upwards [confWeight_base_ae (sys := sys) (ph := ph) (rest := rest) h.weight] with x hx
    rw [ENNReal.toReal_ofReal (confWeight_nonneg x), smul_eq_mul, ← mul_assoc, confWeight_sgn, mul_right_comm]
    rw [hO x.1 x.2 fun h0 => hx (by unfold confWeight Sys.fullWeight; rw [weight_eq, h0, abs_zero, zero_mul])]
  have hfin : ∀ᵐ x ∂confBase sys ph rest L, ENNReal.ofReal (confWeight sys ph L x) < ⊤ :=
    Filter.Eventually.of_forall fun _ => ENNReal.ofReal_lt_top
  have hint : Integrable g (confBase sys ph rest L) := by
    unfold confBase
    rw [integrable_prod_iff hmg.aestronglyMeasurable]
    exact ⟨Filter.Eventually.of_forall hgs, Integrable.of_finite⟩
  unfold confDist Metropolis.target
  rw [integrable_withDensity_iff_integrable_smul' confWeight_measurable.ennreal_ofReal hfin,
    integral_withDensity_eq_integral_toReal_smul confWeight_measurable.ennreal_ofReal hfin, integrable_congr hae,
    integral_congr_ae hae]
  refine ⟨hint, ?_⟩
  unfold confBase at hint ⊢
  rw [integral_prod _ hint, integral_fintype Integrable.of_finite]
  simp only [Finset.sum_mul]
  rw [integral_finsetSum _ fun s _ => hgs s]
  refine Finset.sum_congr rfl fun s _ => ?_
  simp [Measure.real, hg]

omit [SigmaFinite rest] in
/-- the sum over the fields -/
theorem electronTrace_sum (hD : Describes sys Norb K U ph.dt) {l : ℕ} (hl : l ≤ L) (X Y : Op (Mode N)) (x : Paths L N) :
    electronTrace sys ph K U L l X Y x
      = stepConst (fun i => U (sys.orb i)) ph.dt ^ L * ∑ s : Field L N, fieldTrace sys ph L l X Y s x := by
  have h := trace_sum_fields hD (fun l i => ph.g (sys.orb i) * extendX x l i) hl X Y
  have e : (fun (l : ℕ) (i : Fin N) => Real.exp (-ph.dt * (ph.g (sys.orb i) * extendX x l i))) = sys.expOf ph (extendX x) := by
    funext l i
    unfold Sys.expOf
    rw [mul_assoc]
  simp only [e] at h
  exact h

theorem electronTrace_tame (hD : Describes sys Norb K U ph.dt) {l : ℕ} (hl : l ≤ L) (X Y : Op (Mode N)) :
    Tame (electronTrace sys ph K U L l X Y) := by
  rw [show electronTrace sys ph K U L l X Y = _ from funext (electronTrace_sum hD hl X Y)]
  exact (Tame.sum _ fun s _ => fieldTrace_tame l X Y s).smul _

/-- the integral of `O` times the sign is the number `v`, up to the constant which relates the sum over the fields to
the time steps -/
def HasVal (sys : Sys σ N M) (ph : Phonon) (rest : Measure ℝ) (U : ℕ → ℝ) (L : ℕ) (O : Conf L N → ℝ) (v : ℝ) : Prop :=
  Integrable (fun x => sgnPh sys ph L x * O x) (confDist sys ph rest L) ∧
    stepConst (fun i => U (sys.orb i)) ph.dt ^ L * ∫ x, sgnPh sys ph L x * O x ∂confDist sys ph rest L = v

theorem HasVal.of_trace (h : Sound sys ph rest L) (hD : Describes sys Norb K U ph.dt) {l : ℕ} (hl : l ≤ L)
    {X Y : Op (Mode N)} {F : Paths L N → ℝ} (hF : Tame F) {O : Conf L N → ℝ}
    (hO : ∀ s x, signed sys L (Fock.extend s) (sys.expOf ph (extendX x)) ≠ 0 →
      signed sys L (Fock.extend s) (sys.expOf ph (extendX x)) * O (s, x) = fieldTrace sys ph L l X Y s x * F x) :
    HasVal sys ph rest U L O (holstein sys ph rest K U L l F X Y) := by
  obtain ⟨h1, h2⟩ := conf_integral h (fun s => (fieldTrace_tame l X Y s).mul hF) hO
  refine ⟨h1, ?_⟩
  rw [h2, ← integral_const_mul]
  unfold holstein
  refine integral_congr_ae (Filter.Eventually.of_forall fun x => ?_)
  simp only
  rw [electronTrace_sum hD hl, ← Finset.sum_mul]
  ring

omit [SigmaFinite rest] in
theorem HasVal.add {O O' : Conf L N → ℝ} {v v' : ℝ} (h : HasVal sys ph rest U L O v) (h' : HasVal sys ph rest U L O' v') :
    HasVal sys ph rest U L (fun x => O x + O' x) (v + v') := by
  unfold HasVal
  simp only [mul_add]
  refine ⟨h.1.add h'.1, ?_⟩
  rw [integral_add h.1 h'.1, mul_add, h.2, h'.2]

omit [SigmaFinite rest] in
theorem HasVal.smul {O : Conf L N → ℝ} {v : ℝ} (h : HasVal sys ph rest U L O v) (c : ℝ) :
    HasVal sys ph rest U L (fun x => c * O x) (c * v) := by
  unfold HasVal
  simp only [mul_left_comm _ c]
  refine ⟨h.1.const_mul c, ?_⟩
  rw [integral_const_mul, mul_left_comm, h.2]

omit [SigmaFinite rest] in
theorem HasVal.zero : HasVal sys ph rest U L (fun _ => 0) 0 := by
  unfold HasVal
  simp

omit [SigmaFinite rest] in
theorem HasVal.neg {O : Conf L N → ℝ} {v : ℝ} (h : HasVal sys ph rest U L O v) :
    HasVal sys ph rest U L (fun x => -O x) (-v) := by
  have := h.smul (-1)
  simpa only [neg_one_mul] using this

omit [SigmaFinite rest] in
theorem HasVal.sum {ι : Type} (t : Finset ι) {O : ι → Conf L N → ℝ} {v : ι → ℝ}
    (h : ∀ i ∈ t, HasVal sys ph rest U L (O i) (v i)) : HasVal sys ph rest U L (fun x => ∑ i ∈ t, O i x) (∑ i ∈ t, v i) := by
  classical
  induction t using Finset.induction_on with
  | empty => simpa using HasVal.zero
  | insert i t hi ih =>
    simp only [Finset.sum_insert hi]
    exact (h i (Finset.mem_insert_self _ _)).add (ih fun j hj => h j (Finset.mem_insert_of_mem hj))

omit [SigmaFinite rest] in
theorem HasVal.cellAvg {n : ℕ} {O : ℕ → Conf L N → ℝ} {v : ℕ → ℝ} (h : ∀ c, HasVal sys ph rest U L (O c) (v c)) :
    HasVal sys ph rest U L (fun x => Measurement.cellAvg n fun c => O c x) (Measurement.cellAvg n v) := by
  unfold Measurement.cellAvg
  simp only [div_eq_inv_mul]
  exact (HasVal.sum _ fun c _ => h c).smul _

/-- the path integral is linear in the operator -/
theorem holstein_add (h : Sound sys ph rest L) (hD : Describes sys Norb K U ph.dt) {l : ℕ} (hl : l ≤ L)
    {F : Paths L N → ℝ} (hF : Tame F) (X X' Y : Op (Mode N)) :
    holstein sys ph rest K U L l F (X + X') Y
      = holstein sys ph rest K U L l F X Y + holstein sys ph rest K U L l F X' Y := by
  unfold holstein
  rw [← integral_add (((electronTrace_tame hD hl X Y).mul hF).integrable h.rest h.dt h.omega)
    (((electronTrace_tame hD hl X' Y).mul hF).integrable h.rest h.dt h.omega)]
  congr 1
  funext x
  unfold electronTrace
  rw [mul_add, add_mul, add_mul, Matrix.trace_add]
  ring

/-! ## Rotation of the time slices -/

/-- path which starts at slice `k` -/
def rot [NeZero L] (k : ℕ) (x : Paths L N) : Paths L N := fun j => x (Fin.ofNat L k + j)

omit [SigmaFinite rest] in
theorem extendX_rot [NeZero L] (k : ℕ) (x : Paths L N) {j : ℕ} (hj : j < L) :
    extendX (rot k x) j = extendX x ((k + j) % L) := by
  funext i
  have h : (k + j) % L < L := Nat.mod_lt _ (by omega)
  unfold extendX rot
  rw [dif_pos hj, dif_pos h]
  congr 1
  refine Fin.ext ?_
  simp [Fin.val_add]

theorem rot_integral [NeZero L] (k : ℕ) (f : Paths L N → ℝ) :
    ∫ x, f (rot k x) ∂pathBase sys ph rest L = ∫ x, f x ∂pathBase sys ph rest L := by
  set e : Fin L ≃ Fin L := (Equiv.addLeft (Fin.ofNat L k)).symm with he
  have h := measurePreserving_piCongrLeft (fun _ : Fin L => Measure.pi fun i : Fin N => siteBase sys ph rest i) e
  have e2 : ⇑(MeasurableEquiv.piCongrLeft (fun _ : Fin L => Fin N → ℝ) e) = rot (N := N) k := by
    funext x j
    have hj : j = e (Fin.ofNat L k + j) := by
      rw [he, Equiv.eq_symm_apply]
      rfl
    rw [MeasurableEquiv.coe_piCongrLeft]
    conv_lhs => rw [hj]
    rw [Equiv.piCongrLeft_apply_apply]
    rfl
  have h2 := h.integral_comp' f
  rw [e2] at h2
  exact h2

omit [SigmaFinite rest] in
theorem sum_slices_rot [NeZero L] (k : ℕ) (φ : (Fin N → ℝ) → (Fin N → ℝ) → ℝ) (x : Paths L N) :
    ∑ l ∈ Finset.range L, φ (extendX (rot k x) l) (extendX (rot k x) ((l + 1) % L))
      = ∑ l ∈ Finset.range L, φ (extendX x l) (extendX x ((l + 1) % L)) := by
  have hL : 0 < L := Nat.pos_of_ne_zero (NeZero.ne L)
  have key : ∀ y : Paths L N, ∑ l ∈ Finset.range L, φ (extendX y l) (extendX y ((l + 1) % L)) = ∑ j : Fin L, φ (y j) (y (j + 1)) := by
    intro y
    rw [← Fin.sum_univ_eq_sum_range (fun l => φ (extendX y l) (extendX y ((l + 1) % L))) L]
    refine Finset.sum_congr rfl fun j _ => ?_
    have e1 : extendX y j = y j := by funext i; simp [extendX]
    have e2 : extendX y ((j + 1) % L) = y (j + 1) := by
      funext i
      have h : ((j : ℕ) + 1) % L < L := Nat.mod_lt _ hL
      unfold extendX
      rw [dif_pos h]
      congr 1
      refine Fin.ext ?_
      simp [Fin.val_add]
    rw [e1, e2]
  rw [key, key, ← Equiv.sum_comp (Equiv.addLeft (Fin.ofNat L k)) fun j => φ (x j) (x (j + 1))]
  refine Finset.sum_congr rfl fun j _ => ?_
  simp [rot, add_assoc]

omit [SigmaFinite rest] in
theorem energy_rot [NeZero L] (k : ℕ) (x : Paths L N) :
    sys.energy ph L (extendX (rot k x)) = sys.energy ph L (extendX x) := by
  unfold Sys.energy pathEnergy
  refine Finset.sum_congr rfl fun i _ => ?_
  exact sum_slices_rot k (fun a b => ph.omega (sys.orb i) ^ 2 * a i ^ 2 / 2 + ((b i - a i) / ph.dt) ^ 2 / 2) x

theorem oprod_add {R : Type} [Monoid R] (t : ℕ → R) (a b : ℕ) :
    oprod t (a + b) = oprod (fun j => t (a + j)) b * oprod t a := by
  induction b with
  | zero => rw [oprod, one_mul, Nat.add_zero]
  | succ b ih => rw [← Nat.add_assoc, oprod, ih, oprod, mul_assoc]

omit [SigmaFinite rest] in
theorem electronTrace_rot [NeZero L] {l : ℕ} (hl : l ≤ L) (X : Op (Mode N)) (x : Paths L N) :
    electronTrace sys ph K U L l X 1 x = electronTrace sys ph K U L 0 X 1 (rot l x) := by
  unfold electronTrace
  rw [Nat.sub_zero, oprod, mul_one, mul_one, mul_one, Matrix.trace_mul_comm, ← mul_assoc]
  congr 2
  have e : oprod (fun j => stepAt sys ph K U (extendX (rot l x) (0 + j))) L
      = oprod (fun j => stepAt sys ph K U (extendX x ((l + j) % L))) (L - l + l) := by
    rw [Nat.sub_add_cancel hl]
    refine oprod_congr fun j hj => ?_
    rw [Nat.zero_add, extendX_rot l x hj]
  rw [e, oprod_add]
  congr 1
  · refine oprod_congr fun j hj => ?_
    rw [show l + (L - l + j) = j + L by omega, Nat.add_mod_right, Nat.mod_eq_of_lt (by omega)]
  · refine oprod_congr fun j hj => ?_
    rw [Nat.mod_eq_of_lt (by omega)]

/-- the path integral does not depend on the slice of the operator -/
theorem holstein_rot [NeZero L] {l : ℕ} (hl : l ≤ L) (F : Paths L N → ℝ) (X : Op (Mode N)) :
    holstein sys ph rest K U L l (fun x => F (rot l x)) X 1 = holstein sys ph rest K U L 0 F X 1 := by
  unfold holstein
  refine Eq.trans ?_ (rot_integral l fun x => electronTrace sys ph K U L 0 X 1 x * F x *
    Real.exp (-ph.dt * sys.energy ph L (extendX x)))
  refine integral_congr_ae (Filter.Eventually.of_forall fun x => ?_)
  simp only
  rw [electronTrace_rot hl, energy_rot]

end Verif.MonteCarlo
