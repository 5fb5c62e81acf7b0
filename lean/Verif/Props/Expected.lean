import Verif.Props.HubbardProgram
import Verif.Props.MeasurementUneq
import Verif.Props.IdealSource

/-! # Property C74: the expected results of a run are thermal expectation values -/

set_option autoImplicit false

namespace Verif.MonteCarlo

open Matrix MeasureTheory Verif.Lapack Verif.TimeFlow Verif.Fock Verif.Greens Verif.GreensUneq Verif.Measurement
open Verif.Main Verif.Progress Verif.Lattice

variable {σ : Type} {N : ℕ}

/-! ## Specification -/

/-- operators of the equal time measurements: densities and double occupancy of a site -/
noncomputable def densOp (a : Fin N) : EqF → Op (Mode N)
  | .densityU => opOf (nOp true a)
  | .densityD => opOf (nOp false a)
  | .doubleocc => opOf (nOp true a) * opOf (nOp false a)
  | _ => 0

/-- correlations of two sites -/
noncomputable def corrOp (a b : Fin N) : EqF → Op (Mode N)
  | .uu => opOf (nOp true a) * opOf (nOp true b)
  | .dd => opOf (nOp false a) * opOf (nOp false b)
  | .ud => opOf (nOp true a) * opOf (nOp false b) + opOf (nOp false a) * opOf (nOp true b)
  | .zz => opOf (zOp a) * opOf (zOp b)
  | .xx => opOf (xOp a) * opOf (xOp b)
  | _ => 0

/-- pairing correlations of two cells -/
noncomputable def pairsOp [NeZero N] (Nx Ny : ℕ) (t : ℤ) (o c c' : ℕ) : EqF → Op (Mode N)
  | .scSw => pairOf (onsitePair Nx Ny o c) * (pairOf (onsitePair Nx Ny o c'))ᵀ
  | .scDw => pairOf (pairOp Nx Ny t dWave o c) * (pairOf (pairOp Nx Ny t dWave o c'))ᵀ
  | .scSx => pairOf (pairOp Nx Ny t extS o c) * (pairOf (pairOp Nx Ny t extS o c'))ᵀ
  | _ => 0

/-- the entries of the arrays `e` of the equal time measurements are the averages over the cells of the expectation values
`T` of the operators they stand for (all except `ff`, which is not the expectation value of an operator) -/
structure EqThermal [NeZero N] (Nx Ny Norb : ℕ) (s t : ℤ) (T : Op (Mode N) → ℝ) (e : EqF → ℤ → ℝ) : Prop where
  dens : ∀ f ∈ [EqF.densityU, .densityD, .doubleocc], ∀ o : ℕ, o < Norb →
    e f o = cellAvg (Nx * Ny) fun c => T (densOp (siteN N (Nx * Ny) o c) f)
  corr : ∀ f ∈ [EqF.uu, .dd, .zz, .xx, .ud], ∀ o p : ℕ, o < Norb → p < Norb → ∀ dx dy : ℤ,
    e f (cellOf Nx Ny s dx dy + (Nx * Ny : ℕ) * (o + Norb * p)) = cellAvg (Nx * Ny) fun c =>
      T (corrOp (siteN N (Nx * Ny) o c) (siteN N (Nx * Ny) p (moveCell Nx Ny s c dx dy)) f)
  pair : ∀ f ∈ [EqF.scSw, .scDw, .scSx], ∀ o : ℕ, o < Norb → ∀ dx dy : ℤ,
    e f (cellOf Nx Ny s dx dy + (Nx * Ny : ℕ) * o) = cellAvg (Nx * Ny) fun c =>
      T (pairsOp Nx Ny t o c (moveCell Nx Ny s c dx dy) f)
  grfunU : ∀ a b : Fin N, e .grfunU (a.val + N * b.val) = T (ann (a, true) * cre (b, true))
  grfunD : ∀ a b : Fin N, e .grfunD (a.val + N * b.val) = T (ann (a, false) * cre (b, false))

/-- expectation value in the state `H ^ L / Tr H ^ L` -/
noncomputable def thermalMean (H : Op (Mode N)) (L : ℕ) (X : Op (Mode N)) : ℝ := (H ^ L * X).trace / (H ^ L).trace

/-- number of equal time measurements from iteration `it` on -/
def eqCount (cfg : Cfg) (stop : ℤ → Bool) (it : ℤ) : ℕ :=
  ∑ j ∈ Finset.range (iterations stop (cfg.nequil + cfg.nsampl - it).toNat it),
    ((Finset.range cfg.L).filter fun l => effNeqlt cfg (it + j) > 0 ∧ (l + 1) % effNeqlt cfg (it + j) = 0).card

/-! ## Proofs -/

section sums

variable {M : Type} {sys : Sys σ N M} {L : ℕ} {E : ℕ → Fin N → ℝ}

/-- the sum of all weights with their signs -/
noncomputable def signedSum (sys : Sys σ N M) (L : ℕ) : ℝ := ∑ x : Field L N, signed sys L (Fock.extend x) fun _ _ => 1

noncomputable def sgnOf (sys : Sys σ N M) (L : ℕ) (x : Field L N) : ℝ :=
  (SignType.sign (signed sys L (Fock.extend x) fun _ _ => 1) : ℝ)

theorem wsum_sgn (O : Field L N → ℝ) :
    wsum sys L (fun x => sgnOf sys L x * O x) = ∑ x : Field L N, signed sys L (Fock.extend x) (fun _ _ => 1) * O x := by
  unfold wsum sgnOf
  refine Finset.sum_congr rfl fun x _ => ?_
  rw [weight_eq, ← mul_assoc, abs_mul_sign]

theorem wsum_average (hne : ∀ x : Field L N, signed sys L (Fock.extend x) (fun _ _ => 1) ≠ 0)
    (hS : signedSum sys L ≠ 0) (O : (ℕ → Fin N → Fin 2) → ℝ) :
    wsum sys L (fun x => sgnOf sys L x * O (Fock.extend x)) = signedAverage sys L (fun _ _ => 1) O * signedSum sys L := by
  rw [wsum_sgn, signedAverage_eq sys L _ O hne]
  exact (div_mul_cancel₀ _ hS).symm

end sums

theorem gain_eq {M : Type} {sys : Sys σ N M} {cfg : Cfg} {q : ℕ → Field cfg.L N → ℝ} {g : ℝ}
    (hq : ∀ l < cfg.L, wsum sys cfg.L (q l) = g) (stop : ℤ → Bool) (it : ℤ) :
    ∑ j ∈ Finset.range (iterations stop (cfg.nequil + cfg.nsampl - it).toNat it), iterGain sys cfg q (fun _ => 0) (it + j)
      = eqCount cfg stop it * g := by
  unfold eqCount
  rw [Nat.cast_sum, Finset.sum_mul]
  refine Finset.sum_congr rfl fun j _ => ?_
  unfold iterGain
  have h0 : wsum sys cfg.L (fun _ => 0) = 0 := by unfold wsum; simp
  rw [h0, ite_self, add_zero, Finset.card_filter, Nat.cast_sum, Finset.sum_mul]
  refine Finset.sum_congr rfl fun l hl => ?_
  unfold sliceGain
  split <;> rename_i hc
  · rw [hq l (Finset.mem_range.1 hl), Nat.cast_one, one_mul]
  · rw [Nat.cast_zero, zero_mul]

/-! ### Equal times -/

section

variable {M : Type} {sys : Sys σ N M} {L : ℕ}

/-- the Green's functions of a field -/
noncomputable def greenAt (sys : Sys σ N M) (L l : ℕ) (expV : Fin 2 → ℕ → ℝ) (s : ℕ → Fin N → Fin 2) : Mat N :=
  (1 + cyclicProd (sys.fieldB expV s fun _ _ => 1) L l)⁻¹

theorem cyclic_restrict (expV : Fin 2 → ℕ → ℝ) (s : ℕ → Fin N → Fin 2) (l : ℕ) :
    cyclicProd (sys.fieldB expV (Fock.extend (fieldOf L s)) fun _ _ => 1) L l
      = cyclicProd (sys.fieldB expV s fun _ _ => 1) L l := by
  refine prodSeq_congr fun k hk => ?_
  have : Fock.extend (fieldOf L s) ((l + k) % L) = s ((l + k) % L) :=
    extend_fieldOf s _ (Nat.mod_lt _ (by omega))
  unfold Sys.fieldB
  rw [this]

theorem exact_sign {s : ℕ → Fin N → Fin 2} {l : ℕ} (hl : l ≤ L) {Gu Gd : GreensFn N}
    (h : Exact sys L (fun _ _ => 1) s l Gu Gd) : ((Gu.sgndet * Gd.sgndet : ℤ) : ℝ) = sgnOf sys L (fieldOf L s) := by
  have key : ∀ (expV : Fin 2 → ℕ → ℝ) (G : GreensFn N), GoodG (sys.fieldB expV s fun _ _ => 1) L l G →
      (G.sgndet : ℝ) = SignType.sign (1 + sys.flow expV L (Fock.extend (fieldOf L s)) fun _ _ => 1).det := by
    intro expV G hG
    rw [(det_record_unique hG.det hG.sgn).2, det_nonsing_inv, Ring.inverse_eq_inv', det_cyclic _ hl]
    unfold Sys.flow
    rw [cyclic_restrict]
    generalize (1 + cyclicProd (sys.fieldB expV s fun _ _ => 1) L 0).det = d
    rcases lt_trichotomy d 0 with h | h | h
    · rw [sign_neg h, sign_neg (inv_lt_zero.2 h)]
    · rw [h, _root_.inv_zero]
    · rw [sign_pos h, sign_pos (inv_pos.2 h)]
  unfold sgnOf signed
  rw [sign_mul, SignType.coe_mul, Int.cast_mul, key _ _ h.up, key _ _ h.down]

theorem exact_mats {s : ℕ → Fin N → Fin 2} {l : ℕ} {Gu Gd : GreensFn N}
    (h : Exact sys L (fun _ _ => 1) s l Gu Gd) : Gu.mat = greenAt sys L l sys.hs.expVu (Fock.extend (fieldOf L s)) ∧
      Gd.mat = greenAt sys L l sys.hs.expVd (Fock.extend (fieldOf L s)) := by
  unfold greenAt
  rw [cyclic_restrict, cyclic_restrict]
  exact ⟨h.up.mat, h.down.mat⟩

end

section run

variable [MeasurableSpace σ] {P : Measure σ} [NeZero N] {sys : Sys σ N MeasData} {ph : Phonon} {cfg : Cfg}
  {Nx Ny Norb : ℕ} {shift : ℤ} {junk : ℤ → ℤ} {dt : ℝ} {omega : ℕ → ℝ}
  {alg : BlockCyclic.QRs N} {tau : BlockCyclic.Buf} {old : GreensUneq.Arrays}

omit [MeasurableSpace σ] in
/-- one entry of the arrays of the equal time measurements -/
theorem entry_adds (hx : 0 < Nx) (hy : 0 < Ny) (hN : N = Nx * Ny * Norb) (hs : 0 ≤ shift)
    (hm : sys.meas = realMeas Norb (Nx * Ny) cfg.L (Maps.construct Nx Ny shift junk) dt omega alg tau old)
    (f : EqF) (z : ℤ) (V : Mat N → Mat N → ℝ) (hV : ∀ U D e, Estimates Nx Ny Norb shift 0 U D e → e f z = V U D) :
    Adds sys cfg.L cfg.prodBlen (fun m => m.eq.arr f z) (fun l x => sgnOf sys cfg.L x *
      V (greenAt sys cfg.L (l + 1) sys.hs.expVu (Fock.extend x)) (greenAt sys cfg.L (l + 1) sys.hs.expVd (Fock.extend x)))
      (fun _ => 0) := by
  constructor
  · intro s l Gu Gd m m' hl he e
    rw [hm] at e
    simp only [realMeas, Option.map_eq_some_iff] at e
    obtain ⟨d, e, rfl⟩ := e
    obtain ⟨est, h1, h2⟩ := accumulateEq_estimates hx hy hN shift hs junk Gu Gd he.up.sgn he.down.sgn
    rw [h2] at e
    obtain rfl := Option.some.inj e
    obtain ⟨e1, e2⟩ := exact_mats he
    simp only
    rw [hV _ _ _ h1, exact_sign (by omega) he, e1, e2]
  · intro st m' _ e
    rw [hm] at e
    simp only [realMeas, Option.bind_eq_bind] at e
    obtain ⟨a, -, e⟩ := Option.bind_eq_some_iff.1 e
    obtain ⟨b, -, e⟩ := Option.bind_eq_some_iff.1 e
    obtain ⟨c, -, e⟩ := Option.bind_eq_some_iff.1 e
    obtain rfl := Option.some.inj e
    simp

omit [MeasurableSpace σ] in
/-- the sum of the signs -/
theorem sign_adds (hx : 0 < Nx) (hy : 0 < Ny) (hN : N = Nx * Ny * Norb) (hs : 0 ≤ shift)
    (hm : sys.meas = realMeas Norb (Nx * Ny) cfg.L (Maps.construct Nx Ny shift junk) dt omega alg tau old) :
    Adds sys cfg.L cfg.prodBlen (fun m => m.eq.sign) (fun _ x => sgnOf sys cfg.L x * 1) (fun _ => 0) := by
  constructor
  · intro s l Gu Gd m m' hl he e
    rw [hm] at e
    simp only [realMeas, Option.map_eq_some_iff] at e
    obtain ⟨d, e, rfl⟩ := e
    obtain ⟨est, h1, h2⟩ := accumulateEq_estimates hx hy hN shift hs junk Gu Gd he.up.sgn he.down.sgn
    rw [h2] at e
    obtain rfl := Option.some.inj e
    simp only
    rw [exact_sign (by omega) he, mul_one]
  · intro st m' _ e
    rw [hm] at e
    simp only [realMeas, Option.bind_eq_bind] at e
    obtain ⟨a, -, e⟩ := Option.bind_eq_some_iff.1 e
    obtain ⟨b, -, e⟩ := Option.bind_eq_some_iff.1 e
    obtain ⟨c, -, e⟩ := Option.bind_eq_some_iff.1 e
    obtain rfl := Option.some.inj e
    simp

end run

/-! ### Thermal averages -/

section thermal

variable {M : Type} {sys : Sys σ N M} {L l : ℕ} {Norb : ℕ} {K : Mat N} {U : ℕ → ℝ} {dt : ℝ}

theorem average_cellAvg (hne : ∀ x : Field L N, signed sys L (Fock.extend x) (fun _ _ => 1) ≠ 0) (n : ℕ)
    (O : ℕ → (ℕ → Fin N → Fin 2) → ℝ) : signedAverage sys L (fun _ _ => 1) (fun s => cellAvg n fun c => O c s)
      = cellAvg n fun c => signedAverage sys L (fun _ _ => 1) (O c) := by
  simp only [signedAverage_eq sys L _ _ hne]
  unfold cellAvg
  rw [← Finset.sum_div, div_right_comm]
  congr 1
  rw [Finset.sum_comm, Finset.sum_div]
  refine Finset.sum_congr rfl fun x _ => ?_
  rw [mul_div_assoc', Finset.mul_sum]

theorem average_add (hne : ∀ x : Field L N, signed sys L (Fock.extend x) (fun _ _ => 1) ≠ 0)
    (O O' : (ℕ → Fin N → Fin 2) → ℝ) : signedAverage sys L (fun _ _ => 1) (fun s => O s + O' s)
      = signedAverage sys L (fun _ _ => 1) O + signedAverage sys L (fun _ _ => 1) O' := by
  simp only [signedAverage_eq sys L _ _ hne]
  rw [← add_div, ← Finset.sum_add_distrib]
  simp only [mul_add]

theorem average_const (hne : ∀ x : Field L N, signed sys L (Fock.extend x) (fun _ _ => 1) ≠ 0)
    (hS : signedSum sys L ≠ 0) (c : ℝ) : signedAverage sys L (fun _ _ => 1) (fun _ => c) = c := by
  rw [signedAverage_eq sys L _ _ hne, ← Finset.sum_mul, mul_comm]
  exact mul_div_cancel_right₀ _ hS

theorem average_smul (hne : ∀ x : Field L N, signed sys L (Fock.extend x) (fun _ _ => 1) ≠ 0) (c : ℝ)
    (O : (ℕ → Fin N → Fin 2) → ℝ) : signedAverage sys L (fun _ _ => 1) (fun s => c * O s)
      = c * signedAverage sys L (fun _ _ => 1) O := by
  simp only [signedAverage_eq sys L _ _ hne]
  rw [mul_div_assoc', Finset.mul_sum]
  congr 1
  exact Finset.sum_congr rfl fun x _ => by ring

theorem thermalMean_add (H X Y : Op (Mode N)) : thermalMean H L (X + Y) = thermalMean H L X + thermalMean H L Y := by
  unfold thermalMean
  rw [mul_add, trace_add, add_div]

/-- time step of the Hubbard model for the system -/
noncomputable def stepOf (sys : Sys σ N M) (K : Mat N) (U : ℕ → ℝ) (dt : ℝ) : Op (Mode N) :=
  stepOp K (fun i => U (sys.orb i)) dt fun _ => 0

theorem means (h : Describes sys Norb K U dt) (hl : l ≤ L)
    (hne : ∀ x : Field L N, signed sys L (Fock.extend x) (fun _ _ => 1) ≠ 0) :
    let T := thermalMean (stepOf sys K U dt) L
    let P := fun s : ℕ → Fin N → Fin 2 => equalTime (greenAt sys L l sys.hs.expVu s) (greenAt sys L l sys.hs.expVd s)
    (∀ X Y : OneBody N, T (opOf X * opOf Y) = signedAverage sys L (fun _ _ => 1) fun s => (P s).corr X Y) ∧
    (∀ X : OneBody N, T (opOf X) = signedAverage sys L (fun _ _ => 1) fun s => (P s).mean X) ∧
    (∀ X Y : PairOp N,
      T (pairOf X * (pairOf Y)ᵀ) = signedAverage sys L (fun _ _ => 1) fun s => (P s).pairCorr X Y) := by
  have h1 := thermal_averages_eq h (fun _ _ => 0) hl (by
    intro s
    simp only [mul_zero, Real.exp_zero]
    exact hne s)
  simp only [mul_zero, Real.exp_zero] at h1
  have e2 : ∀ X : Op (Mode N), thermal (fun _ => stepOf sys K U dt) L l X 1 = thermalMean (stepOf sys K U dt) L X := by
    intro X
    unfold thermal thermalMean
    rw [oprod_const, oprod_const, oprod_const, mul_one, Matrix.trace_mul_comm, ← mul_assoc, ← pow_add,
      Nat.add_sub_cancel' hl]
  have e : (fun _ : ℕ => stepOp K (fun i => U (sys.orb i)) dt fun _ => 0) = fun _ => stepOf sys K U dt := rfl
  rw [e] at h1
  simp only [e2] at h1
  exact h1

/-- the estimates of densities -/
theorem dens_mean (h : Describes sys Norb K U dt) (hl : l ≤ L)
    (hne : ∀ x : Field L N, signed sys L (Fock.extend x) (fun _ _ => 1) ≠ 0) (a : Fin N) (f : EqF)
    (hf : f ∈ [EqF.densityU, .densityD, .doubleocc]) :
    signedAverage sys L (fun _ _ => 1) (fun s => densSpec (equalTime (greenAt sys L l sys.hs.expVu s)
      (greenAt sys L l sys.hs.expVd s)) a f) = thermalMean (stepOf sys K U dt) L (densOp a f) := by
  obtain ⟨h1, h2, -⟩ := means h hl hne
  fin_cases hf
  · exact (h2 _).symm
  · exact (h2 _).symm
  · exact (h1 _ _).symm

theorem corr_mean (h : Describes sys Norb K U dt) (hl : l ≤ L)
    (hne : ∀ x : Field L N, signed sys L (Fock.extend x) (fun _ _ => 1) ≠ 0) (a b : Fin N) (f : EqF)
    (hf : f ∈ [EqF.uu, .dd, .zz, .xx, .ud]) :
    signedAverage sys L (fun _ _ => 1) (fun s => corrSpec (equalTime (greenAt sys L l sys.hs.expVu s)
      (greenAt sys L l sys.hs.expVd s)) a b f) = thermalMean (stepOf sys K U dt) L (corrOp a b f) := by
  obtain ⟨h1, -, -⟩ := means h hl hne
  fin_cases hf
  · exact (h1 _ _).symm
  · exact (h1 _ _).symm
  · exact (h1 _ _).symm
  · exact (h1 _ _).symm
  · unfold corrOp corrSpec
    rw [thermalMean_add, h1, h1]
    exact average_add hne _ _

theorem pair_mean [NeZero N] (h : Describes sys Norb K U dt) (hl : l ≤ L)
    (hne : ∀ x : Field L N, signed sys L (Fock.extend x) (fun _ _ => 1) ≠ 0) (Nx Ny : ℕ) (t : ℤ) (o c c' : ℕ) (f : EqF)
    (hf : f ∈ [EqF.scSw, .scDw, .scSx]) :
    signedAverage sys L (fun _ _ => 1) (fun s => pairSpec (equalTime (greenAt sys L l sys.hs.expVu s)
      (greenAt sys L l sys.hs.expVd s)) Nx Ny t o c c' f)
      = thermalMean (stepOf sys K U dt) L (pairsOp Nx Ny t o c c' f) := by
  obtain ⟨-, -, h3⟩ := means h hl hne
  fin_cases hf
  · exact (h3 _ _).symm
  · exact (h3 _ _).symm
  · exact (h3 _ _).symm

theorem signedSum_pos (h : Describes sys Norb K U dt) (hK : K.IsSymm) : 0 < signedSum sys L := by
  have := average_sign_pos h hK (fun _ => 0) L
  simp only [mul_zero, Real.exp_zero] at this
  exact this

theorem thermalMean_one (h : Describes sys Norb K U dt) (hK : K.IsSymm) :
    thermalMean (stepOf sys K U dt) L 1 = 1 := by
  unfold thermalMean
  rw [mul_one]
  refine div_self ?_
  have h1 := partition_function h (fun _ _ => 0) L
  simp only [mul_zero, Real.exp_zero] at h1
  rw [oprod_const] at h1
  unfold stepOf
  rw [h1]
  exact mul_ne_zero (pow_pos (stepConst_pos _ _) _).ne' (signedSum_pos h hK).ne'

theorem green_mean (h : Describes sys Norb K U dt) (hK : K.IsSymm) (hl : l ≤ L)
    (hne : ∀ x : Field L N, signed sys L (Fock.extend x) (fun _ _ => 1) ≠ 0) (a b : Fin N) (sp : Bool) :
    signedAverage sys L (fun _ _ => 1) (fun s => spinG (greenAt sys L l sys.hs.expVu s)
      (greenAt sys L l sys.hs.expVd s) (a, sp) (b, sp))
      = thermalMean (stepOf sys K U dt) L (ann (a, sp) * cre (b, sp)) := by
  have e := eq_sub_of_add_eq (ann_cre ((a, sp) : Mode N) (b, sp))
  have hS := (signedSum_pos (L := L) h hK).ne'
  obtain ⟨-, h2, -⟩ := means h hl hne
  have h2' := h2 [(1, (b, sp), (a, sp))]
  have e1 : opOf [((1 : ℝ), ((b, sp) : Mode N), ((a, sp) : Mode N))] = cre (b, sp) * ann (a, sp) := by
    simp [opOf]
  rw [e1] at h2'
  have e3 : ann ((a, sp) : Mode N) * cre (b, sp)
      = (if a = b then (1 : ℝ) else 0) • (1 : Op (Mode N)) + (-1 : ℝ) • (cre (b, sp) * ann (a, sp)) := by
    rw [e]
    by_cases hab : a = b
    · simp [hab, sub_eq_add_neg]
    · simp [hab, sub_eq_add_neg]
  have hsm : ∀ (c : ℝ) (X : Op (Mode N)), thermalMean (stepOf sys K U dt) L (c • X)
      = c * thermalMean (stepOf sys K U dt) L X := by
    intro c X
    unfold thermalMean
    rw [mul_smul_comm, trace_smul, smul_eq_mul, mul_div_assoc]
  rw [e3, thermalMean_add, hsm, hsm, thermalMean_one h hK, h2', mul_one, ← average_smul hne]
  rw [← average_const hne hS (if a = b then (1 : ℝ) else 0), ← average_add hne]
  congr 1
  funext s
  simp only [Pairs.mean, equalTime, List.map_cons, List.map_nil, List.sum_cons, List.sum_nil, one_mul, add_zero,
    Prod.mk.injEq, and_true, eq_comm (a := b)]
  ring

end thermal

/-! ### The result -/

section result

variable [MeasurableSpace σ] {P : Measure σ} [NeZero N] {sys : Sys σ N MeasData} {ph : Phonon} {cfg : Cfg}
  {Nx Ny Norb : ℕ} {shift : ℤ} {junk : ℤ → ℤ} {dt : ℝ} {omega : ℕ → ℝ}
  {alg : BlockCyclic.QRs N} {tau : BlockCyclic.Buf} {old : GreensUneq.Arrays} {K : Mat N} {U : ℕ → ℝ}

/-- C74, equal times: for a run without phonons with ideal random numbers, whose initial field is distributed according
to the weights, the quotient of the expected values of an entry of the arrays and of the sum of the signs is the
expectation value in the Hubbard model of the operator for which the entry stands -/
theorem expected_equal_times (hP : sys.rng.Ideal N P) (hok : sys.Ok cfg.prodBlen) (hL : 0 < cfg.L)
    (hd : cfg.prodBlen ∣ cfg.L) (hp : cfg.usePhonons = false) (hx : 0 < Nx) (hy : 0 < Ny) (hN : N = Nx * Ny * Norb)
    (hs : 0 ≤ shift)
    (hm : sys.meas = realMeas Norb (Nx * Ny) cfg.L (Maps.construct Nx Ny shift junk) dt omega alg tau old)
    (hK : K.IsSymm) (hD : Describes sys Norb K U dt)
    (hw : ∀ x : Field cfg.L N, sys.weight cfg.L (Fock.extend x) (fun _ _ => 1) ≠ 0)
    (stop : ℤ → Bool) (it : ℤ) (hcount : 0 < eqCount cfg stop it) (X expX : ℕ → Fin N → ℝ)
    (cnt : Counters) (meas : MeasData) (hmeas : meas.eq = EqData.allocate)
    (R : Field cfg.L N → σ → LoopResult (State σ N MeasData))
    (hR : ∀ x r, simulate sys ph cfg stop it r (Fock.extend x) X expX cnt meas = some (R x r)) :
    EqThermal Nx Ny Norb shift 0 (thermalMean (stepOf sys K U dt) cfg.L) fun f z =>
      expected sys cfg.L P (fun x r => (R x r).state.meas.eq.arr f z) /
        expected sys cfg.L P (fun x r => (R x r).state.meas.eq.sign) := by
  have hne : ∀ x : Field cfg.L N, signed sys cfg.L (Fock.extend x) (fun _ _ => 1) ≠ 0 := fun x h =>
    hw x (by rw [weight_eq, h, abs_zero])
  have hS := (signedSum_pos (L := cfg.L) hD hK).ne'
  have hc : (eqCount cfg stop it : ℝ) ≠ 0 := by exact_mod_cast hcount.ne'
  have h1 : expected sys cfg.L P (fun x r => (R x r).state.meas.eq.sign) = eqCount cfg stop it * signedSum sys cfg.L := by
    have h := simulate_expected hP hok hL hd hp (sign_adds hx hy hN hs hm) stop it X expX cnt meas R
      fun x r _ => hR x r
    rw [h, gain_eq (g := signedSum sys cfg.L) fun l hl => ?_, hmeas]
    · simp [EqData.allocate]
    · rw [wsum_sgn]
      simp only [mul_one]
      rfl
  have h2 : ∀ (f : EqF) (z : ℤ) (V : Mat N → Mat N → ℝ) (T : ℝ),
      (∀ U D e, Estimates Nx Ny Norb shift 0 U D e → e f z = V U D) →
      (∀ l < cfg.L, signedAverage sys cfg.L (fun _ _ => 1) (fun s => V (greenAt sys cfg.L (l + 1) sys.hs.expVu s)
        (greenAt sys cfg.L (l + 1) sys.hs.expVd s)) = T) →
      expected sys cfg.L P (fun x r => (R x r).state.meas.eq.arr f z) /
        expected sys cfg.L P (fun x r => (R x r).state.meas.eq.sign) = T := by
    intro f z V T hV hT
    have h := simulate_expected hP hok hL hd hp (entry_adds hx hy hN hs hm f z V hV) stop it X expX cnt meas R
      fun x r _ => hR x r
    rw [h, gain_eq (g := T * signedSum sys cfg.L) fun l hl => ?_, hmeas, h1]
    · simp only [EqData.allocate, zero_mul, zero_add]
      field_simp
    · rw [wsum_average hne hS (fun s => V (greenAt sys cfg.L (l + 1) sys.hs.expVu s)
        (greenAt sys cfg.L (l + 1) sys.hs.expVd s)), hT l hl]
  constructor
  · intro f hf o ho
    refine h2 f o (fun U D => cellAvg (Nx * Ny) fun c => densSpec (equalTime U D) (siteN N (Nx * Ny) o c) f) _
      (fun U D e he => he.dens f hf o ho) fun l hl => ?_
    rw [average_cellAvg hne]
    exact congrArg (cellAvg _) (funext fun c => dens_mean hD (by omega) hne _ f hf)
  · intro f hf o p ho hp dx dy
    refine h2 f _ (fun U D => cellAvg (Nx * Ny) fun c => corrSpec (equalTime U D) (siteN N (Nx * Ny) o c)
      (siteN N (Nx * Ny) p (moveCell Nx Ny shift c dx dy)) f) _
      (fun U D e he => he.corr f (by fin_cases hf <;> simp) o p ho hp dx dy) fun l hl => ?_
    rw [average_cellAvg hne]
    exact congrArg (cellAvg _) (funext fun c => corr_mean hD (by omega) hne _ _ f hf)
  · intro f hf o ho dx dy
    refine h2 f _ (fun U D => cellAvg (Nx * Ny) fun c => pairSpec (equalTime U D) Nx Ny 0 o c
      (moveCell Nx Ny shift c dx dy) f) _ (fun U D e he => he.pair f hf o ho dx dy) fun l hl => ?_
    rw [average_cellAvg hne]
    exact congrArg (cellAvg _) (funext fun c => pair_mean hD (by omega) hne _ _ _ _ _ _ f hf)
  · intro a b
    exact h2 _ _ (fun U _ => U a b) _ (fun U D e he => he.grfunU a b) fun l hl =>
      green_mean (l := l + 1) hD hK (by omega) hne a b true
  · intro a b
    exact h2 _ _ (fun _ D => D a b) _ (fun U D e he => he.grfunD a b) fun l hl =>
      green_mean (l := l + 1) hD hK (by omega) hne a b false

end result

end Verif.MonteCarlo
