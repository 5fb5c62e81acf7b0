import Verif.Lemmas.SpinRotation
import Verif.Props.Trotter
import Verif.Props.ExpectedPhProgram
import Verif.Props.ConvergenceProgram

/-!
# Property C98: the expected results do not depend on the direction of the spin

In a single sample the two spins see different Hubbard-Stratonovich fields, and the z direction is distinguished.  The
expectation values which the results stand for are invariant under rotations of the spin, with and without phonons.
-/

set_option autoImplicit false

namespace Verif.MonteCarlo

open Matrix MeasureTheory Verif.Lapack Verif.TimeFlow Verif.Fock Verif.Measurement Verif.Lattice Verif.Trotter
open Verif.Main Verif.Progress Verif.Params Verif.Random

variable {N : ℕ}

/-! ## Specification -/

/-- the results of equal time measurements agree for both spins and for the spin in z and x direction -/
structure SpinSymmetric (N Nx Ny Norb : ℕ) (s : ℤ) (R : EqF → ℤ → ℝ → Prop) : Prop where
  density : ∀ o : ℕ, o < Norb → ∃ v, R .densityU o v ∧ R .densityD o v
  corr : ∀ o p : ℕ, o < Norb → p < Norb → ∀ dx dy : ℤ, ∃ v,
    R .uu (cellOf Nx Ny s dx dy + (Nx * Ny : ℕ) * (o + Norb * p)) v ∧
    R .dd (cellOf Nx Ny s dx dy + (Nx * Ny : ℕ) * (o + Norb * p)) v
  spin : ∀ o p : ℕ, o < Norb → p < Norb → ∀ dx dy : ℤ, ∃ v,
    R .zz (cellOf Nx Ny s dx dy + (Nx * Ny : ℕ) * (o + Norb * p)) v ∧
    R .xx (cellOf Nx Ny s dx dy + (Nx * Ny : ℕ) * (o + Norb * p)) v
  green : ∀ a b : Fin N, ∃ v, R .grfunU (a.val + N * b.val) v ∧ R .grfunD (a.val + N * b.val) v

/-- the same for the unequal time measurements -/
structure UneqSpinSymmetric (Nx Ny Norb L : ℕ) (s : ℤ) (R : UneqF → ℤ → ℝ → Prop) : Prop where
  corr : ∀ q ∈ [(UneqF.geqltU, UneqF.geqltD), (.gtau0U, .gtau0D), (.g0tauU, .g0tauD), (.zz, .xx)],
    ∀ l o p : ℕ, l < L → o < Norb → p < Norb → ∀ dx dy : ℤ, ∃ v,
    R q.1 (cellOf Nx Ny s dx dy + (Nx * Ny : ℕ) * (o + Norb * p + Norb * Norb * l)) v ∧
    R q.2 (cellOf Nx Ny s dx dy + (Nx * Ny : ℕ) * (o + Norb * p + Norb * Norb * l)) v

/-! ## Proofs -/

/-- expectation values which do not change if the operators are rotated -/
def Invariant (T : Op (Mode N) → Op (Mode N) → ℝ) : Prop := ∀ θ X Y, T (turn θ X) (turn θ Y) = T X Y

theorem thermalPair_invariant (K : Mat N) (U : Fin N → ℝ) (dt : ℝ) (v : Fin N → ℝ) (L l : ℕ) :
    Invariant (thermalPair (stepOp K U dt v) L l) := by
  intro θ X Y
  have h := commute_stepOp θ K U dt v
  unfold thermalPair
  rw [trace_turn θ (h.pow_right _) (h.pow_right _)]

theorem thermalMean_eq_pair (H : Op (Mode N)) (L : ℕ) (X : Op (Mode N)) : thermalMean H L X = thermalPair H L 0 X 1 := by
  unfold thermalMean thermalPair
  rw [Nat.sub_zero, pow_zero, mul_one, mul_one]

theorem gibbsPair_invariant (K : Mat N) (U : Fin N → ℝ) (β τ : ℝ) : Invariant (gibbsPair (hopOp K + repOp U) β τ) := by
  intro θ X Y
  have h := (commute_hopOp θ K).add_right (commute_repOp θ U)
  unfold gibbsPair
  rw [trace_turn θ (commute_exp h _) (commute_exp h _)]

theorem gibbsMean_eq_pair (H : Op (Mode N)) (β : ℝ) (X : Op (Mode N)) : gibbsMean H β X = gibbsPair H β 0 X 1 := by
  unfold gibbsMean gibbsPair
  rw [sub_zero, neg_zero, zero_smul, NormedSpace.exp_zero, mul_one, mul_one]

theorem holsteinMean_invariant (p : SimParams ℝ) (rest : Measure ℝ) (L l : ℕ) (F : Paths L (sites p) → ℝ) :
    Invariant (holsteinMean p rest L l F) := by
  intro θ X Y
  have hc : ∀ y, Commute (gamma (spinRot (sites p) θ)) (holsteinStep p y) := fun y => commute_stepOp θ _ _ _ _
  have h : ∀ x : Paths L (sites p),
      (oprod (fun j => holsteinStep p (extendX x (l + j))) (L - l) * turn θ X * oprod (fun j => holsteinStep p (extendX x j)) l
        * turn θ Y).trace
      = (oprod (fun j => holsteinStep p (extendX x (l + j))) (L - l) * X * oprod (fun j => holsteinStep p (extendX x j)) l
        * Y).trace := fun x => trace_turn θ (commute_oprod (fun _ => hc _) _) (commute_oprod (fun _ => hc _) _) X Y
  have hi : holsteinIntegral p rest L l F (turn θ X) (turn θ Y) = holsteinIntegral p rest L l F X Y := by
    unfold holsteinIntegral
    simp only [h]
  rw [holsteinMean, hi, holsteinMean]

theorem Invariant.mean {T : Op (Mode N) → Op (Mode N) → ℝ} (h : Invariant T) (θ : ℝ) (X : Op (Mode N)) :
    T (turn θ X) 1 = T X 1 := by
  have := h θ X 1
  rwa [turn_one] at this

/-- C98 for equal times -/
theorem EqHolds.spinSymmetric [NeZero N] {Nx Ny Norb : ℕ} {s t : ℤ} {T : Op (Mode N) → Op (Mode N) → ℝ} (hT : Invariant T)
    {R : EqF → ℤ → ℝ → Prop} (h : EqHolds Nx Ny Norb s t (fun X => T X 1) R) : SpinSymmetric N Nx Ny Norb s R := by
  constructor
  · intro o ho
    refine ⟨_, h.dens .densityU (by simp) o ho, ?_⟩
    convert h.dens .densityD (by simp) o ho using 3 with c
    simp only [densOp, opOf_nOp]
    rw [← turn_flip_up, hT.mean]
  · intro o p ho hp dx dy
    refine ⟨_, h.corr .uu (by simp) o p ho hp dx dy, ?_⟩
    convert h.corr .dd (by simp) o p ho hp dx dy using 3 with c
    simp only [corrOp, opOf_nOp]
    rw [← turn_flip_up, ← turn_flip_up, ← turn_mul, hT.mean]
  · intro o p ho hp dx dy
    refine ⟨_, h.corr .zz (by simp) o p ho hp dx dy, ?_⟩
    convert h.corr .xx (by simp) o p ho hp dx dy using 3 with c
    simp only [corrOp, opOf_zOp, opOf_xOp]
    rw [← turn_z, ← turn_z, ← turn_mul, hT.mean]
  · intro a b
    refine ⟨_, h.grfunU a b, ?_⟩
    convert h.grfunD a b using 1
    rw [← turn_flip_ann, ← turn_flip_cre, ← turn_mul, hT.mean]

/-- C98 for unequal times -/
theorem UneqHolds.spinSymmetric [NeZero N] {Nx Ny Norb L : ℕ} {s t : ℤ} {b1 : Prop}
    {T : ℕ → Op (Mode N) → Op (Mode N) → ℝ} (hT : ∀ l, Invariant (T l))
    {R : UneqF → ℤ → ℝ → Prop} (h : UneqHolds Nx Ny Norb L s t b1 T R) : UneqSpinSymmetric Nx Ny Norb L s R := by
  constructor
  intro q hq l o p hl ho hp dx dy
  have key : ∀ a b : Fin N, uvalue T l a b q.1 = uvalue T l a b q.2 := by
    intro a b
    simp only [List.mem_cons, List.not_mem_nil, or_false] at hq
    rcases hq with rfl | rfl | rfl | rfl <;> simp only [uvalue]
    · rw [← turn_flip_ann, ← turn_flip_cre, ← turn_mul, (hT l).mean]
    · rw [← turn_flip_ann, ← turn_flip_cre, hT l]
    · rw [← turn_flip_ann, ← turn_flip_cre, hT l, hT 0]
    · rw [opOf_zOp, opOf_zOp, opOf_xOp, opOf_xOp, ← turn_z, ← turn_z, hT l]
  have hm : q.1 ∈ [UneqF.geqltU, .geqltD, .gtau0U, .gtau0D, .g0tauU, .g0tauD, .nn, .zz, .xx] ∧
      q.2 ∈ [UneqF.geqltU, .geqltD, .gtau0U, .gtau0D, .g0tauU, .g0tauD, .nn, .zz, .xx] := by
    simp only [List.mem_cons, List.not_mem_nil, or_false] at hq
    rcases hq with rfl | rfl | rfl | rfl <;> simp
  refine ⟨_, h.corr q.1 hm.1 l o p hl ho hp dx dy, ?_⟩
  simp only [key]
  exact h.corr q.2 hm.2 l o p hl ho hp dx dy

/-- C98 for the expectation values which the results without phonons stand for -/
theorem thermal_spinSymmetric (p : SimParams ℝ) [NeZero (sites p)] {Nx Ny Norb L : ℕ} {s t : ℤ} {b1 : Prop} :
    (∀ R, EqHolds Nx Ny Norb s t (thermalMean (hubbardStep p) L) R → SpinSymmetric (sites p) Nx Ny Norb s R) ∧
    ∀ R, UneqHolds Nx Ny Norb L s t b1 (thermalPair (hubbardStep p) L) R → UneqSpinSymmetric Nx Ny Norb L s R := by
  refine ⟨fun R h => ?_, fun R h => h.spinSymmetric fun l => thermalPair_invariant _ _ _ _ L l⟩
  rw [show thermalMean (hubbardStep p) L = fun X => thermalPair (hubbardStep p) L 0 X 1 from
    funext fun X => thermalMean_eq_pair _ _ _] at h
  exact EqHolds.spinSymmetric (T := thermalPair (hubbardStep p) L 0) (thermalPair_invariant _ _ _ _ L 0) h

/-- C98 in the limit of many time slices -/
theorem gibbs_spinSymmetric (p : SimParams ℝ) [NeZero (sites p)] {Nx Ny Norb L : ℕ} {s t : ℤ} {b1 : Prop} {β dt : ℝ} :
    (∀ R, EqHolds Nx Ny Norb s t (gibbsMean (hubbardOp p) β) R → SpinSymmetric (sites p) Nx Ny Norb s R) ∧
    ∀ R, UneqHolds Nx Ny Norb L s t b1 (fun l => gibbsPair (hubbardOp p) β (l * dt)) R →
      UneqSpinSymmetric Nx Ny Norb L s R := by
  refine ⟨fun R h => ?_, fun R h => h.spinSymmetric fun l => gibbsPair_invariant _ _ _ _⟩
  rw [show gibbsMean (hubbardOp p) β = fun X => gibbsPair (hubbardOp p) β 0 X 1 from
    funext fun X => gibbsMean_eq_pair _ _ _] at h
  exact EqHolds.spinSymmetric (T := gibbsPair (hubbardOp p) β 0) (gibbsPair_invariant _ _ _ _) h

/-- C98 with phonons -/
theorem holstein_spinSymmetric (p : SimParams ℝ) [NeZero (sites p)] (rest : Measure ℝ) {Nx Ny Norb L : ℕ} {s t : ℤ}
    {b1 : Prop} :
    (∀ R, EqHolds Nx Ny Norb s t (fun X => holsteinMean p rest L 0 (fun _ => 1) X 1) R →
      SpinSymmetric (sites p) Nx Ny Norb s R) ∧
    ∀ R, UneqHolds Nx Ny Norb L s t b1 (fun l X Y => holsteinMean p rest L l (fun _ => 1) X Y) R →
      UneqSpinSymmetric Nx Ny Norb L s R :=
  ⟨fun _ h => EqHolds.spinSymmetric (T := holsteinMean p rest L 0 fun _ => 1) (holsteinMean_invariant p rest L 0 _) h,
    fun _ h => UneqHolds.spinSymmetric (T := fun l => holsteinMean p rest L l fun _ => 1)
      (fun l => holsteinMean_invariant p rest L l _) h⟩

variable {σ : Type} [MeasurableSpace σ] {P : Measure σ} {mc : Machine} {p : SimParams ℝ}

/-- C98 for runs from scratch: under the hypotheses of C90 the results for both spins and for the spin in z and x direction
converge to the same values -/
theorem program_spinSymmetric [NeZero (sites p)] (hmc : mc.Rounds) (hv : Admissible p) (hg : Guards p)
    (hN : sites p < 2 ^ 31) (hp : p.usePhonons = false) (fnbase : String) (rng : Rng σ) (hlaw : rng.Lawful (sites p))
    (hP : rng.Ideal (sites p) P) (sys : Sys Seed (sites p) MeasData) (hsys : sysOf mc p = some sys)
    (hw : ∀ s, sys.weight p.L.toNat s (fun _ _ => 1) ≠ 0)
    (hr : ∀ i : Fin (sites p), p.U ((i.val / (p.Nx.toNat * p.Ny.toNat) : ℕ) : ℤ) = 0 ∨
      ∀ l < p.L.toNat, ∀ x : Field p.L.toNat (sites p),
        sys.weight p.L.toNat (Fock.extend (flipAt l i x)) (fun _ _ => 1)
          ≠ sys.weight p.L.toNat (Fock.extend x) (fun _ _ => 1))
    (hnq : 0 ≤ p.nequil) (X expX : ℕ → Fin (sites p) → ℝ) (cnt : Counters) (maxNsampl : ℕ) :
    let L := p.L.toNat
    let cfg := (mkSetup mc p fnbase).cfg
    let sys' := sys.withRng rng
    ∃ R : ℕ → σ → LoopResult (State σ (sites p) MeasData),
      (∀ (n : ℕ) r, simulate sys' (mkSetup mc p fnbase).ph { cfg with nsampl := n } (fun _ => false) 0
        (freshField rng L (sites p) r).2 (Fock.extend (freshField rng L (sites p) r).1) X expX cnt
        (MeasData.allocate maxNsampl) = some (R n r)) ∧
      (0 < p.neqlt → p.neqlt ≤ p.L →
        SpinSymmetric (sites p) p.Nx.toNat p.Ny.toNat p.Norb.toNat p.pbcShift fun f z v =>
          Converges P (fun n (_ : Unit) r => (R n r).state.meas.eq.arr f z / (R n r).state.meas.eq.sign) v) ∧
      (0 < p.nuneqlt →
        UneqSpinSymmetric p.Nx.toNat p.Ny.toNat p.Norb.toNat L p.pbcShift fun f z v =>
          Converges P (fun n (_ : Unit) r => (R n r).state.meas.uneq.arr f z / (R n r).state.meas.uneq.sign) v) := by
  intro L cfg sys'
  obtain ⟨R, h1, h2, h3⟩ := program_fresh_converges hmc hv hg hN hp fnbase rng hlaw hP sys hsys hw hr hnq X expX cnt maxNsampl
  exact ⟨R, h1, fun hc hcL => (thermal_spinSymmetric (b1 := True) p).1 _ (h2 hc hcL), fun hc => (thermal_spinSymmetric p).2 _ (h3 hc)⟩

/-- C98 for runs with phonons which start in equilibrium: under the hypotheses of C78 the expected results for both spins
and for the spin in z and x direction agree -/
theorem program_spinSymmetric_ph {rest : Measure ℝ} [SigmaFinite rest] [NeZero (sites p)] (hmc : mc.Rounds)
    (hv : Admissible p) (hg : Guards p)
    (hN : sites p < 2 ^ 31) (hp : p.usePhonons = true) (hL : 2 ≤ p.L) (hdt : 0 < p.dt)
    (hcoupled : ∀ o : ℕ, o < p.Norb.toNat → p.phonon.g o ≠ 0) (homega : ∀ o : ℕ, o < p.Norb.toNat → p.phonon.omega o ≠ 0)
    (hrest : Light rest) (fnbase : String) (rng : Rng σ) (hlaw : rng.Lawful (sites p)) (hP : rng.Ideal (sites p) P)
    (sys : Sys Seed (sites p) MeasData) (hsys : sysOf mc p = some sys) (stop : ℤ → Bool) (it : ℤ) (cnt : Counters) :
    let L := p.L.toNat
    let cfg := (mkSetup mc p fnbase).cfg
    let sys' := sys.withRng rng
    let E := fun f => expectedPh sys' (phOf p) rest L P f
    ∃ R : Conf L (sites p) × σ → LoopResult (State σ (sites p) MeasData),
      (∀ᵐ y ∂(confDist sys' (phOf p) rest L).prod P, simulate sys' (phOf p) cfg stop it y.2 (Fock.extend y.1.1)
        (extendX y.1.2) (sys'.expOf (phOf p) (extendX y.1.2)) cnt (MeasData.allocate (mkSetup mc p fnbase).maxNsampl)
          = some (R y)) ∧
      (0 < eqCount cfg stop it → SpinSymmetric (sites p) p.Nx.toNat p.Ny.toNat p.Norb.toNat p.pbcShift
        fun f z v => E (fun y => (R y).state.meas.eq.arr f z) / E (fun y => (R y).state.meas.eq.sign) = v) ∧
      (0 < uneqCount cfg stop it → UneqSpinSymmetric p.Nx.toNat p.Ny.toNat p.Norb.toNat L p.pbcShift
        fun f z v => E (fun y => (R y).state.meas.uneq.arr f z) / E (fun y => (R y).state.meas.uneq.sign) = v) := by
  intro L cfg sys' E
  obtain ⟨R, h1, h2, h3⟩ := program_expected_ph hmc hv hg hN hp hL hdt hcoupled homega hrest fnbase rng hlaw hP sys hsys stop
    it cnt
  exact ⟨R, h1, fun hc => (holstein_spinSymmetric (b1 := True) p rest).1 _ ((eqThermal_iff _ _ _ _ _ _ _).1 (h2 hc).1),
    fun hc => (holstein_spinSymmetric p rest).2 _ ((uneqThermal_iff _ _ _ _ _ _ _ _ _).1 (h3 hc))⟩

/-- the rotation is not trivial: it takes the z component of the spin of a site to the x component, which differs from it -/
example (i : Fin N) : turn (Real.pi / 4) (opOf (zOp i)) = opOf (xOp i) ∧ opOf (zOp i) ≠ opOf (xOp i) := by
  rw [opOf_zOp, opOf_xOp]
  refine ⟨turn_z i, fun h => ?_⟩
  have := congrFun (congrFun h {(i, true)}) {(i, true)}
  simp [num, cre, ann, Matrix.mul_apply] at this

end Verif.MonteCarlo
