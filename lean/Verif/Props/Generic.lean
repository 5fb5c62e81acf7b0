import Verif.Lemmas.ShortSteps
import Verif.Props.Textbook
import Verif.Props.Trotter
import Verif.Props.SampleRuns

/-! # Property C104: for all but finitely many lengths of the time step every run without phonons ends and long runs give
the expectation values -/

set_option autoImplicit false

namespace Verif.MonteCarlo

open MeasureTheory Verif.Fock Verif.Lapack Verif.TimeFlow Verif.Greens Verif.Measurement Verif.Main Verif.Random Verif.Params
open Verif.Files Verif.Progress Verif.Trotter

variable {mc : Machine} {p : SimParams ℝ}

/-! ## Specification -/

/-- the same parameters with another time step -/
def withStep (p : SimParams ℝ) (dt : ℝ) : SimParams ℝ := { p with dt := dt }

/-- the lengths of the time step for which some configuration of the field has weight zero -/
def singularSteps (p : SimParams ℝ) : Set ℝ := {dt | ∃ x, detProduct (withStep p dt) x = 0}

/-- the lengths of the time step for which reversing some entry of the field, at a site with interaction, does not change
the weight -/
def idleSteps (p : SimParams ℝ) : Set ℝ :=
  {dt | ∃ (l : ℕ) (i : Fin (sites p)) (x : Conf p.L.toNat (sites p)), l < p.L.toNat ∧ p.U (orbitalOf p i) ≠ 0 ∧
    |detProduct (withStep p dt) (flipAt l i x.1, x.2)| = |detProduct (withStep p dt) x|}

/-! ## Proofs -/

section steps

variable {L N : ℕ}

/-- a field as signs -/
def signs (s : Field L N) (l : ℕ) (i : Fin N) : ℝ := if Fock.extend s l i = 1 then 1 else -1

theorem signs_sum (s : Field L N) (i : Fin N) :
    ∑ l ∈ Finset.range L, signs s l i = ((∑ k, fieldSign (s k i) : ℤ) : ℝ) := by
  rw [Finset.sum_range, Int.cast_sum]
  refine Finset.sum_congr rfl fun k _ => ?_
  unfold signs Fock.extend
  rw [dif_pos k.2]
  generalize s ⟨k.val, k.2⟩ i = b
  have hk : s k i = s ⟨k.val, k.2⟩ i := rfl
  fin_cases b <;> simp [fieldSign]

end steps

theorem detProduct_step (hp : p.usePhonons = false) (dt : ℝ) (x : Conf p.L.toNat (sites p)) :
    detProduct (withStep p dt) x = stepWeight (bondMatrix p) (fun i => p.U (orbitalOf p i)) (signs x.1) p.L.toNat dt := by
  have key : ∀ e l, stepMatrix (withStep p dt) e x l = Matrix.diagonal (fun i =>
      Real.exp ((e * signs x.1 l i) * Real.arcosh (Real.exp (dt * p.U (orbitalOf p i) / 2))))
      * NormedSpace.exp (-dt • bondMatrix p) := by
    intro e l
    unfold stepMatrix
    congr 2
    funext i
    have h0 : (withStep p dt).usePhonons = false := hp
    rw [h0]
    congr 1
    simp only [Bool.false_eq_true, if_false, sub_zero]
    show e * (if Fock.extend x.1 l i = 1 then Real.arcosh (Real.exp (dt * p.U (orbitalOf p i) / 2))
      else -Real.arcosh (Real.exp (dt * p.U (orbitalOf p i) / 2))) = _
    unfold signs
    split <;> ring
  unfold detProduct
  rw [show stepMatrix (withStep p dt) 1 x = _ from funext (key 1), show stepMatrix (withStep p dt) (-1) x = _ from funext (key (-1))]
  rfl

theorem sites_U (hU : ∀ o : ℕ, (o : ℤ) < p.Norb → 0 ≤ p.U o) (i : Fin (sites p)) : 0 ≤ p.U (orbitalOf p i) := hU _ (by
  have h1 : i.val < p.Norb.toNat * (p.Nx.toNat * p.Ny.toNat) := i.2
  have h2 : i.val / (p.Nx.toNat * p.Ny.toNat) < p.Norb.toNat :=
    Nat.div_lt_of_lt_mul (by rwa [Nat.mul_comm])
  show ((i.val / (p.Nx.toNat * p.Ny.toNat) : ℕ) : ℤ) < p.Norb
  have h3 : p.Norb.toNat ≠ 0 := by rintro h; rw [h, Nat.zero_mul] at h1; omega
  generalize i.val / (p.Nx.toNat * p.Ny.toNat) = k at h2 ⊢
  omega)

/-- C104: in every bounded interval there are finitely many lengths of the time step for which a weight vanishes -/
theorem singularSteps_finite (hU : ∀ o : ℕ, (o : ℤ) < p.Norb → 0 ≤ p.U o) (hp : p.usePhonons = false) (T : ℝ) :
    {dt | 0 < dt ∧ dt ≤ T ∧ dt ∈ singularSteps p}.Finite := by
  have hfin : ∀ s : Field p.L.toNat (sites p), {t : ℝ | 0 < t ∧ t ≤ T ∧
      stepWeight (bondMatrix p) (fun i => p.U (orbitalOf p i)) (signs s) p.L.toNat t = 0}.Finite := fun s =>
    (stepWeight_regular (bondMatrix p) (sites_U hU) (signs s) p.L.toNat).finite_zeros (by
      rw [stepWeight_zero]; positivity) T
  refine (Set.finite_iUnion hfin).subset ?_
  rintro dt ⟨h1, h2, x, hx⟩
  exact Set.mem_iUnion.2 ⟨x.1, h1, h2, (detProduct_step hp dt x).symm.trans hx⟩

/-- C104: with an even number of time slices, in every bounded interval there are finitely many lengths of the time step
for which reversing an entry of the field at a site with interaction can leave the weight unchanged -/
theorem idleSteps_finite (hU : ∀ o : ℕ, (o : ℤ) < p.Norb → 0 ≤ p.U o) (hp : p.usePhonons = false) (hL : Even p.L.toNat)
    (T : ℝ) : {dt | 0 < dt ∧ dt ≤ T ∧ dt ∈ idleSteps p}.Finite := by
  set W : Field p.L.toNat (sites p) → ℝ → ℝ := fun s =>
    stepWeight (bondMatrix p) (fun i => p.U (orbitalOf p i)) (signs s) p.L.toNat with hW
  have hreg : ∀ s, Regular (W s) := fun s => stepWeight_regular (bondMatrix p) (sites_U hU) (signs s) p.L.toNat
  have h0 : ∀ s, W s 0 = 4 ^ sites p := fun s => stepWeight_zero _ _ _ _
  have hplus : ∀ s s', {t : ℝ | 0 < t ∧ t ≤ T ∧ W s t + W s' t = 0}.Finite := fun s s' =>
    ((hreg s).add (hreg s')).finite_zeros (by rw [h0, h0]; positivity) T
  have hminus : ∀ (l : Fin p.L.toNat) (i : Fin (sites p)) (s : Field p.L.toNat (sites p)), p.U (orbitalOf p i) ≠ 0 →
      {t : ℝ | 0 < t ∧ t ≤ T ∧ W (flipAt l i s) t + -1 * W s t = 0}.Finite := by
    intro l i s hi
    refine ((hreg _).add ((Regular.const (-1)).mul (hreg s))).finite_zeros' ?_ T
    have hi : 0 < p.U (orbitalOf p i) := lt_of_le_of_ne (sites_U hU i) hi.symm
    have hm := sum_flip l.2 s i
    have hpar := sign_parity s i
    have hs : fieldSign (s ⟨l.val, l.2⟩ i) = 1 ∨ fieldSign (s ⟨l.val, l.2⟩ i) = -1 := by
      generalize s ⟨l.val, l.2⟩ i = b
      fin_cases b
      · right; rfl
      · left; rfl
    have hother : ∀ j, j ≠ i → ∑ k ∈ Finset.range p.L.toNat, signs (flipAt l i s) k j
        = ∑ k ∈ Finset.range p.L.toNat, signs s k j := by
      intro j hj
      rw [signs_sum, signs_sum, flipAt_apply]
      simp [hj]
    have habs : |∑ k, fieldSign (flipAt l i s k i)| ≠ |∑ k, fieldSign (s k i)| := by
      rw [hm]
      generalize fieldSign (s ⟨l.val, l.2⟩ i) = e at *
      generalize ∑ k, fieldSign (s k i) = m at *
      obtain ⟨k, hk⟩ := hL
      rw [hk] at hpar
      intro h
      rcases abs_eq_abs.1 h with h | h <;> omega
    rcases lt_or_gt_of_ne habs with h | h
    · have := stepWeight_ne (bondMatrix p) (sites_U hU) (σ := signs s) (σ' := signs (flipAt l i s)) (L := p.L.toNat) hi
        (by rw [signs_sum, signs_sum, ← Int.cast_abs, ← Int.cast_abs]; exact_mod_cast h) hother
      exact this.mono fun t ht => ne_of_lt (by show W (flipAt l i s) t + -1 * W s t < 0; have : W (flipAt l i s) t < W s t := ht; linarith)
    · have := stepWeight_ne (bondMatrix p) (sites_U hU) (σ := signs (flipAt l i s)) (σ' := signs s) (L := p.L.toNat) hi
        (by rw [signs_sum, signs_sum, ← Int.cast_abs, ← Int.cast_abs]; exact_mod_cast h) fun j hj => (hother j hj).symm
      exact this.mono fun t ht => ne_of_gt (by show 0 < W (flipAt l i s) t + -1 * W s t; have : W s t < W (flipAt l i s) t := ht; linarith)
  have hfin : ∀ q : Fin p.L.toNat × Fin (sites p) × Field p.L.toNat (sites p),
      {t : ℝ | 0 < t ∧ t ≤ T ∧ p.U (orbitalOf p q.2.1) ≠ 0 ∧
        |W (flipAt q.1 q.2.1 q.2.2) t| = |W q.2.2 t|}.Finite := by
    rintro ⟨l, i, s⟩
    by_cases hi : p.U (orbitalOf p i) = 0
    · exact Set.finite_empty.subset fun t ht => absurd hi ht.2.2.1
    · refine ((hminus l i s hi).union (hplus (flipAt l i s) s)).subset ?_
      rintro t ⟨h1, h2, -, h4⟩
      rcases abs_eq_abs.1 h4 with h | h
      · exact Or.inl ⟨h1, h2, by rw [h]; ring⟩
      · exact Or.inr ⟨h1, h2, by rw [h]; ring⟩
  refine (Set.finite_iUnion hfin).subset ?_
  rintro dt ⟨h1, h2, l, i, x, hl, hi, hx⟩
  refine Set.mem_iUnion.2 ⟨(⟨l, hl⟩, i, x.1), h1, h2, hi, ?_⟩
  have a := detProduct_step hp dt (flipAt l i x.1, x.2)
  have b := detProduct_step hp dt x
  exact (congrArg _ a).symm.trans (hx.trans (congrArg _ b))

/-- the weights of the program are those of the specification -/
theorem weight_detProduct (hv : Admissible p) (hg : Guards p) (hp : p.usePhonons = false)
    (sys : Sys Seed (sites p) MeasData) (hsys : sysOf mc p = some sys) (x : Field p.L.toNat (sites p)) :
    sys.weight p.L.toNat (Fock.extend x) (fun _ _ => 1) = |detProduct p (x, fun _ _ => 0)| := by
  obtain ⟨ho, hD⟩ := program_describes hv hg sys hsys
  have e := weight_step ho hD (x, fun _ _ => 0)
  simp only [hp, Bool.false_eq_true, if_false, mul_one] at e
  exact e

theorem weight_ne_zero (hv : Admissible p) (hg : Guards p) (hp : p.usePhonons = false) (h : ∀ x, detProduct p x ≠ 0)
    (sys : Sys Seed (sites p) MeasData) (hsys : sysOf mc p = some sys) (s : ℕ → Fin (sites p) → Fin 2) :
    sys.weight p.L.toNat s (fun _ _ => 1) ≠ 0 := by
  have hl := hv.l
  have e2 : sys.weight p.L.toNat s (fun _ _ => 1) = sys.weight p.L.toNat (Fock.extend (fieldOf p.L.toNat s)) fun _ _ => 1 :=
    weight_congr (by omega) (fun k hk => by simp [Fock.extend, fieldOf, hk]) fun _ _ => rfl
  rw [e2, weight_detProduct hv hg hp sys hsys]
  exact abs_ne_zero.2 (h _)

/-- outside of the exceptional lengths the conditions of C90 hold -/
theorem conditions_generic (hv : Admissible p) (hg : Guards p) (hp : p.usePhonons = false) (h1 : p.dt ∉ singularSteps p)
    (h2 : p.dt ∉ idleSteps p) (sys : Sys Seed (sites p) MeasData) (hsys : sysOf mc p = some sys) :
    (∀ s, sys.weight p.L.toNat s (fun _ _ => 1) ≠ 0) ∧
    ∀ i : Fin (sites p), p.U ((i.val / (p.Nx.toNat * p.Ny.toNat) : ℕ) : ℤ) = 0 ∨
      ∀ l < p.L.toNat, ∀ x : Field p.L.toNat (sites p),
        sys.weight p.L.toNat (Fock.extend (flipAt l i x)) (fun _ _ => 1)
          ≠ sys.weight p.L.toNat (Fock.extend x) (fun _ _ => 1) := by
  refine ⟨weight_ne_zero hv hg hp (fun x hx => h1 ⟨x, hx⟩) sys hsys, fun i => ?_⟩
  by_cases hi : p.U (orbitalOf p i) = 0
  · exact Or.inl hi
  · refine Or.inr fun l hl x hx => h2 ⟨l, i, (x, fun _ _ => 0), hl, hi, ?_⟩
    rw [weight_detProduct hv hg hp sys hsys, weight_detProduct hv hg hp sys hsys] at hx
    exact hx

theorem admissible_step (hv : Admissible p) (dt : ℝ) : Admissible { p with dt := dt } :=
  ⟨hv.norb, hv.nx, hv.ny, hv.noSelf, hv.noDouble, hv.l, hv.prodBlen, hv.dvdL, hv.dvdNwraps, hv.nwraps, hv.itime⟩

theorem guards_step (hshift : 0 ≤ p.pbcShift) (hblocks : p.nuneqlt > 0 → p.prodBlen ≠ p.L)
    (hU : ∀ o : ℕ, (o : ℤ) < p.Norb → 0 ≤ p.U o) (hp : p.usePhonons = false) {dt : ℝ} (h : 0 < dt) :
    Guards { p with dt := dt } :=
  ⟨fun o ho => mul_nonneg h.le (hU o ho), hshift, fun h => absurd h (by simp [hp]), hblocks⟩

/-- C104: for all but finitely many lengths of the time step in every bounded interval, every run without phonons that starts
from scratch ends without an undefined operation, whatever the seed, the roundings, the signals and the disk -/
theorem runs_generic (hv : Admissible p) (hshift : 0 ≤ p.pbcShift) (hblocks : p.nuneqlt > 0 → p.prodBlen ≠ p.L)
    (hU : ∀ o : ℕ, (o : ℤ) < p.Norb → 0 ≤ p.U o) (hN : sites p < 2 ^ 31) (hp : p.usePhonons = false) (T : ℝ) :
    ∃ E : Set ℝ, E.Finite ∧ ∀ dt, 0 < dt → dt ≤ T → dt ∉ E → ∀ (mc : Machine) (seed : BitVec 64) (fnbase : String)
      (inp : RunInput) (fs : FS), mc.Rounds → seed ≠ 0 → searchCheckpoint fs fnbase ≠ 0 →
      letI : NeZero (sites { p with dt := dt, itime := seed }) := ⟨sites_pos (p := p) hv⟩
      ∃ out, process (mkSetup mc { p with dt := dt, itime := seed } fnbase) inp fs = some out := by
  refine ⟨_, singularSteps_finite hU hp T, fun dt h1 h2 hE mc seed fnbase inp fs hmc hs hfs => ?_⟩
  have : NeZero (sites { p with dt := dt, itime := seed }) := ⟨sites_pos (p := p) hv⟩
  have hv' : Admissible { p with dt := dt, itime := seed } :=
    ⟨hv.norb, hv.nx, hv.ny, hv.noSelf, hv.noDouble, hv.l, hv.prodBlen, hv.dvdL, hv.dvdNwraps, hv.nwraps, hs⟩
  have hg' : Guards { p with dt := dt, itime := seed } :=
    ⟨fun o ho => mul_nonneg h1.le (hU o ho), hshift, fun h => absurd h (by simp [hp]), hblocks⟩
  refine fresh_defined_partial hmc hv' hg' hN hp fnbase inp fs hfs fun sys hsys s =>
    weight_ne_zero hv' hg' hp (fun x hx => hE ⟨h1, h2, x, hx⟩) sys hsys s

/-- C104: let the generator be replaced by an ideal source and let the number of time slices be even. For all but finitely
many lengths of the time step in every bounded interval, the results of long runs without phonons converge to the
expectation values in the Hubbard model with this time step. -/
theorem converges_generic [NeZero (sites p)] (hv : Admissible p) (hshift : 0 ≤ p.pbcShift)
    (hblocks : p.nuneqlt > 0 → p.prodBlen ≠ p.L) (hU : ∀ o : ℕ, (o : ℤ) < p.Norb → 0 ≤ p.U o) (hN : sites p < 2 ^ 31)
    (hp : p.usePhonons = false) (hL : Even p.L.toNat) (hnq : 0 ≤ p.nequil) (T : ℝ) :
    ∃ E : Set ℝ, E.Finite ∧ ∀ dt, 0 < dt → dt ≤ T → dt ∉ E →
    letI q : SimParams ℝ := { p with dt := dt }
    letI : NeZero (sites q) := ⟨sites_pos (p := p) hv⟩
    ∀ {σ : Type} [MeasurableSpace σ] {P : Measure σ} {mc : Machine} (fnbase : String) (rng : Rng σ), mc.Rounds →
    rng.Lawful (sites q) → rng.Ideal (sites q) P → ∀ sys : Sys Seed (sites q) MeasData, sysOf mc q = some sys →
    ∀ (X expX : ℕ → Fin (sites q) → ℝ) (cnt : Counters) (maxNsampl : ℕ),
    ∃ R : ℕ → σ → LoopResult (State σ (sites q) MeasData),
      (∀ (n : ℕ) r, simulate (sys.withRng rng) (mkSetup mc q fnbase).ph { (mkSetup mc q fnbase).cfg with nsampl := n }
        (fun _ => false) 0 (freshField rng q.L.toNat (sites q) r).2 (Fock.extend (freshField rng q.L.toNat (sites q) r).1)
        X expX cnt (MeasData.allocate maxNsampl) = some (R n r)) ∧
      (0 < p.neqlt → p.neqlt ≤ p.L →
        EqHolds p.Nx.toNat p.Ny.toNat p.Norb.toNat p.pbcShift 0 (thermalMean (hubbardStep q) q.L.toNat) fun f z v =>
          Converges P (fun n (_ : Unit) r => (R n r).state.meas.eq.arr f z / (R n r).state.meas.eq.sign) v) ∧
      (0 < p.nuneqlt →
        UneqHolds p.Nx.toNat p.Ny.toNat p.Norb.toNat q.L.toNat p.pbcShift 0 (p.Nx.toNat = 1 ↔ p.Ny.toNat = 1)
          (thermalPair (hubbardStep q) q.L.toNat) fun f z v =>
          Converges P (fun n (_ : Unit) r => (R n r).state.meas.uneq.arr f z / (R n r).state.meas.uneq.sign) v) := by
  refine ⟨_, (singularSteps_finite hU hp T).union (idleSteps_finite hU hp hL T), fun dt h1 h2 hE => ?_⟩
  have : NeZero (sites { p with dt := dt }) := ⟨sites_pos (p := p) hv⟩
  intro σ _ P mc fnbase rng hmc hlaw hP sys hsys X expX cnt maxNsampl
  have hv' := admissible_step hv dt
  have hg' := guards_step hshift hblocks hU hp h1
  obtain ⟨hw, hr⟩ := conditions_generic hv' hg' hp (fun h => hE (Or.inl ⟨h1, h2, h⟩)) (fun h => hE (Or.inr ⟨h1, h2, h⟩)) sys hsys
  exact program_fresh_converges hmc hv' hg' hN hp fnbase rng hlaw hP sys hsys hw hr hnq X expX cnt maxNsampl

/-- the positive exceptional lengths are countable -/
theorem exceptional_countable (hU : ∀ o : ℕ, (o : ℤ) < p.Norb → 0 ≤ p.U o) (hp : p.usePhonons = false) (hL : Even p.L.toNat) :
    {dt | 0 < dt ∧ (dt ∈ singularSteps p ∨ dt ∈ idleSteps p)}.Countable := by
  refine (Set.countable_iUnion fun n : ℕ =>
    ((singularSteps_finite hU hp n).union (idleSteps_finite hU hp hL n)).countable).mono ?_
  rintro dt ⟨h0, h⟩
  obtain ⟨n, hn⟩ := exists_nat_ge dt
  exact Set.mem_iUnion.2 ⟨n, h.imp (fun h => ⟨h0, hn, h⟩) fun h => ⟨h0, hn, h⟩⟩

/-- C104: for all but countably many temperatures, and all even numbers of time slices which are large enough and accepted,
the results of long runs without phonons tend to values which differ from the expectation values in the Hubbard model by at
most `C / L`, or `C / L²` (C93), without any condition on the weights -/
theorem limit_generic (p : SimParams ℝ) [NeZero (sites p)] (hx : 0 < p.Nx.toNat) (hy : 0 < p.Ny.toNat)
    (hU : ∀ o : ℕ, (o : ℤ) < p.Norb → 0 ≤ p.U o) (hp : p.usePhonons = false) :
    ∃ E : Set ℝ, E.Countable ∧ ∀ β, 0 < β → β ∉ E → ∃ (C : ℝ) (L₀ : ℕ), ∀ L ≥ L₀, Even L →
    ∀ {σ : Type} [MeasurableSpace σ] {P : Measure σ} {mc : Machine}, mc.Rounds →
    let q := withSlices p β L
    Admissible q → Guards q → sites q < 2 ^ 31 →
    ∀ (fnbase : String) (rng : Rng σ), rng.Lawful (sites q) → rng.Ideal (sites q) P →
    ∀ sys : Sys Seed (sites q) MeasData, sysOf mc q = some sys →
    0 ≤ p.nequil → ∀ (X expX : ℕ → Fin (sites q) → ℝ) (cnt : Counters) (maxNsampl : ℕ),
    ∃ R : ℕ → σ → LoopResult (State σ (sites q) MeasData),
      (∀ (n : ℕ) r, simulate (sys.withRng rng) (mkSetup mc q fnbase).ph { (mkSetup mc q fnbase).cfg with nsampl := n }
        (fun _ => false) 0 (freshField rng L (sites q) r).2 (Fock.extend (freshField rng L (sites q) r).1) X expX cnt
        (MeasData.allocate maxNsampl) = some (R n r)) ∧
      (0 < p.neqlt → p.neqlt ≤ L →
        EqHolds p.Nx.toNat p.Ny.toNat p.Norb.toNat p.pbcShift 0 (gibbsMean (hubbardOp p) β) fun f z v =>
          ∃ v', |v' - v| ≤ C / (L : ℝ) ^ order f ∧
            Converges P (fun n (_ : Unit) r => (R n r).state.meas.eq.arr f z / (R n r).state.meas.eq.sign) v') ∧
      (0 < p.nuneqlt →
        UneqHolds p.Nx.toNat p.Ny.toNat p.Norb.toNat L p.pbcShift 0 (p.Nx.toNat = 1 ↔ p.Ny.toNat = 1)
          (fun l => gibbsPair (hubbardOp p) β (l * (β / L))) fun f z v =>
          ∃ v', |v' - v| ≤ C / L ∧
            Converges P (fun n (_ : Unit) r => (R n r).state.meas.uneq.arr f z / (R n r).state.meas.uneq.sign) v') := by
  let S : ℕ → SimParams ℝ := fun L => { p with L := L }
  refine ⟨⋃ L : ℕ, ⋃ _ : Even L ∧ 0 < L, (fun β : ℝ => β / L) ⁻¹' {dt | 0 < dt ∧ (dt ∈ singularSteps (S L) ∨ dt ∈ idleSteps (S L))},
    ?_, fun β hβ hE => ?_⟩
  · refine Set.countable_iUnion fun L => Set.countable_iUnion fun hL => ?_
    refine Set.Countable.preimage_of_injOn
      (exceptional_countable (p := S L) hU hp (by show Even ((L : ℕ) : ℤ).toNat; rw [Int.toNat_natCast]; exact hL.1)) ?_
    intro a _ b _ hab
    have : (L : ℝ) ≠ 0 := by have := hL.2; positivity
    exact (div_left_inj' this).1 hab
  · obtain ⟨C, L₀, h⟩ := program_limit p hx hy β
    refine ⟨C, L₀, fun L hL hev => ?_⟩
    intro σ _ P mc hmc q hv hg hN fnbase rng hlaw hP sys hsys hnq X expX cnt maxNsampl
    have hL0 : 0 < L := by
      have : 0 < q.L := hv.l
      have : (0 : ℤ) < ((L : ℕ) : ℤ) := this
      omega
    have hLq : q.L.toNat = L := Int.toNat_natCast L
    have hdt : 0 < β / L := by positivity
    have hnot : ¬ (β / L ∈ singularSteps (S L) ∨ β / L ∈ idleSteps (S L)) := fun hc =>
      hE (Set.mem_iUnion.2 ⟨L, Set.mem_iUnion.2 ⟨⟨hev, hL0⟩, hdt, hc⟩⟩)
    obtain ⟨hw, hr⟩ := conditions_generic (p := q) hv hg hp (fun h => hnot (Or.inl h)) (fun h => hnot (Or.inr h)) sys hsys
    exact h L hL hmc hv hg hN hp fnbase rng hlaw hP sys hsys (fun s => by rw [← hLq]; exact hw s)
      (fun i => (hr i).imp id fun h => by rw [← hLq]; exact h) hnq X expX cnt maxNsampl

/-- non-vacuity: the parameters in the sample input for the kagome lattice, where the signs of the determinants vary, satisfy
the hypotheses of the theorems -/
example {rnd : ℝ → ℝ} (hr : Random.RoundsToNearest rnd) {seed : BitVec 64} (hs : seed ≠ 0) :
    let p := sheetKagome.params rnd seed
    Admissible p ∧ 0 ≤ p.pbcShift ∧ (p.nuneqlt > 0 → p.prodBlen ≠ p.L) ∧ (∀ o : ℕ, (o : ℤ) < p.Norb → 0 ≤ p.U o) ∧
    sites p < 2 ^ 31 ∧ p.usePhonons = false ∧ Even p.L.toNat ∧ 0 ≤ p.nequil ∧ 0 < p.Nx.toNat ∧ 0 < p.Ny.toNat ∧
    0 < p.neqlt ∧ p.neqlt ≤ p.L := by
  have hg : sheetKagome.Good := samples_good (kagome, sheetKagome) (by simp [sampleFiles])
  refine ⟨hg.admissible hr hs, hg.shift, fun h => absurd h (show ¬ ((0 : ℤ) > 0) by decide), fun o ho => rnd_nonneg hr ?_, hg.sites_lt, rfl,
    ⟨20, rfl⟩, show (0 : ℤ) ≤ 512 by decide, show 0 < 4 by decide, show 0 < 4 by decide, show (0 : ℤ) < 10 by decide,
    show (10 : ℤ) ≤ 40 by decide⟩
  have := hg.u ⟨o, by have : (o : ℤ) < sheetKagome.Norb := ho; omega⟩
  exact_mod_cast this

/-- there is such a `sys` for every machine which rounds to nearest -/
example (hmc : mc.Rounds) (hv : Admissible p) (hg : Guards p) (hN : sites p < 2 ^ 31) : ∃ sys, sysOf mc p = some sys := by
  have : NeZero (sites p) := ⟨sites_pos hv⟩
  obtain ⟨sys, hsys, -⟩ := sys_defined hmc hv hg.U hg.shift hN ""
  exact ⟨sys, hsys⟩

end Verif.MonteCarlo
