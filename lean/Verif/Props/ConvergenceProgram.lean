import Verif.Props.Convergence
import Verif.Props.FreshStart
import Mathlib.Algebra.Order.Field.Power

/-! # Property C90 for the parameters of a run -/

set_option autoImplicit false

namespace Verif.MonteCarlo

open Matrix MeasureTheory Verif.Fock Verif.Measurement Verif.Main Verif.Progress Verif.Random Verif.Params
open Verif.Stratonovich

/-! ## A condition for the weights -/

section atomic

variable {σ M : Type} {N : ℕ} {sys : Sys σ N M} {L len : ℕ}

theorem prodSeq_diagonal {d : Fin N → ℝ} (hK : sys.expK = Matrix.diagonal d) (expV : Fin 2 → ℕ → ℝ)
    (s : ℕ → Fin N → Fin 2) (g : ℕ → ℕ) (k : ℕ) :
    TimeFlow.prodSeq (fun j => sys.fieldB expV s (fun _ _ => 1) (g j)) k
      = Matrix.diagonal fun i => (∏ j ∈ Finset.range k, expV (s (g j) i) (sys.orb i)) * d i ^ k := by
  induction k with
  | zero =>
    rw [TimeFlow.prodSeq, ← Matrix.diagonal_one]
    congr 1
    funext i
    simp
  | succ k ih =>
    rw [TimeFlow.prodSeq, ih]
    simp only [Sys.fieldB, hK, Matrix.diagonal_mul_diagonal]
    congr 1
    funext i
    rw [Finset.prod_range_succ, pow_succ]
    ring

/-- what the field contributes at a site -/
noncomputable def siteProd (sys : Sys σ N M) (expV : Fin 2 → ℕ → ℝ) (x : Field L N) (i : Fin N) : ℝ :=
  ∏ k : Fin L, expV (x k i) (sys.orb i)

theorem weight_atomic {d : Fin N → ℝ} (hK : sys.expK = Matrix.diagonal d) (x : Field L N) :
    sys.weight L (Fock.extend x) (fun _ _ => 1)
      = ∏ i, |(1 + siteProd sys sys.hs.expVu x i * d i ^ L) * (1 + siteProd sys sys.hs.expVd x i * d i ^ L)| := by
  have key : ∀ expV : Fin 2 → ℕ → ℝ, (1 + sys.flow expV L (Fock.extend x) fun _ _ => 1).det
      = ∏ i, (1 + siteProd sys expV x i * d i ^ L) := by
    intro expV
    unfold Sys.flow TimeFlow.cyclicProd
    rw [prodSeq_diagonal hK, ← Matrix.diagonal_one, Matrix.diagonal_add, Matrix.det_diagonal]
    refine Finset.prod_congr rfl fun i _ => ?_
    congr 2
    unfold siteProd
    rw [Finset.prod_range]
    refine Finset.prod_congr rfl fun k _ => ?_
    rw [Nat.zero_add, Nat.mod_eq_of_lt k.2]
    simp [Fock.extend]
  unfold Sys.weight
  rw [key, key, abs_mul, Finset.abs_prod, Finset.abs_prod, ← Finset.prod_mul_distrib]
  simp only [abs_mul]

/-- value of an entry as a sign -/
def fieldSign (b : Fin 2) : ℤ := if b = 0 then -1 else 1

theorem fieldSign_flip (b : Fin 2) : fieldSign (1 - b) = -fieldSign b := by
  fin_cases b <;> rfl

theorem siteProd_up (hc : ∀ i, Consistent sys.hs (sys.orb i)) (x : Field L N) (i : Fin N) :
    siteProd sys sys.hs.expVu x i = sys.hs.expVu 1 (sys.orb i) ^ (∑ k, fieldSign (x k i)) := by
  have h0 := (((hc i).pos 1).1).ne'
  have hr : sys.hs.expVu 0 (sys.orb i) = (sys.hs.expVu 1 (sys.orb i))⁻¹ :=
    eq_inv_of_mul_eq_one_left ((hc i).reciprocal 0)
  unfold siteProd
  have : ∀ s : Finset (Fin L), ∏ k ∈ s, sys.hs.expVu (x k i) (sys.orb i)
      = sys.hs.expVu 1 (sys.orb i) ^ (∑ k ∈ s, fieldSign (x k i)) := by
    intro s
    induction s using Finset.cons_induction with
    | empty => simp
    | cons k s hk ih =>
      rw [Finset.prod_cons, Finset.sum_cons, zpow_add₀ h0, ih]
      congr 1
      generalize x k i = b
      fin_cases b
      · show sys.hs.expVu 0 (sys.orb i) = sys.hs.expVu 1 (sys.orb i) ^ (-1 : ℤ)
        rw [hr, _root_.zpow_neg_one]
      · show sys.hs.expVu 1 (sys.orb i) = sys.hs.expVu 1 (sys.orb i) ^ (1 : ℤ)
        rw [_root_.zpow_one]
  exact this Finset.univ

theorem siteProd_down (hc : ∀ i, Consistent sys.hs (sys.orb i)) (x : Field L N) (i : Fin N) :
    siteProd sys sys.hs.expVd x i = sys.hs.expVu 1 (sys.orb i) ^ (-∑ k, fieldSign (x k i)) := by
  have e : siteProd sys sys.hs.expVd x i = siteProd sys sys.hs.expVu (fun k j => 1 - x k j) i := by
    unfold siteProd
    exact Finset.prod_congr rfl fun k _ => (hc i).reversed _
  rw [e, siteProd_up hc]
  simp only [fieldSign_flip, Finset.sum_neg_distrib]

theorem sign_parity (x : Field L N) (i : Fin N) : (∑ k, fieldSign (x k i)) % 2 = (L : ℤ) % 2 := by
  have : ∀ s : Finset (Fin L), (∑ k ∈ s, fieldSign (x k i)) % 2 = (s.card : ℤ) % 2 := by
    intro s
    induction s using Finset.cons_induction with
    | empty => simp
    | cons k s hk ih =>
      rw [Finset.sum_cons, Finset.card_cons]
      have : fieldSign (x k i) = 1 ∨ fieldSign (x k i) = -1 := by
        generalize x k i = b
        fin_cases b
        · right; rfl
        · left; rfl
      push_cast
      rcases this with h | h <;> rw [h] <;> omega
  have h := this Finset.univ
  rwa [Finset.card_univ, Fintype.card_fin] at h

theorem sum_flip {l : ℕ} (hl : l < L) (x : Field L N) (i : Fin N) :
    ∑ k, fieldSign (flipAt l i x k i) = (∑ k, fieldSign (x k i)) - 2 * fieldSign (x ⟨l, hl⟩ i) := by
  rw [← Finset.add_sum_erase _ _ (Finset.mem_univ (⟨l, hl⟩ : Fin L)),
    ← Finset.add_sum_erase Finset.univ (fun k => fieldSign (x k i)) (Finset.mem_univ (⟨l, hl⟩ : Fin L))]
  have e : ∑ k ∈ Finset.univ.erase (⟨l, hl⟩ : Fin L), fieldSign (flipAt l i x k i)
      = ∑ k ∈ Finset.univ.erase (⟨l, hl⟩ : Fin L), fieldSign (x k i) := by
    refine Finset.sum_congr rfl fun k hk => ?_
    rw [flipAt_apply]
    have : k.val ≠ l := fun h => (Finset.mem_erase.1 hk).1 (Fin.ext h)
    simp [this]
  rw [e, flipAt_apply]
  simp only [and_self, if_true, fieldSign_flip]
  ring

/-- Without hopping and with an even number of time slices, reversing an entry always changes the weight, unless the
field does not act on the site. -/
theorem responsive_atomic (hc : ∀ i, Consistent sys.hs (sys.orb i)) {d : Fin N → ℝ} (hd : ∀ i, 0 < d i)
    (hK : sys.expK = Matrix.diagonal d) (hL : Even L) : Responsive sys L := by
  intro i
  by_cases ha : sys.hs.expVu 1 (sys.orb i) = 1
  · left
    have h0 : sys.hs.expVu 0 (sys.orb i) = 1 := by
      have := (hc i).reciprocal 0
      rw [show (1 : Fin 2) - 0 = 1 from rfl, ha, mul_one] at this
      exact this
    have h1 := (hc i).reversed 0
    have h2 := (hc i).reversed 1
    rw [show (1 : Fin 2) - 0 = 1 from rfl] at h1
    rw [show (1 : Fin 2) - 1 = 0 from rfl] at h2
    exact ⟨by rw [h0, ha], by rw [h1, h2, h0, ha]⟩
  · right
    intro l hl x
    set a := sys.hs.expVu 1 (sys.orb i) with hadef
    have ha0 : 0 < a := ((hc i).pos 1).1
    set m := ∑ k, fieldSign (x k i) with hm
    set z := d i ^ L with hz
    have hz0 : 0 < z := pow_pos (hd i) L
    rw [weight_atomic hK, weight_atomic hK, ← Finset.mul_prod_erase _ _ (Finset.mem_univ i),
      ← Finset.mul_prod_erase Finset.univ (fun j => |(1 + siteProd sys sys.hs.expVu x j * d j ^ L) *
        (1 + siteProd sys sys.hs.expVd x j * d j ^ L)|) (Finset.mem_univ i)]
    have hpos : ∀ j, 0 < |(1 + siteProd sys sys.hs.expVu x j * d j ^ L) * (1 + siteProd sys sys.hs.expVd x j * d j ^ L)| := by
      intro j
      rw [siteProd_up hc, siteProd_down hc]
      have h1 := zpow_pos ((hc j).pos 1).1 (∑ k, fieldSign (x k j))
      have h2 := zpow_pos ((hc j).pos 1).1 (-∑ k, fieldSign (x k j))
      have h3 := pow_pos (hd j) L
      refine abs_pos.2 (mul_pos ?_ ?_).ne' <;> positivity
    have hrest : ∏ j ∈ Finset.univ.erase i, |(1 + siteProd sys sys.hs.expVu (flipAt l i x) j * d j ^ L) *
        (1 + siteProd sys sys.hs.expVd (flipAt l i x) j * d j ^ L)|
        = ∏ j ∈ Finset.univ.erase i, |(1 + siteProd sys sys.hs.expVu x j * d j ^ L) *
        (1 + siteProd sys sys.hs.expVd x j * d j ^ L)| := by
      refine Finset.prod_congr rfl fun j hj => ?_
      have hj : j ≠ i := (Finset.mem_erase.1 hj).1
      have e : ∀ expV, siteProd sys expV (flipAt l i x) j = siteProd sys expV x j := by
        intro expV
        unfold siteProd
        rw [flipAt_apply]
        simp [hj]
      rw [e, e]
    rw [hrest]
    intro hcon
    have h1 := mul_right_cancel₀ (Finset.prod_pos fun j _ => hpos j).ne' hcon
    rw [siteProd_up hc, siteProd_down hc, siteProd_up hc, siteProd_down hc, sum_flip hl, ← hm, ← hadef, ← hz] at h1
    have hs : fieldSign (x ⟨l, hl⟩ i) = 1 ∨ fieldSign (x ⟨l, hl⟩ i) = -1 := by
      generalize x ⟨l, hl⟩ i = b
      fin_cases b
      · right; rfl
      · left; rfl
    have hpar : m % 2 = 0 := by
      rw [hm, sign_parity]
      obtain ⟨k, rfl⟩ := hL
      omega
    generalize fieldSign (x ⟨l, hl⟩ i) = e at h1 hs
    have hp : ∀ k : ℤ, 0 < a ^ k := fun k => zpow_pos ha0 k
    rw [abs_of_pos (mul_pos (by have := hp (m - 2 * e); positivity) (by have := hp (-(m - 2 * e)); positivity)),
      abs_of_pos (mul_pos (by have := hp m; positivity) (by have := hp (-m); positivity))] at h1
    have e1 : a ^ (-(m - 2 * e)) = (a ^ (m - 2 * e))⁻¹ := zpow_neg _ _
    have e2 : a ^ (-m) = (a ^ m)⁻¹ := zpow_neg _ _
    rw [e1, e2] at h1
    have hA := hp (m - 2 * e)
    have hB := hp m
    have hinj : Function.Injective fun k : ℤ => a ^ k := zpow_right_injective₀ ha0 ha
    have h2 : (a ^ (m - 2 * e) - a ^ m) * (a ^ (m - 2 * e) * a ^ m - 1) = 0 := by
      have h3 : z * (a ^ (m - 2 * e) + (a ^ (m - 2 * e))⁻¹) = z * (a ^ m + (a ^ m)⁻¹) := by
        have c1 : a ^ (m - 2 * e) * (a ^ (m - 2 * e))⁻¹ = 1 := mul_inv_cancel₀ hA.ne'
        have c2 : a ^ m * (a ^ m)⁻¹ = 1 := mul_inv_cancel₀ hB.ne'
        linear_combination h1 - z ^ 2 * c1 + z ^ 2 * c2
      have h4 := mul_left_cancel₀ hz0.ne' h3
      have c1 : a ^ (m - 2 * e) * (a ^ (m - 2 * e))⁻¹ = 1 := mul_inv_cancel₀ hA.ne'
      have c2 : a ^ m * (a ^ m)⁻¹ = 1 := mul_inv_cancel₀ hB.ne'
      linear_combination a ^ (m - 2 * e) * a ^ m * h4 - a ^ m * c1 + a ^ (m - 2 * e) * c2
    rcases mul_eq_zero.1 h2 with h3 | h3
    · have := hinj (sub_eq_zero.1 h3)
      omega
    · have h4 : a ^ (m - 2 * e + m) = a ^ (0 : ℤ) := by
        rw [zpow_add₀ ha0.ne', zpow_zero]
        linarith
      have := hinj h4
      omega

end atomic

variable {σ : Type} [MeasurableSpace σ] {P : Measure σ} {mc : Machine} {p : SimParams ℝ}

theorem decoupled_of_zero {σ M : Type} {N Norb : ℕ} {sys : Sys σ N M} {K : Mat N} {U : ℕ → ℝ} {dt : ℝ}
    (hD : Describes sys Norb K U dt) {i : Fin N} (h : U (sys.orb i) = 0) : Decoupled sys i := by
  have hz := fill_zero _ _ _ _ hD.hs (sys.orb i) h
  exact ⟨by rw [(hz 0).1, (hz 1).1], by rw [(hz 0).2.1, (hz 1).2.1]⟩

/-- the field does not act on a site exactly if the interaction vanishes there -/
theorem decoupled_iff {σ M : Type} {N Norb : ℕ} {sys : Sys σ N M} {K : Mat N} {U : ℕ → ℝ} {dt : ℝ}
    (hD : Describes sys Norb K U dt) (hdt : 0 < dt) (i : Fin N) : Decoupled sys i ↔ U (sys.orb i) = 0 := by
  refine ⟨?_, decoupled_of_zero hD⟩
  · rintro ⟨h, -⟩
    by_contra hU
    have hpos : 0 < dt * U (sys.orb i) := lt_of_le_of_ne (hD.nonneg _ (hD.orb i)) (mul_ne_zero hdt.ne' hU).symm
    have hc := fill_consistent _ _ _ _ hD.hs _ (hD.orb i)
    have hdel : sys.hs.delta 0 (sys.orb i) = delta0 (U (sys.orb i)) dt := by
      have hf := hD.hs
      unfold fill at hf
      split at hf
      · cases hf
      · rw [← Option.some.inj hf]
        rfl
    have h1 := hc.flipUp 0
    rw [show (1 : Fin 2) - 0 = 1 from rfl, ← h, hdel] at h1
    have h2 := delta0_pos hpos
    nlinarith [(hc.pos 0).1]

/-- C90 for accepted parameters within the guards: let the generator be replaced by an ideal source `rng`, and let
reversing an entry of the field change the weight wherever the interaction does not vanish. From any initial field, the
quotients of the arrays and of the sum of the signs converge in probability to the expectation values in the Hubbard
model, as the number `nsampl` of iterations grows. -/
theorem program_converges [NeZero (sites p)] (hmc : mc.Rounds) (hv : Admissible p) (hg : Guards p)
    (hN : sites p < 2 ^ 31) (hp : p.usePhonons = false) (fnbase : String) (rng : Rng σ) (hlaw : rng.Lawful (sites p))
    (hP : rng.Ideal (sites p) P) (sys : Sys Seed (sites p) MeasData) (hsys : sysOf mc p = some sys)
    (hw : ∀ s, sys.weight p.L.toNat s (fun _ _ => 1) ≠ 0)
    (hr : ∀ i : Fin (sites p), p.U ((i.val / (p.Nx.toNat * p.Ny.toNat) : ℕ) : ℤ) = 0 ∨
      ∀ l < p.L.toNat, ∀ x : Field p.L.toNat (sites p),
        sys.weight p.L.toNat (Fock.extend (flipAt l i x)) (fun _ _ => 1)
          ≠ sys.weight p.L.toNat (Fock.extend x) (fun _ _ => 1))
    (hnq : 0 ≤ p.nequil) (X expX : ℕ → Fin (sites p) → ℝ) (cnt : Counters) (maxNsampl : ℕ) :
    let L := p.L.toNat
    let cfg := (mkSetup mc p fnbase).cfg
    let sys' := sys.withRng rng
    ∃ R : ℕ → Field L (sites p) → σ → LoopResult (State σ (sites p) MeasData),
      (∀ (n : ℕ) x r, simulate sys' (mkSetup mc p fnbase).ph { cfg with nsampl := n } (fun _ => false) 0 r
        (Fock.extend x) X expX cnt (MeasData.allocate maxNsampl) = some (R n x r)) ∧
      (0 < p.neqlt → p.neqlt ≤ p.L →
        EqHolds p.Nx.toNat p.Ny.toNat p.Norb.toNat p.pbcShift 0 (thermalMean (hubbardStep p) L) fun f z v =>
          Converges P (fun n x r => (R n x r).state.meas.eq.arr f z / (R n x r).state.meas.eq.sign) v) ∧
      (0 < p.nuneqlt →
        UneqHolds p.Nx.toNat p.Ny.toNat p.Norb.toNat L p.pbcShift 0 (p.Nx.toNat = 1 ↔ p.Ny.toNat = 1)
          (thermalPair (hubbardStep p) L) fun f z v =>
          Converges P (fun n x r => (R n x r).state.meas.uneq.arr f z / (R n x r).state.meas.uneq.sign) v) := by
  intro L cfg sys'
  have h1 := hv.norb
  have h2 := hv.nx
  have h3 := hv.ny
  have h4 := hv.l
  obtain ⟨sys0, e0, hok0, -, hmeas⟩ := sys_defined hmc hv hg.U hg.shift hN fnbase
  obtain rfl : sys0 = sys := Option.some.inj (e0.symm.trans hsys)
  have hok : sys'.Ok cfg.prodBlen := ⟨hok0.expK, hok0.hs, hlaw, hok0.dvd⟩
  have hL : 0 < cfg.L := by show 0 < p.L.toNat; omega
  have hd : cfg.prodBlen ∣ cfg.L := toNat_dvd hv.prodBlen hv.l hv.dvdL
  have hw' : ∀ x : Field cfg.L (sites p), sys'.weight cfg.L (Fock.extend x) (fun _ _ => 1) ≠ 0 := fun x => hw _
  have hP' : sys'.rng.Ideal (sites p) P := hP
  obtain ⟨f, -, hf⟩ := hP.shuffle
  have hdef : ∀ (n : ℕ) (x : Field cfg.L (sites p)) (r : σ), ∃ R, simulate sys' (mkSetup mc p fnbase).ph
      { cfg with nsampl := n } (fun _ => false) 0 r (Fock.extend x) X expX cnt (MeasData.allocate maxNsampl)
        = some R := fun n x r =>
    simulate_defined (cfg := { cfg with nsampl := n }) hok hL hd hp (fun _ => false) 0 r _ X expX cnt _ (hw' x) (fun r => by
      show rng.shuffle _ r ≠ none
      rw [hf r]
      simp) (fun gu gd m => eq_defined hv hg hmeas gu gd m)
      (fun hn st hst => uneq_defined (sys := sys') hv hg hn rfl rfl hmeas st hst st.meas)
  choose R hR using hdef
  obtain ⟨ho, hdes⟩ := program_describes hv hg sys0 hsys
  have hD : Describes sys' p.Norb.toNat (bondMatrix p) (fun o => p.U o) p.dt := ⟨hdes.nonneg, hdes.orb, hdes.hs, hdes.expK⟩
  have hstep : stepOf sys' (bondMatrix p) (fun o => p.U o) p.dt = hubbardStep p := by
    unfold stepOf hubbardStep
    have : ∀ i, sys'.orb i = i.val / (p.Nx.toNat * p.Ny.toNat) := ho
    simp only [this]
  have hNN : sites p = p.Nx.toNat * p.Ny.toNat * p.Norb.toNat := by unfold sites; ring
  have hr' : Responsive sys' cfg.L := by
    intro i
    rcases hr i with h | h
    · exact Or.inl (decoupled_of_zero hD (by rw [show sys'.orb i = _ from ho i]; exact h))
    · exact Or.inr h
  refine ⟨R, hR, fun hc hcL => ?_, fun hc => ?_⟩
  · have h := equal_times_converge hP' hok hL hd hp hnq (by omega) (by omega) hNN hg.shift hmeas (bondMatrix_symm p) hD
      hw' hr' hc (by show p.neqlt ≤ (p.L.toNat : ℤ); omega) X expX cnt _ rfl R hR
    rw [hstep] at h
    exact h
  · have h := unequal_times_converge hP' hok hL hd hp hnq (by omega) (by omega) hNN hg.shift hmeas (bondMatrix_symm p) hD
      hw' hr' hc X expX cnt _ rfl R hR
    rw [hstep] at h
    exact h

theorem EqHolds.mono {N Nx Ny Norb : ℕ} [NeZero N] {s t : ℤ} {T : Op (Mode N) → ℝ} {R R' : EqF → ℤ → ℝ → Prop}
    (h : EqHolds Nx Ny Norb s t T R) (hi : ∀ f z v, R f z v → R' f z v) : EqHolds Nx Ny Norb s t T R' :=
  ⟨fun f hf o ho => hi _ _ _ (h.dens f hf o ho), fun f hf o p ho hp dx dy => hi _ _ _ (h.corr f hf o p ho hp dx dy),
    fun f hf o ho dx dy => hi _ _ _ (h.pair f hf o ho dx dy), fun a b => hi _ _ _ (h.grfunU a b),
    fun a b => hi _ _ _ (h.grfunD a b)⟩

theorem UneqHolds.mono {N Nx Ny Norb L : ℕ} [NeZero N] {s t : ℤ} {b1 : Prop} {T : ℕ → Op (Mode N) → Op (Mode N) → ℝ}
    {R R' : UneqF → ℤ → ℝ → Prop} (h : UneqHolds Nx Ny Norb L s t b1 T R) (hi : ∀ f z v, R f z v → R' f z v) :
    UneqHolds Nx Ny Norb L s t b1 T R' :=
  ⟨fun f hf l o p hl ho hp dx dy => hi _ _ _ (h.corr f hf l o p hl ho hp dx dy),
    fun f hf hb l o hl ho dx dy => hi _ _ _ (h.pair f hf hb l o hl ho dx dy)⟩

/-- what holds for any initial field holds for the random one -/
theorem Converges.fresh {N L : ℕ} {rng : Rng σ} (hP : rng.Ideal N P) {X : ℕ → Field L N → σ → ℝ} {t : ℝ}
    (h : Converges P X t) :
    Converges P (fun n (_ : Unit) r => X n (freshField rng L N r).1 (freshField rng L N r).2) t := by
  have := hP.prob
  have := equi_prob (Field L N)
  obtain ⟨A, hA⟩ := h
  refine ⟨A, fun n hn _ ε hε => ?_⟩
  have hf := freshField_preserving (L := L) hP
  set S : Set (Field L N × σ) := {q | ε ≤ |X n q.1 q.2 - t|} with hS
  set B := A * (1 + 1 / ε ^ 2) / n with hB
  have hB0 : 0 ≤ B := (measureReal_nonneg).trans (hA n hn (fun _ _ => 0) ε hε)
  have h1 : P (freshField rng L N ⁻¹' S) ≤ ((equi (Field L N)).prod P) S := by
    have := Measure.le_map_apply (μ := P) hf.measurable.aemeasurable S
    rwa [hf.map_eq] at this
  have h2 : ((equi (Field L N)).prod P) S ≤ ENNReal.ofReal B := by
    calc ((equi (Field L N)).prod P) S
        ≤ ((equi (Field L N)).prod P) (⋃ x, {x} ×ˢ {r | ε ≤ |X n x r - t|}) :=
          measure_mono fun q hq => Set.mem_iUnion.2 ⟨q.1, rfl, hq⟩
      _ ≤ ∑ x, ((equi (Field L N)).prod P) ({x} ×ˢ {r | ε ≤ |X n x r - t|}) := measure_iUnion_fintype_le _ _
      _ ≤ ∑ x : Field L N, equi (Field L N) {x} * ENNReal.ofReal B := by
          refine Finset.sum_le_sum fun x _ => ?_
          rw [Measure.prod_prod]
          gcongr
          rw [ENNReal.le_ofReal_iff_toReal_le (measure_ne_top _ _) hB0]
          exact hA n hn x ε hε
      _ = ENNReal.ofReal B := by
          rw [← Finset.sum_mul, sum_measure_singleton, Finset.coe_univ, measure_univ, one_mul]
  exact ENNReal.toReal_le_of_le_ofReal hB0 (h1.trans h2)

/-- C90 for runs from scratch: `main` draws the initial field from the source -/
theorem program_fresh_converges [NeZero (sites p)] (hmc : mc.Rounds) (hv : Admissible p) (hg : Guards p)
    (hN : sites p < 2 ^ 31) (hp : p.usePhonons = false) (fnbase : String) (rng : Rng σ) (hlaw : rng.Lawful (sites p))
    (hP : rng.Ideal (sites p) P) (sys : Sys Seed (sites p) MeasData) (hsys : sysOf mc p = some sys)
    (hw : ∀ s, sys.weight p.L.toNat s (fun _ _ => 1) ≠ 0)
    (hr : ∀ i : Fin (sites p), p.U ((i.val / (p.Nx.toNat * p.Ny.toNat) : ℕ) : ℤ) = 0 ∨
      ∀ l < p.L.toNat, ∀ x : Field p.L.toNat (sites p),
        sys.weight p.L.toNat (Fock.extend (flipAt l i x)) (fun _ _ => 1)
          ≠ sys.weight p.L.toNat (Fock.extend x) (fun _ _ => 1))
    (hnq : 0 ≤ p.nequil) (X expX : ℕ → Fin (sites p) → ℝ) (cnt : Counters) (maxNsampl : ℕ) :
    let L := p.L.toNat
    let cfg := (mkSetup mc p fnbase).cfg
    let sys' := sys.withRng rng
    ∃ R : ℕ → σ → LoopResult (State σ (sites p) MeasData),
      (∀ (n : ℕ) r, simulate sys' (mkSetup mc p fnbase).ph { cfg with nsampl := n } (fun _ => false) 0
        (freshField rng L (sites p) r).2 (Fock.extend (freshField rng L (sites p) r).1) X expX cnt
        (MeasData.allocate maxNsampl) = some (R n r)) ∧
      (0 < p.neqlt → p.neqlt ≤ p.L →
        EqHolds p.Nx.toNat p.Ny.toNat p.Norb.toNat p.pbcShift 0 (thermalMean (hubbardStep p) L) fun f z v =>
          Converges P (fun n (_ : Unit) r => (R n r).state.meas.eq.arr f z / (R n r).state.meas.eq.sign) v) ∧
      (0 < p.nuneqlt →
        UneqHolds p.Nx.toNat p.Ny.toNat p.Norb.toNat L p.pbcShift 0 (p.Nx.toNat = 1 ↔ p.Ny.toNat = 1)
          (thermalPair (hubbardStep p) L) fun f z v =>
          Converges P (fun n (_ : Unit) r => (R n r).state.meas.uneq.arr f z / (R n r).state.meas.uneq.sign) v) := by
  intro L cfg sys'
  obtain ⟨R, h1, h2, h3⟩ := program_converges hmc hv hg hN hp fnbase rng hlaw hP sys hsys hw hr hnq X expX cnt maxNsampl
  exact ⟨fun n r => R n (freshField rng L (sites p) r).1 (freshField rng L (sites p) r).2, fun n r => h1 n _ _,
    fun hc hcL => (h2 hc hcL).mono fun f z v h => h.fresh hP, fun hc => (h3 hc).mono fun f z v h => h.fresh hP⟩

/-- the conditions on the weights hold without hopping for any even number of time slices -/
theorem atomic_conditions (hv : Admissible p) (hg : Guards p) (hd : ∀ i j, i ≠ j → bondMatrix p i j = 0) (hL : Even p.L.toNat)
    (sys : Sys Seed (sites p) MeasData) (hsys : sysOf mc p = some sys) :
    (∀ x : Field p.L.toNat (sites p), sys.weight p.L.toNat (Fock.extend x) (fun _ _ => 1) ≠ 0) ∧
    Responsive sys p.L.toNat := by
  obtain ⟨-, hD⟩ := program_describes hv hg sys hsys
  have hc : ∀ i, Consistent sys.hs (sys.orb i) := fun i =>
    fill_consistent _ _ _ _ hD.hs _ (hD.orb i)
  have hK : sys.expK = Matrix.diagonal fun i => Real.exp (-p.dt * bondMatrix p i i) := by
    have e : -p.dt • bondMatrix p = Matrix.diagonal fun i => -p.dt * bondMatrix p i i := by
      ext i j
      rw [Matrix.smul_apply, Matrix.diagonal_apply, smul_eq_mul]
      split
      · next h => rw [h]
      · next h => rw [hd i j h, mul_zero]
    rw [hD.expK, e, Matrix.exp_diagonal]
    congr 1
    funext i
    rw [Pi.coe_exp, ← Real.exp_eq_exp_ℝ]
  refine ⟨fun x => ?_, responsive_atomic hc (fun i => Real.exp_pos _) hK hL⟩
  rw [weight_atomic hK]
  refine Finset.prod_ne_zero_iff.2 fun i _ => ?_
  rw [siteProd_up hc, siteProd_down hc]
  have h1 := zpow_pos ((hc i).pos 1).1 (∑ k, fieldSign (x k i))
  have h2 := zpow_pos ((hc i).pos 1).1 (-∑ k, fieldSign (x k i))
  refine (abs_pos.2 (mul_pos ?_ ?_).ne').ne' <;> positivity

/-- non-vacuity: the small system with two time slices and an ideal source satisfies all hypotheses -/
theorem exU_conditions : ∃ mc : Machine, ∃ sys : Sys Seed (sites exU) MeasData, mc.Rounds ∧ Admissible exU ∧ Guards exU ∧
    sysOf mc exU = some sys ∧ (∀ s, sys.weight exU.L.toNat s (fun _ _ => 1) ≠ 0) ∧
    (∀ i : Fin (sites exU), exU.U ((i.val / (exU.Nx.toNat * exU.Ny.toNat) : ℕ) : ℤ) = 0 ∨
      ∀ l < exU.L.toNat, ∀ x : Field exU.L.toNat (sites exU),
        sys.weight exU.L.toNat (Fock.extend (flipAt l i x)) (fun _ _ => 1)
          ≠ sys.weight exU.L.toNat (Fock.extend x) (fun _ _ => 1)) ∧
    (idealRng (sites exU)).Lawful (sites exU) ∧
    (idealRng (sites exU)).Ideal (sites exU) (independent (drawDist (sites exU))) ∧
    0 ≤ exU.nequil ∧ 0 < exU.neqlt ∧ exU.neqlt ≤ exU.L ∧ 0 < exU.nuneqlt := by
  obtain ⟨mc, hmc⟩ := machine_exists
  obtain ⟨sys, hsys, hok, -⟩ := sys_defined hmc exU_admissible exU_guards.U exU_guards.shift (by decide) ""
  have hdiag : ∀ i j, i ≠ j → bondMatrix exU i j = 0 := fun i j h => absurd (Subsingleton.elim (α := Fin 1) i j) h
  obtain ⟨ho, hD⟩ := program_describes exU_admissible exU_guards sys hsys
  obtain ⟨-, hr⟩ := atomic_conditions exU_admissible exU_guards hdiag (by decide) sys hsys
  refine ⟨mc, sys, hmc, exU_admissible, exU_guards, hsys, fun s =>
    weight_one_site hmc exU_admissible exU_guards rfl sys hsys _ s _ fun _ _ => one_pos, fun i => ?_, idealRng_lawful _,
    idealRng_ideal _, by decide, by decide, by decide, by decide⟩
  rcases hr i with h | h
  · left
    rw [← ho i]
    exact (decoupled_iff hD (by norm_num [exU, exP]) i).1 h
  · exact Or.inr h

end Verif.MonteCarlo
