import Verif.Props.ConvergenceProgram

/-! # Property C89: not every field can be reached

A proposal is accepted if the uniform random number is smaller than the ratio of the weights. A ratio of one is therefore
accepted always, and a sweep visits every site exactly once: where the weight does not depend on the field, the entries
of the field are reversed in every sweep. -/

set_option autoImplicit false

namespace Verif.MonteCarlo

open MeasureTheory Verif.Metropolis Verif.Fock Verif.Greens Verif.Progress Verif.Ergodic Verif.Measurement Verif.Main
open Verif.Random Verif.Params

variable {σ : Type} {N : ℕ} {M : Type}

/-! ## Specification -/

/-- reversing the entries at site `i` never changes the weight -/
def Indifferent (sys : Sys σ N M) (L : ℕ) (i : Fin N) : Prop :=
  ∀ l < L, ∀ x : Field L N, sys.weight L (Fock.extend (flipAt l i x)) (fun _ _ => 1)
    = sys.weight L (Fock.extend x) (fun _ _ => 1)

/-- value of an entry after it has been reversed `n` times -/
def reversed (n : ℕ) (b : Fin 2) : Fin 2 := if n % 2 = 0 then b else 1 - b

/-! ## Proofs -/

theorem Decoupled.indifferent {sys : Sys σ N M} {L : ℕ} {i : Fin N} (h : Decoupled sys i) : Indifferent sys L i :=
  fun l _ x => wt_flip h l x

theorem reversed_succ (n : ℕ) (b : Fin 2) : reversed (n + 1) b = reversed n (1 - b) := by
  unfold reversed
  have hb : (1 : Fin 2) - (1 - b) = b := by fin_cases b <;> rfl
  rcases Nat.mod_two_eq_zero_or_one n with h | h
  · rw [if_pos h, if_neg (by omega)]
  · rw [if_pos (show (n + 1) % 2 = 0 by omega), if_neg (show ¬ n % 2 = 0 by omega), hb]

section

variable [MeasurableSpace σ] {P : Measure σ} {sys : Sys σ N M} {L l : ℕ} {j : Fin N}

/-- what holds almost surely for all elements holds almost surely after a step -/
theorem fresh_ae {A B : Type} [Countable B] [MeasurableSpace B] [MeasurableSingletonClass B]
    [IsProbabilityMeasure P] {step : A → σ → B × σ} (h : Ergodic.Fresh P step) {Q : B → σ → Prop}
    (hQ : ∀ y, ∀ᵐ r ∂P, Q y r) (x : A) : ∀ᵐ r ∂P, Q (step x r).1 (step x r).2 := by
  obtain ⟨ν, hν, hs⟩ := h x
  have h1 : ∀ᵐ q ∂(ν.prod P), Q q.1 q.2 := by
    rw [ae_iff]
    refine measure_mono_null (t := ⋃ y, Set.univ ×ˢ {r | ¬Q y r}) (fun q hq => Set.mem_iUnion.2 ⟨q.1, trivial, hq⟩) ?_
    rw [measure_iUnion_null_iff]
    intro y
    rw [Measure.prod_prod, ae_iff.1 (hQ y), mul_zero]
  exact hs.quasiMeasurePreserving.ae h1

theorem unit_lt_one : ∀ᵐ u ∂unit, u < 1 := by
  have h := unit_lt 1
  rw [min_self, ENNReal.ofReal_one] at h
  exact (mem_ae_iff_prob_eq_one measurableSet_Iio).2 h

theorem site_reversed (hP : sys.rng.Ideal N P) (hw : ∀ x : Field L N, sys.weight L (Fock.extend x) (fun _ _ => 1) ≠ 0)
    (hj : Indifferent sys L j) (hl : l < L) (i : Fin N) (x : Field L N) (k : Fin L) :
    ∀ᵐ r ∂P, (siteStep sys L l i x r).1 k j = if k.val = l ∧ i = j then 1 - x k j else x k j := by
  have hu : ∀ᵐ r ∂P, (sys.rng.uniform r).1 < 1 :=
    (Measure.quasiMeasurePreserving_fst.comp hP.uniform.quasiMeasurePreserving).ae unit_lt_one
  filter_upwards [hu] with r hr
  rw [siteStep_eq]
  beta_reduce
  by_cases h : i = j
  · subst h
    have e : wt sys L (flipAt l i x) / wt sys L x = 1 := by
      rw [show wt sys L (flipAt l i x) = wt sys L x from hj l hl x]
      exact div_self (hw x)
    rw [e, if_pos hr, flipAt_apply]
  · have e : flipAt l i x k j = x k j := by
      rw [flipAt_apply]
      simp [Ne.symm h]
    have e2 : (if k.val = l ∧ i = j then 1 - x k j else x k j) = x k j := if_neg fun hc => h hc.2
    rw [e2]
    split
    · exact e
    · rfl

theorem order_fresh (hP : sys.rng.Ideal N P) (order : List (Fin N)) : Ergodic.Fresh P (orderStep sys L l order) := by
  have := hP.prob
  induction order with
  | nil => exact fresh_id
  | cons i order ih => exact (site_fresh hP i).andThen ih

theorem order_reversed (hP : sys.rng.Ideal N P) (hw : ∀ x : Field L N, sys.weight L (Fock.extend x) (fun _ _ => 1) ≠ 0)
    (hj : Indifferent sys L j) (hl : l < L) (order : List (Fin N)) (ho : order.Nodup) (x : Field L N) (k : Fin L) :
    ∀ᵐ r ∂P, (orderStep sys L l order x r).1 k j = if k.val = l ∧ j ∈ order then 1 - x k j else x k j := by
  have := hP.prob
  induction order generalizing x with
  | nil =>
    refine Filter.Eventually.of_forall fun r => ?_
    simp [orderStep]
  | cons i order ih =>
    obtain ⟨h1, h2⟩ := List.nodup_cons.1 ho
    have h3 := fresh_ae (site_fresh (L := L) (l := l) hP i) (ih h2) x
    filter_upwards [h3, site_reversed hP hw hj hl i x k] with r a b
    refine Eq.trans a ?_
    rw [b]
    by_cases hk : k.val = l
    · by_cases hi : i = j
      · subst hi
        simp [hk, h1]
      · simp [hk, hi, Ne.symm hi]
    · simp [hk]

variable {f : σ → Equiv.Perm (Fin N) × σ} (hf : MeasurePreserving f P ((equi (Equiv.Perm (Fin N))).prod P))

include hf in
theorem slice_fresh (hP : sys.rng.Ideal N P) : Ergodic.Fresh P (sliceStep sys f L l) := by
  have := hP.prob
  have := equi_prob (Equiv.Perm (Fin N))
  have e : sliceStep sys f L l = andThen (fun x r => ((fun x p => (x, p)) x (f r).1, (f r).2))
      (fun q r => orderStep sys L l ((List.finRange N).map q.2) q.1 r) := rfl
  have h1 : Ergodic.Fresh P fun (x : Field L N) r => ((fun x p => (x, p)) x (f r).1, (f r).2) :=
    Fresh.of_draw hf fun x => Measurable.of_discrete
  rw [e]
  exact h1.andThen fun q => order_fresh hP _ q.1

include hf in
theorem slice_reversed (hP : sys.rng.Ideal N P) (hw : ∀ x : Field L N, sys.weight L (Fock.extend x) (fun _ _ => 1) ≠ 0)
    (hj : Indifferent sys L j) (hl : l < L) (x : Field L N) (k : Fin L) :
    ∀ᵐ r ∂P, (sliceStep sys f L l x r).1 k j = if k.val = l then 1 - x k j else x k j := by
  have := hP.prob
  have := equi_prob (Equiv.Perm (Fin N))
  have h1 : Ergodic.Fresh P fun (x : Field L N) r => ((fun x p => (x, p)) x (f r).1, (f r).2) :=
    Fresh.of_draw hf fun x => Measurable.of_discrete
  have h2 := fresh_ae h1 (Q := fun q r => (orderStep sys L l ((List.finRange N).map q.2) q.1 r).1 k j
      = if k.val = l then 1 - q.1 k j else q.1 k j) (fun q => by
    filter_upwards [order_reversed hP hw hj hl ((List.finRange N).map q.2)
      ((List.nodup_finRange N).map q.2.injective) q.1 k] with r hr
    rw [hr]
    have : j ∈ (List.finRange N).map q.2 := List.mem_map.2 ⟨q.2.symm j, List.mem_finRange _, q.2.apply_symm_apply j⟩
    simp [this]) x
  exact h2

variable {m : ℕ} [NeZero m]

/-- how often `n` time slices starting with slice `t` meet slice `k` -/
def visits (L k : ℕ) : ℕ → ℕ → ℕ
  | _, 0 => 0
  | t, n + 1 => (if k = t % L then 1 else 0) + visits L k (t + 1) n

theorem visits_add (L k t a b : ℕ) : visits L k t (a + b) = visits L k t a + visits L k (t + a) b := by
  induction a generalizing t with
  | zero => simp [visits]
  | succ a ih => rw [Nat.succ_add, visits, visits, ih, Nat.add_assoc, Nat.add_comm a 1, Nat.add_assoc]

theorem visits_mod (L k t n : ℕ) : visits L k (t % L) n = visits L k t n := by
  induction n generalizing t with
  | zero => rfl
  | succ n ih => rw [visits, visits, Nat.mod_mod, ← ih (t + 1), ← ih (t % L + 1), Nat.mod_add_mod]

theorem visits_few (L k t n : ℕ) (h : t + n ≤ L) : visits L k t n = if t ≤ k ∧ k < t + n then 1 else 0 := by
  induction n generalizing t with
  | zero => rw [visits, if_neg (by omega)]
  | succ n ih =>
    rw [visits, ih _ (by omega), Nat.mod_eq_of_lt (by omega)]
    split_ifs <;> omega

theorem visits_sweeps (L k : ℕ) (hk : k < L) (n : ℕ) : visits L k 0 (n * L) = n := by
  induction n with
  | zero => rw [Nat.zero_mul]; rfl
  | succ n ih =>
    rw [Nat.succ_mul, visits_add, ih, ← visits_mod, Nat.zero_add, Nat.mul_mod_left, visits_few _ _ _ _ (by omega),
      if_pos (by omega)]

include hf in
theorem cycle_reversed {Q : ℕ} (hm : m = Q * L) (hP : sys.rng.Ideal N P)
    (hw : ∀ x : Field L N, sys.weight L (Fock.extend x) (fun _ _ => 1) ≠ 0)
    (hj : Indifferent sys L j) (k : Fin L) (n : ℕ) (t : ℕ) (x : Field L N) :
    ∀ᵐ r ∂P, (final (cycleStep sys f L m) n (Fin.ofNat m t, x) r).1.2 k j = reversed (visits L k t n) (x k j) := by
  have := hP.prob
  have hL : 0 < L := k.pos
  induction n generalizing t x with
  | zero =>
    refine Filter.Eventually.of_forall fun r => ?_
    rfl
  | succ n ih =>
    have h1 : Ergodic.Fresh P (fun (x : Field L N) r => sliceStep sys f L (t % L) x r) := slice_fresh hf hP
    have h2 := fresh_ae h1 (fun y => ih (t + 1) y) x
    filter_upwards [h2, slice_reversed hf hP hw hj (Nat.mod_lt t hL) x k] with r a b
    have e : cycleStep sys f L m (Fin.ofNat m t, x) r
        = ((Fin.ofNat m (t + 1), (sliceStep sys f L (t % L) x r).1), (sliceStep sys f L (t % L) x r).2) := by
      have e : (Fin.ofNat m t).val % L = t % L := by
        show t % m % L = _
        rw [hm, Nat.mod_mul_left_mod]
      unfold cycleStep
      rw [ofNat_succ]
      simp only [e]
    have e2 : final (cycleStep sys f L m) (n + 1) (Fin.ofNat m t, x) r
        = final (cycleStep sys f L m) n (Fin.ofNat m (t + 1), (sliceStep sys f L (t % L) x r).1)
          (sliceStep sys f L (t % L) x r).2 := by
      show final (cycleStep sys f L m) n (cycleStep sys f L m (Fin.ofNat m t, x) r).1
        (cycleStep sys f L m (Fin.ofNat m t, x) r).2 = _
      rw [e]
    rw [e2, a, b, visits]
    by_cases hk : k.val = t % L
    · rw [if_pos hk, if_pos hk, Nat.add_comm 1, reversed_succ]
    · rw [if_neg hk, if_neg hk, Nat.zero_add]

end

section

variable {sys : Sys σ N M} {ph : Phonon} {cfg : Cfg} {f : σ → Equiv.Perm (Fin N) × σ} {m : ℕ} [NeZero m]

theorem run_final (hp : cfg.usePhonons = false) (hL : 0 < cfg.L)
    (hf : ∀ r, sys.rng.shuffle N r = some ((List.finRange N).map (f r).1, (f r).2)) {Q : ℕ} (hm : m = Q * cfg.L)
    (hQ : 0 < cfg.nuneqlt → Q = cfg.nuneqlt.toNat) (n : ℕ) {w w' : Walk σ cfg.L N}
    (h : (chainOf sys ph cfg).run 0 n w = some w') :
    final (cycleStep sys f cfg.L m) (n * cfg.L) (Fin.ofNat m 0, w.conf.1) w.rng
      = ((Fin.ofNat m (n * cfg.L), w'.conf.1), w'.rng) := by
  have hit : ∀ j : ℕ, (0 : ℤ) + j = (j : ℤ) := fun j => zero_add _
  unfold Chain.run at h
  simp only [hit] at h
  induction n generalizing w' with
  | zero =>
    cases h
    rw [Nat.zero_mul]
    rfl
  | succ n ih =>
    obtain ⟨w1, e1, e2⟩ := foldlM_succ _ _ _ _ h
    obtain ⟨c, -⟩ := iteration_walk (q := fun _ _ => 0) (qu := fun _ => 0) hp hL hf hm hQ n e2
    rw [Nat.succ_mul, final_add, ih e1, c, Nat.succ_mul]

variable [MeasurableSpace σ] {P : Measure σ}

/-- C89: at sites where the weight does not depend on the field, the entries of the field are almost surely reversed in
every iteration, no matter which random numbers are drawn -/
theorem indifferent_reversed [NeZero N] (hP : sys.rng.Ideal N P) (hok : sys.Ok cfg.prodBlen) (hL : 0 < cfg.L)
    (hd : cfg.prodBlen ∣ cfg.L) (hp : cfg.usePhonons = false)
    (hw : ∀ x : Field cfg.L N, sys.weight cfg.L (Fock.extend x) (fun _ _ => 1) ≠ 0) {j : Fin N}
    (hj : Indifferent sys cfg.L j) (x : Field cfg.L N) (X expX : ℕ → Fin N → ℝ) (cnt : Counters) (meas : M)
    (R : σ → LoopResult (State σ N M))
    (hR : ∀ r, simulate sys ph cfg (fun _ => false) 0 r (Fock.extend x) X expX cnt meas = some (R r)) (k : Fin cfg.L) :
    ∀ᵐ r ∂P, (R r).state.s k j = reversed (cfg.nequil + cfg.nsampl).toNat (x k j) := by
  obtain ⟨f, hf, hfs⟩ := hP.shuffle
  have hm0 : cycleLen cfg * cfg.L ≠ 0 := Nat.mul_ne_zero (by unfold cycleLen; omega) (by omega)
  have : NeZero (cycleLen cfg * cfg.L) := ⟨hm0⟩
  have hQ : 0 < cfg.nuneqlt → cycleLen cfg = cfg.nuneqlt.toNat := fun h => by unfold cycleLen; omega
  filter_upwards [cycle_reversed (m := cycleLen cfg * cfg.L) hf rfl hP hw hj k ((cfg.nequil + cfg.nsampl).toNat * cfg.L) 0 x]
    with r hr
  obtain ⟨w, h1, h2, -⟩ := simulate_is_metropolis hok hL hd hp _ _ _ _ _ _ _ _ _ (hR r)
  rw [iterations_never, sub_zero] at h1
  have h3 := run_final (m := cycleLen cfg * cfg.L) hp hL hfs rfl hQ _ h1
  simp only [fieldOf_extend] at h3
  rw [h3, visits_sweeps _ _ k.2] at hr
  rw [← hr, ← h2]
  rfl

end

section

variable {sys : Sys σ N M} {ph : Phonon} {cfg : Cfg}

theorem final_position {f : σ → Equiv.Perm (Fin N) × σ} {L m : ℕ} [NeZero m] (t n : ℕ) (x : Field L N) (r : σ) :
    (final (cycleStep sys f L m) n (Fin.ofNat m t, x) r).1.1 = Fin.ofNat m (t + n) := by
  induction n with
  | zero => rfl
  | succ n ih =>
    rw [final_succ, ← Nat.add_assoc, ofNat_succ, ← ih]
    rfl

open Classical in
/-- counts the iterations after which the field is `y` -/
noncomputable def meets (L : ℕ) (y : Field L N) (c : ℕ) (y' : Field L N) : ℝ := if c % L + 1 = L ∧ y' = y then 1 else 0

theorem total_meets {f : σ → Equiv.Perm (Fin N) × σ} {L m Q : ℕ} [NeZero m] (hm : m = Q * L) (e n : ℕ) (x y : Field L N)
    (r : σ) (h : ∀ k, (final (cycleStep sys f L m) ((e + k) * L) (Fin.ofNat m 0, x) r).1.2 ≠ y) :
    total (cycleStep sys f L m) (fun z z' => meets L y z.1.val z'.2) n
      (final (cycleStep sys f L m) (e * L) (Fin.ofNat m 0, x) r).1
      (final (cycleStep sys f L m) (e * L) (Fin.ofNat m 0, x) r).2 = 0 := by
  induction n with
  | zero => rfl
  | succ n ih =>
    rw [total_succ, ih, zero_add, ← final_succ (step := cycleStep sys f L m), ← final_add, ← final_add, final_position]
    unfold meets
    rw [if_neg]
    rintro ⟨h1, h2⟩
    have h3 : (Fin.ofNat m (0 + (e * L + n))).val % L = n % L := by
      show (0 + (e * L + n)) % m % L = _
      rw [hm, Nat.mod_mul_left_mod, Nat.zero_add, Nat.mul_add_mod']
    rw [h3] at h1
    have h4 : n + 1 = (n / L + 1) * L := by
      rw [Nat.succ_mul]
      have := Nat.div_add_mod' n L
      omega
    refine h (n / L + 1) ?_
    rw [Nat.add_mul, ← h4]
    exact h2

variable [MeasurableSpace σ] {P : Measure σ}

/-- C89 holds if reversing an entry always changes the weight -/
theorem reachable_partial [NeZero N] (hP : sys.rng.Ideal N P) (hok : sys.Ok cfg.prodBlen) (hL : 0 < cfg.L)
    (hd : cfg.prodBlen ∣ cfg.L) (hp : cfg.usePhonons = false) (hnq : 0 ≤ cfg.nequil)
    (hw : ∀ x : Field cfg.L N, sys.weight cfg.L (Fock.extend x) (fun _ _ => 1) ≠ 0)
    (hr : ∀ l < cfg.L, ∀ (i : Fin N) (x : Field cfg.L N), sys.weight cfg.L (Fock.extend (flipAt l i x)) (fun _ _ => 1)
      ≠ sys.weight cfg.L (Fock.extend x) (fun _ _ => 1)) (x y : Field cfg.L N) (X expX : ℕ → Fin N → ℝ)
    (cnt : Counters) (meas : M) (R : ℕ → σ → LoopResult (State σ N M))
    (hR : ∀ (n : ℕ) r, simulate sys ph { cfg with nsampl := n } (fun _ => false) 0 r (Fock.extend x) X expX cnt meas
      = some (R n r)) : ∃ n, 0 < P {r | fieldOf cfg.L (R n r).state.s = y} := by
  classical
  have := hP.prob
  obtain ⟨f, hf, hfs⟩ := hP.shuffle
  have hm0 : cycleLen cfg * cfg.L ≠ 0 := Nat.mul_ne_zero (by unfold cycleLen; omega) (by omega)
  have : NeZero (cycleLen cfg * cfg.L) := ⟨hm0⟩
  have hQ : 0 < cfg.nuneqlt → cycleLen cfg = cfg.nuneqlt.toNat := fun h => by unfold cycleLen; omega
  obtain ⟨e, he⟩ := Int.eq_ofNat_of_zero_le hnq
  have hr' : Responsive sys cfg.L := fun i => Or.inr fun l hl x => hr l hl i x
  have hno : ∀ i, ¬ Decoupled sys i := fun i h => hr 0 hL i (fun _ _ => 0) (wt_flip h 0 _)
  by_contra hcon
  push Not at hcon
  have hzero : ∀ᵐ r ∂P, ∀ k, (final (cycleStep sys f cfg.L (cycleLen cfg * cfg.L)) ((e + k) * cfg.L)
      (Fin.ofNat (cycleLen cfg * cfg.L) 0, x) r).1.2 ≠ y := by
    rw [ae_all_iff]
    intro k
    have h0 : ∀ᵐ r ∂P, ¬ fieldOf cfg.L (R k r).state.s = y := by
      rw [ae_iff]
      simpa using hcon k
    filter_upwards [h0] with r hne
    obtain ⟨w, h1, h2, -⟩ := simulate_is_metropolis (cfg := { cfg with nsampl := k }) hok hL hd hp _ _ _ _ _ _ _ _ _ (hR k r)
    have hk : iterations (fun _ => false) (cfg.nequil + (k : ℤ) - 0).toNat 0 = e + k := by
      rw [iterations_never, he]
      omega
    have h4 : (chainOf sys ph { cfg with nsampl := k }).run 0 (e + k)
        ⟨(fieldOf cfg.L (Fock.extend x), pathsOf cfg.L X), r, cnt, [], []⟩ = some w := by
      rw [← hk]
      exact h1
    have h3 := run_final (cfg := { cfg with nsampl := k }) (m := cycleLen cfg * cfg.L) hp hL hfs rfl hQ _ h4
    simp only [fieldOf_extend] at h3
    have h5 : (final (cycleStep sys f cfg.L (cycleLen cfg * cfg.L)) ((e + k) * cfg.L)
      (Fin.ofNat (cycleLen cfg * cfg.L) 0, x) r).1.2 = w.conf.1 := congrArg (fun q => q.1.2) h3
    rw [h5, ← h2]
    exact hne
  have hZ : 0 < wsum sys cfg.L fun _ => 1 := by
    unfold wsum
    simp only [mul_one]
    exact Finset.sum_pos (fun z _ => wt_pos hw z) ⟨x, Finset.mem_univ _⟩
  set m := cycleLen cfg * cfg.L with hm
  have hmr : (0 : ℝ) < m := by exact_mod_cast Nat.pos_of_ne_zero hm0
  set a := (∑ c : Fin m, wsum sys cfg.L (meets cfg.L y c.val)) / (m * wsum sys cfg.L fun _ => 1) with ha
  have hnn : ∀ c z, 0 ≤ meets cfg.L y c z := fun c z => by
    unfold meets
    split <;> norm_num
  have hsum : 0 < ∑ c : Fin m, wsum sys cfg.L (meets cfg.L y c.val) := by
    refine Finset.sum_pos' (fun c _ => Finset.sum_nonneg fun z _ => mul_nonneg (wt_pos hw z).le (hnn _ _))
      ⟨⟨cfg.L - 1, ?_⟩, Finset.mem_univ _, ?_⟩
    · have : cfg.L ≤ m := Nat.le_mul_of_pos_left _ (by unfold cycleLen; omega)
      omega
    · refine Finset.sum_pos' (fun z _ => mul_nonneg (wt_pos hw z).le (hnn _ _)) ⟨y, Finset.mem_univ _, ?_⟩
      refine mul_pos (wt_pos hw y) ?_
      unfold meets
      rw [if_pos ⟨by show (cfg.L - 1) % cfg.L + 1 = cfg.L; rw [Nat.mod_eq_of_lt (by omega)]; omega, rfl⟩]
      norm_num
  have ha0 : 0 < a := div_pos hsum (mul_pos hmr hZ)
  obtain ⟨C, hC⟩ := chain_second_moment (m := m) hP hw hr' hL hf (Nat.le_mul_of_pos_left _ (by unfold cycleLen; omega))
    (meets cfg.L y) (fun c l i hi => absurd hi (hno i)) a (by
      rw [ha, div_mul_cancel₀]
      exact (mul_pos hmr hZ).ne')
  have hbound : ∀ n : ℕ, 0 < n → (n * a) ^ 2 ≤ C * (n + 1) := by
    intro n hn
    have hna : 0 < n * a := mul_pos (by exact_mod_cast hn) ha0
    have h := deviation (cycle_fresh hP hw hr' hL hf) _ a C hC (e * cfg.L) n (Fin.ofNat m 0, x) (n * a) hna
    have h1 : P.real {r | n * a ≤ |total (cycleStep sys f cfg.L m) (fun z z' => meets cfg.L y z.1.val z'.2) n
      (final (cycleStep sys f cfg.L m) (e * cfg.L) (Fin.ofNat m 0, x) r).1
      (final (cycleStep sys f cfg.L m) (e * cfg.L) (Fin.ofNat m 0, x) r).2 - n * a|} = 1 := by
      have h2 : ∀ᵐ r ∂P, r ∈ {r | n * a ≤ |total (cycleStep sys f cfg.L m) (fun z z' => meets cfg.L y z.1.val z'.2) n
          (final (cycleStep sys f cfg.L m) (e * cfg.L) (Fin.ofNat m 0, x) r).1
          (final (cycleStep sys f cfg.L m) (e * cfg.L) (Fin.ofNat m 0, x) r).2 - n * a|} := by
        filter_upwards [hzero] with r hz
        rw [total_meets hm e n x y r hz, zero_sub, abs_neg, abs_of_pos hna]
      have h3 := (measure_congr (Filter.eventuallyEq_univ.2 h2)).trans measure_univ
      exact (congrArg ENNReal.toReal h3).trans ENNReal.toReal_one
    rw [h1, le_div_iff₀ (by positivity), one_mul] at h
    exact h
  obtain ⟨n, hn⟩ := exists_nat_gt (2 * C / a ^ 2)
  have hC0 : 0 ≤ C := by
    have := hbound 1 one_pos
    have h2 : 0 ≤ ((1 : ℕ) * a) ^ 2 := sq_nonneg _
    push_cast at this h2
    linarith
  have hn0 : 0 < n := by
    have : (0 : ℝ) ≤ 2 * C / a ^ 2 := by positivity
    exact_mod_cast this.trans_lt hn
  have h1 := hbound n hn0
  rw [div_lt_iff₀ (by positivity)] at hn
  have hn1 : (1 : ℝ) ≤ n := by exact_mod_cast hn0
  nlinarith

end

/-- C89 for accepted parameters within the guards: if the interaction of an orbital vanishes, the entries of the field at
its sites are almost surely reversed in every iteration -/
theorem program_reversed [MeasurableSpace σ] {P : Measure σ} {mc : Machine} {p : SimParams ℝ} [NeZero (sites p)]
    (hmc : mc.Rounds) (hv : Admissible p) (hg : Guards p) (hN : sites p < 2 ^ 31) (hp : p.usePhonons = false)
    (fnbase : String) (rng : Rng σ) (hlaw : rng.Lawful (sites p)) (hP : rng.Ideal (sites p) P)
    (sys : Sys Seed (sites p) MeasData) (hsys : sysOf mc p = some sys)
    (hw : ∀ s, sys.weight p.L.toNat s (fun _ _ => 1) ≠ 0) (x : Field p.L.toNat (sites p))
    (X expX : ℕ → Fin (sites p) → ℝ) (cnt : Counters) (maxNsampl : ℕ) :
    ∃ R : σ → LoopResult (State σ (sites p) MeasData),
      (∀ r, simulate (sys.withRng rng) (mkSetup mc p fnbase).ph (mkSetup mc p fnbase).cfg (fun _ => false) 0 r
        (Fock.extend x) X expX cnt (MeasData.allocate maxNsampl) = some (R r)) ∧
      ∀ (k : Fin p.L.toNat) (j : Fin (sites p)), p.U ((j.val / (p.Nx.toNat * p.Ny.toNat) : ℕ) : ℤ) = 0 →
        ∀ᵐ r ∂P, (R r).state.s k j = reversed (p.nequil + p.nsampl).toNat (x k j) := by
  have h1 := hv.l
  obtain ⟨sys0, e0, hok0, -, hmeas⟩ := sys_defined hmc hv hg.U hg.shift hN fnbase
  obtain rfl : sys0 = sys := Option.some.inj (e0.symm.trans hsys)
  have hok : (sys0.withRng rng).Ok (mkSetup mc p fnbase).cfg.prodBlen := ⟨hok0.expK, hok0.hs, hlaw, hok0.dvd⟩
  have hL : 0 < (mkSetup mc p fnbase).cfg.L := by show 0 < p.L.toNat; omega
  have hd : (mkSetup mc p fnbase).cfg.prodBlen ∣ (mkSetup mc p fnbase).cfg.L := toNat_dvd hv.prodBlen hv.l hv.dvdL
  obtain ⟨f, -, hf⟩ := hP.shuffle
  have hdef : ∀ r, ∃ R, simulate (sys0.withRng rng) (mkSetup mc p fnbase).ph (mkSetup mc p fnbase).cfg (fun _ => false)
      0 r (Fock.extend x) X expX cnt (MeasData.allocate maxNsampl) = some R := fun r =>
    simulate_defined hok hL hd hp (fun _ => false) 0 r _ X expX cnt _ (hw _) (fun r => by
      show rng.shuffle _ r ≠ none
      rw [hf r]
      simp) (fun gu gd m => eq_defined hv hg hmeas gu gd m)
      (fun hn st hst => uneq_defined (sys := sys0.withRng rng) hv hg hn rfl rfl hmeas st hst st.meas)
  choose R hR using hdef
  obtain ⟨ho, hD⟩ := program_describes hv hg sys0 hsys
  refine ⟨R, hR, fun k j hj => ?_⟩
  have h := decoupled_of_zero hD (i := j) (by rw [ho j]; exact hj)
  exact indifferent_reversed (cfg := (mkSetup mc p fnbase).cfg) (sys := sys0.withRng rng) hP hok hL hd hp
    (fun y => hw _) (Decoupled.indifferent (sys := sys0.withRng rng) h) x X expX cnt _ R hR k

/-- C89 is false as a statement about all fields: of two entries without interaction, a run of any length almost surely
changes both or none -/
theorem program_unreachable [MeasurableSpace σ] {P : Measure σ} {mc : Machine} {p : SimParams ℝ} [NeZero (sites p)]
    (hmc : mc.Rounds) (hv : Admissible p) (hg : Guards p) (hN : sites p < 2 ^ 31) (hp : p.usePhonons = false)
    (fnbase : String) (rng : Rng σ) (hlaw : rng.Lawful (sites p)) (hP : rng.Ideal (sites p) P)
    (sys : Sys Seed (sites p) MeasData) (hsys : sysOf mc p = some sys)
    (hw : ∀ s, sys.weight p.L.toNat s (fun _ _ => 1) ≠ 0) (x : Field p.L.toNat (sites p))
    (X expX : ℕ → Fin (sites p) → ℝ) (cnt : Counters) (maxNsampl : ℕ) :
    ∃ R : σ → LoopResult (State σ (sites p) MeasData),
      (∀ r, simulate (sys.withRng rng) (mkSetup mc p fnbase).ph (mkSetup mc p fnbase).cfg (fun _ => false) 0 r
        (Fock.extend x) X expX cnt (MeasData.allocate maxNsampl) = some (R r)) ∧
      ∀ (k k' : Fin p.L.toNat) (j j' : Fin (sites p)), p.U ((j.val / (p.Nx.toNat * p.Ny.toNat) : ℕ) : ℤ) = 0 →
        p.U ((j'.val / (p.Nx.toNat * p.Ny.toNat) : ℕ) : ℤ) = 0 → ∀ y : Field p.L.toNat (sites p),
        y k j = x k j → y k' j' ≠ x k' j' → P {r | fieldOf p.L.toNat (R r).state.s = y} = 0 := by
  obtain ⟨R, h1, h2⟩ := program_reversed hmc hv hg hN hp fnbase rng hlaw hP sys hsys hw x X expX cnt maxNsampl
  refine ⟨R, h1, fun k k' j j' hj hj' y hy hy' => ?_⟩
  have h3 : ∀ᵐ r ∂P, ¬ fieldOf p.L.toNat (R r).state.s = y := by
    filter_upwards [h2 k j hj, h2 k' j' hj'] with r a b hr
    have a' : y k j = reversed (p.nequil + p.nsampl).toNat (x k j) := by rw [← a, ← hr]; rfl
    have b' : y k' j' = reversed (p.nequil + p.nsampl).toNat (x k' j') := by rw [← b, ← hr]; rfl
    unfold reversed at a' b'
    have hne : ∀ b : Fin 2, b ≠ 1 - b := by decide
    split at a'
    · next h => exact hy' (by rw [b', if_pos h])
    · exact hne _ (hy.symm.trans a')
  rw [ae_iff] at h3
  simpa using h3

/-- the small system without interaction and with two time slices -/
noncomputable def exZ : SimParams ℝ := { exP with L := 2, U := fun _ => 0 }

theorem exZ_admissible : Admissible exZ := by
  constructor <;> first | (intros; rfl) | (intros; left; rfl) | (unfold exZ exP; norm_num; done) |
    exact exP_admissible.itime

theorem exZ_guards : Guards exZ := by
  refine ⟨fun o _ => ?_, le_refl 0, fun h => Bool.noConfusion h, fun h => ?_⟩
  · norm_num [exZ, exP]
  · exact absurd h (by decide)

instance : NeZero (sites exZ) := ⟨by decide⟩

/-- non-vacuity: for this system there is a field which is not reached from the zero field -/
example : ∃ mc : Machine, ∃ sys : Sys Seed (sites exZ) MeasData, mc.Rounds ∧ sysOf mc exZ = some sys ∧
    ∃ R : (ℕ → Draw (sites exZ)) → LoopResult (State (ℕ → Draw (sites exZ)) (sites exZ) MeasData),
      (∀ r, simulate (sys.withRng (idealRng (sites exZ))) (mkSetup mc exZ "").ph (mkSetup mc exZ "").cfg (fun _ => false)
        0 r (Fock.extend (L := exZ.L.toNat) fun _ _ => 0) (fun _ _ => 0) (fun _ _ => 0) ⟨0, 0, 0, 0, 0, 0⟩ (MeasData.allocate 0)
          = some (R r)) ∧
      ∃ y : Field exZ.L.toNat (sites exZ),
        independent (drawDist (sites exZ)) {r | fieldOf exZ.L.toNat (R r).state.s = y} = 0 := by
  obtain ⟨mc, hmc⟩ := machine_exists
  obtain ⟨sys, hsys, -⟩ := sys_defined hmc exZ_admissible exZ_guards.U exZ_guards.shift (by decide) ""
  obtain ⟨R, h1, h2⟩ := program_unreachable hmc exZ_admissible exZ_guards (by decide) rfl "" _ (idealRng_lawful _)
    (idealRng_ideal _) sys hsys
    (fun s => weight_one_site hmc exZ_admissible exZ_guards rfl sys hsys _ s _ fun _ _ => one_pos) (fun _ _ => 0)
    (fun _ _ => 0) (fun _ _ => 0) ⟨0, 0, 0, 0, 0, 0⟩ 0
  refine ⟨mc, sys, hmc, hsys, R, h1, fun k _ => if k.val = 0 then 0 else 1, ?_⟩
  exact h2 ⟨0, by decide⟩ ⟨1, by decide⟩ ⟨0, by decide⟩ ⟨0, by decide⟩ rfl rfl _ rfl (by decide)

end Verif.MonteCarlo
