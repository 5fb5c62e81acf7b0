import Verif.Props.FieldChain
import Verif.Props.ExpectedProgram

/-! # Property C90: the results of long runs are close to the expectation values -/

set_option autoImplicit false

namespace Verif.MonteCarlo

open Matrix MeasureTheory Verif.Metropolis Verif.Fock Verif.Greens Verif.Progress Verif.Ergodic Verif.GreensUneq Verif.TimeFlow Verif.Lapack
open Verif.Main

variable {σ : Type} {N : ℕ} {M : Type}

/-! ## The sums over the recorded fields -/

section walk

variable {sys : Sys σ N M} {ph : Phonon} {cfg : Cfg} {f : σ → Equiv.Perm (Fin N) × σ}
  {q : ℕ → Field cfg.L N → ℝ} {qu : Field cfg.L N → ℝ}

/-- sum over the measurements -/
noncomputable def tally (q : ℕ → Field cfg.L N → ℝ) (qu : Field cfg.L N → ℝ) (w : Walk σ cfg.L N) : ℝ :=
  (w.eqs.map fun p => q p.1 p.2.1).sum + (w.uneqs.map fun y => qu y.1).sum

theorem tally_congr {w w' : Walk σ cfg.L N} (h : w'.eqs = w.eqs) (h' : w'.uneqs = w.uneqs) :
    tally q qu w' = tally q qu w := by
  unfold tally
  rw [h, h']

open Classical in
/-- what is measured after slice `c` of a cycle of iterations -/
noncomputable def gain (cfg : Cfg) (q : ℕ → Field cfg.L N → ℝ) (qu : Field cfg.L N → ℝ) (c : ℕ) (y : Field cfg.L N) : ℝ :=
  (if 0 < cfg.neqlt ∧ cfg.neqlt ∣ ((c % cfg.L : ℕ) : ℤ) + 1 then q (c % cfg.L) y else 0) +
    (if c % cfg.L + 1 = cfg.L ∧ 0 < cfg.nuneqlt ∧ cfg.nuneqlt ∣ ((c / cfg.L : ℕ) : ℤ) then qu y else 0)

theorem reverse_hsStep (hp : cfg.usePhonons = false) (l : ℕ) (w : Walk σ cfg.L N) (i : Fin N) :
    (((chainOf sys ph cfg).reverse l w i).conf.1, ((chainOf sys ph cfg).reverse l w i).rng)
      = hsStep sys cfg.L l (w.conf.1, w.rng) i := by
  unfold Chain.reverse chainOf hsStep
  simp only [hp, Bool.false_eq_true, if_false, flipAt_apply]
  split <;> rfl

theorem fold_hsStep (hp : cfg.usePhonons = false) (l : ℕ) (order : List (Fin N)) (w : Walk σ cfg.L N) :
    ((order.foldl ((chainOf sys ph cfg).reverse l) w).conf.1, (order.foldl ((chainOf sys ph cfg).reverse l) w).rng)
      = order.foldl (hsStep sys cfg.L l) (w.conf.1, w.rng) := by
  induction order generalizing w with
  | nil => rfl
  | cons i order ih => rw [List.foldl_cons, List.foldl_cons, ih, reverse_hsStep hp]

open Classical in
theorem slice_walk (hp : cfg.usePhonons = false)
    (hf : ∀ r, sys.rng.shuffle N r = some ((List.finRange N).map (f r).1, (f r).2)) (it : ℤ) (l : ℕ)
    {w w' : Walk σ cfg.L N} (h : (chainOf sys ph cfg).slice it w l = some w') :
    (w'.conf.1, w'.rng) = sliceStep sys f cfg.L l w.conf.1 w.rng ∧
    tally q qu w' = tally q qu w + if cfg.nequil ≤ it ∧ 0 < cfg.neqlt ∧ cfg.neqlt ∣ (l : ℤ) + 1 then q l w'.conf.1 else 0 := by
  have hfl : (chainOf sys ph cfg).fields := Or.inl hp
  have hph : ¬ (chainOf sys ph cfg).phonons := fun h => by
    have h : cfg.usePhonons = true := h
    rw [hp] at h
    cases h
  unfold Chain.slice at h
  rw [if_pos hfl] at h
  simp only [if_neg hph] at h
  obtain ⟨w1, e1, h⟩ := Option.bind_eq_some_iff.1 h
  obtain ⟨a1, b1⟩ := visit_lists _ _ _ (reverse_lists _ _) _ _ e1
  have e2 := visit_eq (chainOf sys ph cfg) N ((chainOf sys ph cfg).reverse l) w _ _ (hf w.rng)
  rw [filterMap_order _ (by simp), e1] at e2
  have e3 := Option.some.inj e2
  have e4 : (w1.conf.1, w1.rng) = sliceStep sys f cfg.L l w.conf.1 w.rng := by
    rw [e3, fold_hsStep hp]
    rfl
  simp only [Option.bind_some, Option.some.injEq] at h
  have hd : (chainOf sys ph cfg).eqDue it l ↔ cfg.nequil ≤ it ∧ 0 < cfg.neqlt ∧ cfg.neqlt ∣ (l : ℤ) + 1 := Iff.rfl
  by_cases hc : cfg.nequil ≤ it ∧ 0 < cfg.neqlt ∧ cfg.neqlt ∣ (l : ℤ) + 1
  · rw [if_pos (hd.2 hc)] at h
    subst h
    refine ⟨e4, ?_⟩
    rw [if_pos hc]
    unfold tally
    simp only [List.map_append, List.sum_append, List.map_cons, List.map_nil, List.sum_cons, List.sum_nil, a1, b1]
    ring
  · rw [if_neg fun h => hc (hd.1 h)] at h
    subst h
    refine ⟨e4, ?_⟩
    rw [if_neg hc, add_zero]
    exact tally_congr a1 b1

theorem foldlM_succ {S : Type} (g : S → ℕ → Option S) (n : ℕ) (s s' : S)
    (h : (List.range (n + 1)).foldlM g s = some s') :
    ∃ s1, (List.range n).foldlM g s = some s1 ∧ g s1 n = some s' := by
  rw [List.range_succ, List.foldlM_append] at h
  obtain ⟨s1, e1, e2⟩ := Option.bind_eq_some_iff.1 h
  refine ⟨s1, e1, ?_⟩
  rw [List.foldlM_cons] at e2
  obtain ⟨s2, e3, e4⟩ := Option.bind_eq_some_iff.1 e2
  cases e4
  exact e3

variable {m : ℕ} [NeZero m]

theorem ofNat_succ (t : ℕ) : Fin.ofNat m (t + 1) = Fin.ofNat m t + 1 := by
  refine Fin.ext ?_
  rw [Fin.val_add, Fin.val_one']
  simp only [Fin.ofNat]
  rw [Nat.add_mod]

theorem cycleStep_at {Q : ℕ} (hm : m = Q * cfg.L) (f : σ → Equiv.Perm (Fin N) × σ) (t : ℕ) (x : Field cfg.L N) (r : σ) :
    cycleStep sys f cfg.L m (Fin.ofNat m t, x) r
      = ((Fin.ofNat m (t + 1), (sliceStep sys f cfg.L (t % cfg.L) x r).1), (sliceStep sys f cfg.L (t % cfg.L) x r).2) := by
  have e : (Fin.ofNat m t).val % cfg.L = t % cfg.L := by
    show t % m % cfg.L = _
    rw [hm, Nat.mod_mul_left_mod]
  unfold cycleStep
  rw [ofNat_succ]
  simp only [e]

open Classical in
theorem gain_at {Q : ℕ} (hm : m = Q * cfg.L) (hQ : 0 < cfg.nuneqlt → Q = cfg.nuneqlt.toNat) (it k : ℕ) (hk : k < cfg.L)
    (y : Field cfg.L N) : gain cfg q qu (Fin.ofNat m (it * cfg.L + k)).val y
      = (if 0 < cfg.neqlt ∧ cfg.neqlt ∣ (k : ℤ) + 1 then q k y else 0) +
        (if k + 1 = cfg.L ∧ 0 < cfg.nuneqlt ∧ cfg.nuneqlt ∣ (it : ℤ) then qu y else 0) := by
  have e1 : (Fin.ofNat m (it * cfg.L + k)).val % cfg.L = k := by
    show (it * cfg.L + k) % m % cfg.L = _
    rw [hm, Nat.mod_mul_left_mod, Nat.mul_add_mod_of_lt hk]
  have e2 : (Fin.ofNat m (it * cfg.L + k)).val / cfg.L = it % Q := by
    show (it * cfg.L + k) % m / cfg.L = _
    rw [hm, Nat.mod_mul_left_div_self, Nat.mul_comm it, Nat.mul_add_div (by omega), Nat.div_eq_of_lt hk, Nat.add_zero]
  have e3 : (0 < cfg.nuneqlt ∧ cfg.nuneqlt ∣ ((it % Q : ℕ) : ℤ)) ↔ (0 < cfg.nuneqlt ∧ cfg.nuneqlt ∣ (it : ℤ)) := by
    refine and_congr_right fun h0 => ?_
    have : cfg.nuneqlt = (Q : ℤ) := by
      have := hQ h0
      omega
    rw [this, Int.natCast_dvd_natCast, Int.natCast_dvd_natCast, Nat.dvd_mod_iff (dvd_refl Q)]
  unfold gain
  rw [e1, e2]
  simp only [e3]

open Classical in
theorem slices_walk (hp : cfg.usePhonons = false)
    (hf : ∀ r, sys.rng.shuffle N r = some ((List.finRange N).map (f r).1, (f r).2)) {Q : ℕ} (hm : m = Q * cfg.L)
    (hQ : 0 < cfg.nuneqlt → Q = cfg.nuneqlt.toNat) (it k : ℕ) (hk : k ≤ cfg.L)
    {w w' : Walk σ cfg.L N} (h : (List.range k).foldlM ((chainOf sys ph cfg).slice it) w = some w') :
    final (cycleStep sys f cfg.L m) k (Fin.ofNat m (it * cfg.L), w.conf.1) w.rng
      = ((Fin.ofNat m (it * cfg.L + k), w'.conf.1), w'.rng) ∧
    tally q qu w' + (if k = cfg.L ∧ cfg.nequil ≤ it ∧ 0 < cfg.nuneqlt ∧ cfg.nuneqlt ∣ (it : ℤ) ∧ 0 < cfg.L then
        qu w'.conf.1 else 0)
      = tally q qu w + if cfg.nequil ≤ it then total (cycleStep sys f cfg.L m) (fun y y' => gain cfg q qu y.1.val y'.2) k
        (Fin.ofNat m (it * cfg.L), w.conf.1) w.rng else 0 := by
  induction k generalizing w' with
  | zero =>
    cases h
    refine ⟨rfl, ?_⟩
    rw [if_neg (by omega), add_zero]
    simp [total]
  | succ k ih =>
    obtain ⟨w1, e1, e2⟩ := foldlM_succ _ _ _ _ h
    obtain ⟨a, b⟩ := ih (by omega) e1
    rw [if_neg (by omega), add_zero] at b
    obtain ⟨c, d⟩ := slice_walk (q := q) (qu := qu) hp hf it k e2
    have hkL : (it * cfg.L + k) % cfg.L = k := by
      rw [Nat.mul_add_mod_of_lt (by omega)]
    have hst : cycleStep sys f cfg.L m (Fin.ofNat m (it * cfg.L + k), w1.conf.1) w1.rng
        = ((Fin.ofNat m (it * cfg.L + (k + 1)), w'.conf.1), w'.rng) := by
      rw [cycleStep_at hm, hkL, ← c]
      rfl
    have hfin : final (cycleStep sys f cfg.L m) (k + 1) (Fin.ofNat m (it * cfg.L), w.conf.1) w.rng
        = ((Fin.ofNat m (it * cfg.L + (k + 1)), w'.conf.1), w'.rng) := by
      rw [final_succ, a, hst]
    refine ⟨hfin, ?_⟩
    rw [total_succ, a]
    simp only [hst, gain_at hm hQ it k (by omega : k < cfg.L)]
    rw [d, b]
    have hL : 0 < cfg.L := by omega
    simp only [hL, and_true]
    by_cases h1 : cfg.nequil ≤ it
    · simp only [h1, true_and, if_true]
      ring
    · simp [h1]

open Classical in
theorem iteration_walk (hp : cfg.usePhonons = false) (hL : 0 < cfg.L)
    (hf : ∀ r, sys.rng.shuffle N r = some ((List.finRange N).map (f r).1, (f r).2)) {Q : ℕ} (hm : m = Q * cfg.L)
    (hQ : 0 < cfg.nuneqlt → Q = cfg.nuneqlt.toNat) (it : ℕ)
    {w w' : Walk σ cfg.L N} (h : (chainOf sys ph cfg).iteration it w = some w') :
    final (cycleStep sys f cfg.L m) cfg.L (Fin.ofNat m (it * cfg.L), w.conf.1) w.rng
      = ((Fin.ofNat m ((it + 1) * cfg.L), w'.conf.1), w'.rng) ∧
    tally q qu w' = tally q qu w + if cfg.nequil ≤ it then
      total (cycleStep sys f cfg.L m) (fun y y' => gain cfg q qu y.1.val y'.2) cfg.L
        (Fin.ofNat m (it * cfg.L), w.conf.1) w.rng else 0 := by
  have hph : ¬ (chainOf sys ph cfg).phonons := fun h => by
    have h : cfg.usePhonons = true := h
    rw [hp] at h
    cases h
  unfold Chain.iteration at h
  simp only [if_neg hph] at h
  obtain ⟨w1, e1, h⟩ := Option.bind_eq_some_iff.1 h
  simp only [Option.bind_some, Option.some.injEq] at h
  obtain ⟨a, b⟩ := slices_walk (q := q) (qu := qu) hp hf hm hQ it cfg.L le_rfl e1
  have hd : (chainOf sys ph cfg).uneqDue it ↔ cfg.nequil ≤ it ∧ 0 < cfg.nuneqlt ∧ cfg.nuneqlt ∣ (it : ℤ) := Iff.rfl
  rw [Nat.succ_mul]
  rw [← b]
  simp only [hL, and_true, true_and]
  by_cases hc : cfg.nequil ≤ it ∧ 0 < cfg.nuneqlt ∧ cfg.nuneqlt ∣ (it : ℤ)
  · rw [if_pos (hd.2 hc)] at h
    subst h
    refine ⟨a, ?_⟩
    rw [if_pos hc]
    unfold tally
    simp only [List.map_append, List.sum_append, List.map_cons, List.map_nil, List.sum_cons, List.sum_nil]
    ring
  · rw [if_neg fun h => hc (hd.1 h)] at h
    subst h
    refine ⟨a, ?_⟩
    rw [if_neg hc, add_zero]

/-- the sums over the measurements of a run -/
theorem run_walk (hp : cfg.usePhonons = false) (hL : 0 < cfg.L)
    (hf : ∀ r, sys.rng.shuffle N r = some ((List.finRange N).map (f r).1, (f r).2)) {Q : ℕ} (hm : m = Q * cfg.L)
    (hQ : 0 < cfg.nuneqlt → Q = cfg.nuneqlt.toNat) {e : ℕ} (he : cfg.nequil = e) (n : ℕ)
    {w w' : Walk σ cfg.L N} (h : (chainOf sys ph cfg).run 0 (e + n) w = some w') :
    tally q qu w' = tally q qu w + total (cycleStep sys f cfg.L m) (fun y y' => gain cfg q qu y.1.val y'.2) (n * cfg.L)
      (final (cycleStep sys f cfg.L m) (e * cfg.L) (Fin.ofNat m 0, w.conf.1) w.rng).1
      (final (cycleStep sys f cfg.L m) (e * cfg.L) (Fin.ofNat m 0, w.conf.1) w.rng).2 := by
  have hit : ∀ j : ℕ, (0 : ℤ) + j = (j : ℤ) := fun j => zero_add _
  unfold Chain.run at h
  simp only [hit] at h
  have h1 : ∀ k ≤ e, ∀ w', (List.range k).foldlM (fun w (j : ℕ) => (chainOf sys ph cfg).iteration j w) w = some w' →
      final (cycleStep sys f cfg.L m) (k * cfg.L) (Fin.ofNat m 0, w.conf.1) w.rng
        = ((Fin.ofNat m (k * cfg.L), w'.conf.1), w'.rng) ∧ tally q qu w' = tally q qu w := by
    intro k
    induction k with
    | zero =>
      intro _ w' hw
      cases hw
      rw [Nat.zero_mul]
      exact ⟨rfl, rfl⟩
    | succ k ih =>
      intro hk w' hw
      obtain ⟨w1, e1, e2⟩ := foldlM_succ _ _ _ _ hw
      obtain ⟨a, b⟩ := ih (by omega) w1 e1
      obtain ⟨c, d⟩ := iteration_walk (q := q) (qu := qu) hp hL hf hm hQ k e2
      rw [if_neg (by omega), add_zero] at d
      refine ⟨?_, d.trans b⟩
      rw [Nat.succ_mul, final_add, a, c, Nat.succ_mul]
  have h2 : ∀ w', (List.range (e + n)).foldlM (fun w (j : ℕ) => (chainOf sys ph cfg).iteration j w) w = some w' →
      final (cycleStep sys f cfg.L m) ((e + n) * cfg.L) (Fin.ofNat m 0, w.conf.1) w.rng
        = ((Fin.ofNat m ((e + n) * cfg.L), w'.conf.1), w'.rng) ∧
      tally q qu w' = tally q qu w +
        total (cycleStep sys f cfg.L m) (fun y y' => gain cfg q qu y.1.val y'.2) (n * cfg.L)
          (final (cycleStep sys f cfg.L m) (e * cfg.L) (Fin.ofNat m 0, w.conf.1) w.rng).1
          (final (cycleStep sys f cfg.L m) (e * cfg.L) (Fin.ofNat m 0, w.conf.1) w.rng).2 := by
    clear h
    induction n with
    | zero =>
      intro w' hw
      obtain ⟨a, b⟩ := h1 e le_rfl w' hw
      refine ⟨a, ?_⟩
      rw [b, Nat.zero_mul]
      simp [total]
    | succ n ih =>
      intro w' hw
      obtain ⟨w1, e1, e2⟩ := foldlM_succ _ _ _ _ hw
      obtain ⟨a, b⟩ := ih w1 e1
      obtain ⟨c, d⟩ := iteration_walk (q := q) (qu := qu) hp hL hf hm hQ (e + n) e2
      rw [if_pos (by omega)] at d
      refine ⟨?_, ?_⟩
      · rw [← Nat.add_assoc, Nat.succ_mul, final_add, a, c, Nat.succ_mul]
      · rw [d, b, Nat.succ_mul, total_add, ← final_add, ← Nat.add_mul, a, add_assoc]
  exact (h2 w' h).2

end walk

/-! ## Deviations -/

section deviation

variable {sys : Sys σ N M} {ph : Phonon} {cfg : Cfg} {φ : M → ℝ} {q : ℕ → Field cfg.L N → ℝ} {qu : Field cfg.L N → ℝ}

theorem adds_records {len : ℕ} (hq : Adds sys cfg.L len φ q qu) (m0 : M) :
    Records sys cfg.L len fun m a b =>
      φ m = φ m0 + ((a.map fun p => q p.1 p.2.1).sum + (b.map fun y => qu y.1).sum) := by
  constructor
  · intro s x l Gu Gd m m' a b hl he hx e h
    rw [hq.eq s l Gu Gd m m' hl he e, h, hx]
    simp only [List.map_append, List.sum_append, List.map_cons, List.map_nil, List.sum_cons, List.sum_nil]
    ring
  · intro st x m' a b hi hx e h
    rw [hq.uneq st m' hi e, h, hx]
    simp only [List.map_append, List.sum_append, List.map_cons, List.map_nil, List.sum_cons, List.sum_nil]
    ring

theorem iterations_never (k : ℕ) (it : ℤ) : iterations (fun _ => false) k it = k := by
  induction k generalizing it with
  | zero => rfl
  | succ k ih =>
    unfold iterations
    rw [if_neg (by simp), ih]

theorem gain_mem (hq : ∀ l, q l ∈ insensitive sys cfg.L) (hqu : qu ∈ insensitive sys cfg.L) (c : ℕ) :
    gain cfg q qu c ∈ insensitive sys cfg.L := by
  intro l i hi x
  unfold gain
  rw [hq _ l i hi x, hqu l i hi x]

variable [MeasurableSpace σ] {P : Measure σ}

/-- length of the cycle of iterations -/
def cycleLen (cfg : Cfg) : ℕ := max 1 cfg.nuneqlt.toNat

/-- The sum over the measurements of `n` iterations is `n` times a constant, up to deviations of the order `√n`. -/
theorem run_deviation [NeZero N] (hP : sys.rng.Ideal N P) (hok : sys.Ok cfg.prodBlen) (hL : 0 < cfg.L)
    (hd : cfg.prodBlen ∣ cfg.L) (hp : cfg.usePhonons = false) (hne : 0 ≤ cfg.nequil)
    (hw : ∀ x : Field cfg.L N, sys.weight cfg.L (Fock.extend x) (fun _ _ => 1) ≠ 0) (hr : Responsive sys cfg.L)
    (hadd : Adds sys cfg.L cfg.prodBlen φ q qu) (hq : ∀ l, q l ∈ insensitive sys cfg.L)
    (hqu : qu ∈ insensitive sys cfg.L) (a : ℝ)
    (ha : ∑ c : Fin (cycleLen cfg * cfg.L), wsum sys cfg.L (gain cfg q qu c.val)
      = a * ((cycleLen cfg * cfg.L : ℕ) * wsum sys cfg.L fun _ => 1))
    (X expX : ℕ → Fin N → ℝ) (cnt : Counters) (meas : M)
    (R : ℕ → Field cfg.L N → σ → LoopResult (State σ N M))
    (hR : ∀ (n : ℕ) x r, simulate sys ph { cfg with nsampl := n } (fun _ => false) 0 r (Fock.extend x) X expX cnt meas
      = some (R n x r)) :
    ∃ C, 0 ≤ C ∧ ∀ (n : ℕ) x d, 0 < d →
      P.real {r | d ≤ |φ (R n x r).state.meas - φ meas - n * (cfg.L * a)|} ≤ C * (n + 1) / d ^ 2 := by
  have := hP.prob
  obtain ⟨f, hf, hfs⟩ := hP.shuffle
  have hm0 : cycleLen cfg * cfg.L ≠ 0 := Nat.mul_ne_zero (by unfold cycleLen; omega) (by omega)
  have : NeZero (cycleLen cfg * cfg.L) := ⟨hm0⟩
  have hQ : 0 < cfg.nuneqlt → cycleLen cfg = cfg.nuneqlt.toNat := fun h => by unfold cycleLen; omega
  obtain ⟨e, he⟩ := Int.eq_ofNat_of_zero_le hne
  obtain ⟨C, hC⟩ := chain_second_moment (m := cycleLen cfg * cfg.L) hP hw hr hL hf
    (Nat.le_mul_of_pos_left _ (by unfold cycleLen; omega)) (gain cfg q qu) (gain_mem hq hqu) a ha
  have hC0 : 0 ≤ C := by
    have h := hC 0 (Fin.ofNat _ 0, fun _ _ => 0)
    have h2 : 0 ≤ ∫ r, (total (cycleStep sys f cfg.L (cycleLen cfg * cfg.L)) (fun y y' => gain cfg q qu y.1.val y'.2) 0
      (Fin.ofNat _ 0, fun _ _ => 0) r - (0 : ℕ) * a) ^ 2 ∂P := integral_nonneg fun r => sq_nonneg _
    have := h2.trans h
    simpa using this
  have hLr : (1 : ℝ) ≤ cfg.L := by exact_mod_cast hL
  refine ⟨C * cfg.L, mul_nonneg hC0 (by linarith), fun n x d hd0 => ?_⟩
  have hsum : ∀ r, φ (R n x r).state.meas = φ meas +
      total (cycleStep sys f cfg.L (cycleLen cfg * cfg.L)) (fun y y' => gain cfg q qu y.1.val y'.2) (n * cfg.L)
      (final (cycleStep sys f cfg.L (cycleLen cfg * cfg.L)) (e * cfg.L) (Fin.ofNat _ 0, x) r).1
      (final (cycleStep sys f cfg.L (cycleLen cfg * cfg.L)) (e * cfg.L) (Fin.ofNat _ 0, x) r).2 := by
    intro r
    obtain ⟨w, h1, -, -, -, -, h2⟩ := simulate_is_metropolis (cfg := { cfg with nsampl := n }) hok hL hd hp _ _ _ _ _ _ _ _ _ (hR n x r)
    have h3 := h2 _ (adds_records (cfg := { cfg with nsampl := n }) hadd meas) (by simp)
    have hk : iterations (fun _ => false) (cfg.nequil + (n : ℤ) - 0).toNat 0 = e + n := by
      rw [iterations_never, he]
      omega
    have h4 : (chainOf sys ph { cfg with nsampl := n }).run 0 (e + n)
        ⟨(fieldOf cfg.L (Fock.extend x), pathsOf cfg.L X), r, cnt, [], []⟩ = some w := by
      rw [← hk]
      exact h1
    have h5 := run_walk (cfg := { cfg with nsampl := n }) (q := q) (qu := qu) (m := cycleLen cfg * cfg.L)
      hp hL hfs rfl hQ he n h4
    have h6 : tally (cfg := { cfg with nsampl := n }) q qu (⟨(fieldOf cfg.L (Fock.extend x), pathsOf cfg.L X), r, cnt, [], []⟩ : Walk σ cfg.L N) = 0 := by
      simp [tally]
    rw [h6, zero_add] at h5
    rw [h3]
    simp only [fieldOf_extend] at h5
    exact congrArg (φ meas + ·) h5
  have hset : {r | d ≤ |φ (R n x r).state.meas - φ meas - n * (cfg.L * a)|}
      = {r | d ≤ |total (cycleStep sys f cfg.L (cycleLen cfg * cfg.L)) (fun y y' => gain cfg q qu y.1.val y'.2) (n * cfg.L)
        (final (cycleStep sys f cfg.L (cycleLen cfg * cfg.L)) (e * cfg.L) (Fin.ofNat _ 0, x) r).1
        (final (cycleStep sys f cfg.L (cycleLen cfg * cfg.L)) (e * cfg.L) (Fin.ofNat _ 0, x) r).2
          - (n * cfg.L : ℕ) * a|} := by
    ext r
    simp only [Set.mem_ofPred_eq]
    rw [hsum r]
    push_cast
    rw [show ∀ t : ℝ, φ meas + t - φ meas - n * (cfg.L * a) = t - n * cfg.L * a from fun t => by ring]
  rw [hset]
  refine (deviation (cycle_fresh hP hw hr hL hf) _ a C hC (e * cfg.L) (n * cfg.L) _ d hd0).trans ?_
  refine div_le_div_of_nonneg_right ?_ (by positivity)
  rw [mul_assoc]
  refine mul_le_mul_of_nonneg_left ?_ hC0
  push_cast
  nlinarith

/-- The probability that a quantity `X n` of runs with `n` iterations deviates from `t` by at least `ε` is of the order
`1/n`, for any initial field. -/
def Converges {F : Type} (P : Measure σ) (X : ℕ → F → σ → ℝ) (t : ℝ) : Prop :=
  ∃ A, ∀ n, 1 ≤ n → ∀ x ε, 0 < ε → P.real {r | ε ≤ |X n x r - t|} ≤ A * (1 + 1 / ε ^ 2) / n

theorem ratio_bound {F : Type} [IsProbabilityMeasure P] {A S : ℕ → F → σ → ℝ} {t μ C₁ C₂ : ℝ} (hμ : 0 < μ)
    (h1 : 0 ≤ C₁) (h2 : 0 ≤ C₂)
    (hA : ∀ (n : ℕ) x d, 0 < d → P.real {r | d ≤ |A n x r - t * S n x r|} ≤ C₁ * (n + 1) / d ^ 2)
    (hS : ∀ (n : ℕ) x d, 0 < d → P.real {r | d ≤ |S n x r - n * μ|} ≤ C₂ * (n + 1) / d ^ 2) :
    Converges P (fun n x r => A n x r / S n x r) t := by
  refine ⟨8 / μ ^ 2 * (C₁ + C₂), fun n hn x ε hε => ?_⟩
  have hn' : (1 : ℝ) ≤ n := by exact_mod_cast hn
  have hn0 : (0 : ℝ) < n := by linarith
  have hsub : {r | ε ≤ |A n x r / S n x r - t|} ⊆
      {r | ε * (n * μ / 2) ≤ |A n x r - t * S n x r|} ∪ {r | n * μ / 2 ≤ |S n x r - n * μ|} := by
    intro r hr
    by_cases hs : n * μ / 2 ≤ S n x r
    · left
      have hs0 : 0 < S n x r := lt_of_lt_of_le (by positivity) hs
      have hr : ε ≤ |A n x r / S n x r - t| := hr
      have e : A n x r / S n x r - t = (A n x r - t * S n x r) / S n x r := by
        field_simp
      rw [e, abs_div, abs_of_pos hs0, le_div_iff₀ hs0] at hr
      exact (mul_le_mul_of_nonneg_left hs hε.le).trans hr
    · right
      show n * μ / 2 ≤ |S n x r - n * μ|
      push Not at hs
      rw [abs_sub_comm]
      exact le_trans (by linarith) (le_abs_self _)
  refine (measureReal_mono hsub).trans ((measureReal_union_le _ _).trans ?_)
  refine (add_le_add (hA n x _ (by positivity)) (hS n x _ (by positivity))).trans ?_
  have e1 : C₁ * (n + 1) / (ε * (n * μ / 2)) ^ 2 = 4 / μ ^ 2 * (C₁ * (1 / ε ^ 2)) * ((n + 1) / n ^ 2) := by
    field_simp
    ring
  have e2 : C₂ * (n + 1) / (n * μ / 2) ^ 2 = 4 / μ ^ 2 * C₂ * ((n + 1) / n ^ 2) := by
    field_simp
    ring
  have e3 : ((n : ℝ) + 1) / n ^ 2 ≤ 2 / n := by
    rw [div_le_div_iff₀ (by positivity) hn0]
    nlinarith
  have e4 : 8 / μ ^ 2 * (C₁ + C₂) * (1 + 1 / ε ^ 2) / n
      = 4 / μ ^ 2 * ((C₁ + C₂) * (1 + 1 / ε ^ 2)) * (2 / n) := by
    ring
  rw [e1, e2, ← add_mul, ← mul_add, e4]
  refine mul_le_mul (mul_le_mul_of_nonneg_left ?_ (by positivity)) e3 (by positivity) (by positivity)
  have : 0 ≤ 1 / ε ^ 2 := by positivity
  nlinarith [mul_nonneg h2 this]

omit [MeasurableSpace σ] in
theorem Adds.sub_mul {L len : ℕ} {φ ψ : M → ℝ} {q q' : ℕ → Field L N → ℝ} {qu qu' : Field L N → ℝ}
    (h : Adds sys L len φ q qu) (h' : Adds sys L len ψ q' qu') (t : ℝ) :
    Adds sys L len (fun m => φ m - t * ψ m) (fun l x => q l x - t * q' l x) (fun x => qu x - t * qu' x) := by
  constructor
  · intro s l Gu Gd m m' hl he e
    rw [h.eq s l Gu Gd m m' hl he e, h'.eq s l Gu Gd m m' hl he e]
    ring
  · intro st m' hi e
    rw [h.uneq st m' hi e, h'.uneq st m' hi e]
    ring

omit [MeasurableSpace σ] in
open Classical in
theorem wsum_gain (c : ℕ) : wsum sys cfg.L (gain cfg q qu c)
    = (if 0 < cfg.neqlt ∧ cfg.neqlt ∣ ((c % cfg.L : ℕ) : ℤ) + 1 then wsum sys cfg.L (q (c % cfg.L)) else 0) +
      (if c % cfg.L + 1 = cfg.L ∧ 0 < cfg.nuneqlt ∧ cfg.nuneqlt ∣ ((c / cfg.L : ℕ) : ℤ) then wsum sys cfg.L qu else 0) := by
  unfold wsum gain
  simp only [mul_add, Finset.sum_add_distrib]
  congr 1
  · split
    · rfl
    · simp
  · split
    · rfl
    · simp

/-- The quotient of two sums over the measurements converges, if their expected values have a fixed ratio. -/
theorem ratio_converges [NeZero N] (hP : sys.rng.Ideal N P) (hok : sys.Ok cfg.prodBlen) (hL : 0 < cfg.L)
    (hd : cfg.prodBlen ∣ cfg.L) (hp : cfg.usePhonons = false) (hne : 0 ≤ cfg.nequil)
    (hw : ∀ x : Field cfg.L N, sys.weight cfg.L (Fock.extend x) (fun _ _ => 1) ≠ 0) (hr : Responsive sys cfg.L)
    {ψ : M → ℝ} {q' : ℕ → Field cfg.L N → ℝ} {qu' : Field cfg.L N → ℝ}
    (hadd : Adds sys cfg.L cfg.prodBlen φ q qu) (hq : ∀ l, q l ∈ insensitive sys cfg.L)
    (hqu : qu ∈ insensitive sys cfg.L)
    (hadd' : Adds sys cfg.L cfg.prodBlen ψ q' qu') (hq' : ∀ l, q' l ∈ insensitive sys cfg.L)
    (hqu' : qu' ∈ insensitive sys cfg.L) (t : ℝ) (h1 : ∀ l < cfg.L, wsum sys cfg.L (q l) = t * wsum sys cfg.L (q' l))
    (h2 : wsum sys cfg.L qu = t * wsum sys cfg.L qu') (h3 : ∀ l < cfg.L, 0 ≤ wsum sys cfg.L (q' l))
    (h4 : 0 ≤ wsum sys cfg.L qu')
    (h5 : (∃ l < cfg.L, 0 < cfg.neqlt ∧ cfg.neqlt ∣ (l : ℤ) + 1 ∧ 0 < wsum sys cfg.L (q' l)) ∨
      0 < cfg.nuneqlt ∧ 0 < wsum sys cfg.L qu')
    (X expX : ℕ → Fin N → ℝ) (cnt : Counters) (meas : M) (h6 : φ meas = 0) (h7 : ψ meas = 0)
    (R : ℕ → Field cfg.L N → σ → LoopResult (State σ N M))
    (hR : ∀ (n : ℕ) x r, simulate sys ph { cfg with nsampl := n } (fun _ => false) 0 r (Fock.extend x) X expX cnt meas
      = some (R n x r)) :
    Converges P (fun n x r => φ (R n x r).state.meas / ψ (R n x r).state.meas) t := by
  have := hP.prob
  have hm0 : 0 < cycleLen cfg * cfg.L := Nat.mul_pos (by unfold cycleLen; omega) hL
  have hw1 : 0 < wsum sys cfg.L fun _ => 1 := by
    unfold wsum
    simp only [mul_one]
    exact Finset.sum_pos (fun x _ => wt_pos hw x) ⟨fun _ _ => 0, Finset.mem_univ _⟩
  have hsub : ∀ g g' : Field cfg.L N → ℝ, wsum sys cfg.L (fun x => g x - t * g' x)
      = wsum sys cfg.L g - t * wsum sys cfg.L g' := by
    intro g g'
    unfold wsum
    rw [Finset.mul_sum, ← Finset.sum_sub_distrib]
    exact Finset.sum_congr rfl fun x _ => by ring
  have hnn : ∀ c : Fin (cycleLen cfg * cfg.L), 0 ≤ wsum sys cfg.L (gain cfg q' qu' c.val) := by
    intro c
    rw [wsum_gain]
    refine add_nonneg ?_ ?_
    · split
      · exact h3 _ (Nat.mod_lt _ hL)
      · exact le_rfl
    · split
      · exact h4
      · exact le_rfl
  have hpos : 0 < ∑ c : Fin (cycleLen cfg * cfg.L), wsum sys cfg.L (gain cfg q' qu' c.val) := by
    refine Finset.sum_pos' (fun c _ => hnn c) ?_
    have hle : cfg.L ≤ cycleLen cfg * cfg.L := Nat.le_mul_of_pos_left _ (by unfold cycleLen; omega)
    rcases h5 with ⟨l, hl, ha, hb, hc⟩ | ⟨ha, hb⟩
    · refine ⟨⟨l, by omega⟩, Finset.mem_univ _, ?_⟩
      rw [wsum_gain]
      simp only [Nat.mod_eq_of_lt hl]
      rw [if_pos ⟨ha, hb⟩]
      refine add_pos_of_pos_of_nonneg hc ?_
      split
      · exact h4
      · exact le_rfl
    · refine ⟨⟨cfg.L - 1, by omega⟩, Finset.mem_univ _, ?_⟩
      rw [wsum_gain]
      have e : (cfg.L - 1) % cfg.L = cfg.L - 1 := Nat.mod_eq_of_lt (by omega)
      have e' : (cfg.L - 1) / cfg.L = 0 := Nat.div_eq_of_lt (by omega)
      simp only [e, e']
      rw [if_pos (c := cfg.L - 1 + 1 = cfg.L ∧ _) ⟨by omega, ha, by simp⟩]
      refine add_pos_of_nonneg_of_pos ?_ hb
      split
      · exact h3 _ (by omega)
      · exact le_rfl
  obtain ⟨C₁, hC₁, hA⟩ := run_deviation hP hok hL hd hp hne hw hr (hadd.sub_mul hadd' t)
    (fun l => (insensitive sys cfg.L).sub_mem (hq l) ((insensitive sys cfg.L).smul_mem t (hq' l)))
    ((insensitive sys cfg.L).sub_mem hqu ((insensitive sys cfg.L).smul_mem t hqu')) 0 (by
      rw [zero_mul]
      refine Finset.sum_eq_zero fun c _ => ?_
      rw [wsum_gain, hsub, hsub, h1 _ (Nat.mod_lt _ hL), h2, sub_self, sub_self, ite_self, ite_self, add_zero])
    X expX cnt meas R hR
  set a := (∑ c : Fin (cycleLen cfg * cfg.L), wsum sys cfg.L (gain cfg q' qu' c.val))
      / ((cycleLen cfg * cfg.L : ℕ) * wsum sys cfg.L fun _ => 1) with ha
  have hden : 0 < ((cycleLen cfg * cfg.L : ℕ) : ℝ) * wsum sys cfg.L fun _ => 1 :=
    mul_pos (by exact_mod_cast hm0) hw1
  obtain ⟨C₂, hC₂, hS⟩ := run_deviation hP hok hL hd hp hne hw hr hadd' hq' hqu' a
    (by rw [ha]; exact (div_mul_cancel₀ _ hden.ne').symm) X expX cnt meas R hR
  have hapos : 0 < cfg.L * a := mul_pos (by exact_mod_cast hL) (div_pos hpos hden)
  refine ratio_bound hapos hC₁ hC₂ (fun n x d hd => ?_) (fun n x d hd => ?_)
  · have := hA n x d hd
    simp only [h6, h7, mul_zero, sub_zero] at this
    exact this
  · have := hS n x d hd
    simp only [h7, sub_zero] at this
    exact this

end deviation

/-! ## The results -/

section thermal

open Verif.Measurement Verif.Lattice

variable [NeZero N]

/-- `R f z v` holds for all entries `z` of the arrays `f` of the equal time measurements, where `v` is the average over
the cells of the expectation values `T` of the operators they stand for -/
structure EqHolds (Nx Ny Norb : ℕ) (s t : ℤ) (T : Op (Mode N) → ℝ) (R : EqF → ℤ → ℝ → Prop) : Prop where
  dens : ∀ f ∈ [EqF.densityU, .densityD, .doubleocc], ∀ o : ℕ, o < Norb →
    R f o (cellAvg (Nx * Ny) fun c => T (densOp (siteN N (Nx * Ny) o c) f))
  corr : ∀ f ∈ [EqF.uu, .dd, .zz, .xx, .ud], ∀ o p : ℕ, o < Norb → p < Norb → ∀ dx dy : ℤ,
    R f (cellOf Nx Ny s dx dy + (Nx * Ny : ℕ) * (o + Norb * p)) (cellAvg (Nx * Ny) fun c =>
      T (corrOp (siteN N (Nx * Ny) o c) (siteN N (Nx * Ny) p (moveCell Nx Ny s c dx dy)) f))
  pair : ∀ f ∈ [EqF.scSw, .scDw, .scSx], ∀ o : ℕ, o < Norb → ∀ dx dy : ℤ,
    R f (cellOf Nx Ny s dx dy + (Nx * Ny : ℕ) * o) (cellAvg (Nx * Ny) fun c =>
      T (pairsOp Nx Ny t o c (moveCell Nx Ny s c dx dy) f))
  grfunU : ∀ a b : Fin N, R .grfunU (a.val + N * b.val) (T (ann (a, true) * cre (b, true)))
  grfunD : ∀ a b : Fin N, R .grfunD (a.val + N * b.val) (T (ann (a, false) * cre (b, false)))

/-- the same for the unequal time measurements -/
structure UneqHolds (Nx Ny Norb L : ℕ) (s t : ℤ) (b1 : Prop) (T : ℕ → Op (Mode N) → Op (Mode N) → ℝ)
    (R : UneqF → ℤ → ℝ → Prop) : Prop where
  corr : ∀ f ∈ [UneqF.geqltU, .geqltD, .gtau0U, .gtau0D, .g0tauU, .g0tauD, .nn, .zz, .xx],
    ∀ l o p : ℕ, l < L → o < Norb → p < Norb → ∀ dx dy : ℤ,
    R f (cellOf Nx Ny s dx dy + (Nx * Ny : ℕ) * (o + Norb * p + Norb * Norb * l))
      (cellAvg (Nx * Ny) fun c => uvalue T l (siteN N (Nx * Ny) o c)
        (siteN N (Nx * Ny) p (moveCell Nx Ny s c dx dy)) f)
  pair : ∀ f ∈ [UneqF.scSw, .scDw, .scSx, .jx, .jy, .b1g, .b2g], (f = .b1g → b1) →
    ∀ l o : ℕ, l < L → o < Norb → ∀ dx dy : ℤ,
    R f (cellOf Nx Ny s dx dy + (Nx * Ny : ℕ) * (o + Norb * l))
      (cellAvg (Nx * Ny) fun c => upairValue Nx Ny t T l o c (moveCell Nx Ny s c dx dy) f)

/-- with equality for `R`, these are the statements about expected values of C74 -/
theorem eqThermal_iff (Nx Ny Norb : ℕ) (s t : ℤ) (T : Op (Mode N) → ℝ) (e : EqF → ℤ → ℝ) :
    EqThermal Nx Ny Norb s t T e ↔ EqHolds Nx Ny Norb s t T fun f z v => e f z = v :=
  ⟨fun h => ⟨h.dens, h.corr, h.pair, h.grfunU, h.grfunD⟩, fun h => ⟨h.dens, h.corr, h.pair, h.grfunU, h.grfunD⟩⟩

theorem uneqThermal_iff (Nx Ny Norb L : ℕ) (s t : ℤ) (b1 : Prop) (T : ℕ → Op (Mode N) → Op (Mode N) → ℝ)
    (e : UneqF → ℤ → ℝ) :
    UneqThermal Nx Ny Norb L s t b1 T e ↔ UneqHolds Nx Ny Norb L s t b1 T fun f z v => e f z = v :=
  ⟨fun h => ⟨h.corr, h.pair⟩, fun h => ⟨h.corr, h.pair⟩⟩

section means

variable {sys : Sys σ N M} {L : ℕ} {Nx Ny Norb : ℕ} {shift : ℤ} {K : Mat N} {U : ℕ → ℝ} {dt : ℝ}

theorem eqHolds_of_means (hK : K.IsSymm) (hD : Describes sys Norb K U dt)
    (hne : ∀ x : Field L N, signed sys L (Fock.extend x) (fun _ _ => 1) ≠ 0) {R : EqF → ℤ → ℝ → Prop}
    (h2 : ∀ (f : EqF) (z : ℤ) (V : Mat N → Mat N → ℝ) (T : ℝ),
      (∀ U D e, Estimates Nx Ny Norb shift 0 U D e → e f z = V U D) →
      (∀ l < L, signedAverage sys L (fun _ _ => 1) (fun s => V (greenAt sys L (l + 1) sys.hs.expVu s)
        (greenAt sys L (l + 1) sys.hs.expVd s)) = T) → R f z T) :
    EqHolds Nx Ny Norb shift 0 (thermalMean (stepOf sys K U dt) L) R := by
  constructor
  · intro f hf o ho
    refine h2 f o (fun U D => cellAvg (Nx * Ny) fun c => densSpec (equalTime U D) (siteN N (Nx * Ny) o c) f) _
      (fun U D e he => he.dens f hf o ho) fun l hl => ?_
    rw [average_cellAvg hne]
    exact congrArg (cellAvg _) (funext fun c => dens_mean hD (by omega) hne _ f hf)
  · intro f hf o p ho hp dx dy
    refine h2 f _ (fun U D => cellAvg (Nx * Ny) fun c => corrSpec (equalTime U D) (siteN N (Nx * Ny) o c)
      (siteN N (Nx * Ny) p (moveCell Nx Ny shift c dx dy)) f) _
      (fun U D e he => he.corr f (by fin_cases hf <;> simp) o p ho hp dx dy) fun l hl => ?_
    rw [average_cellAvg hne]
    exact congrArg (cellAvg _) (funext fun c => corr_mean hD (by omega) hne _ _ f hf)
  · intro f hf o ho dx dy
    refine h2 f _ (fun U D => cellAvg (Nx * Ny) fun c => pairSpec (equalTime U D) Nx Ny 0 o c
      (moveCell Nx Ny shift c dx dy) f) _ (fun U D e he => he.pair f hf o ho dx dy) fun l hl => ?_
    rw [average_cellAvg hne]
    exact congrArg (cellAvg _) (funext fun c => pair_mean hD (by omega) hne _ _ _ _ _ _ f hf)
  · intro a b
    exact h2 _ _ (fun U _ => U a b) _ (fun U D e he => he.grfunU a b) fun l hl =>
      green_mean (l := l + 1) hD hK (by omega) hne a b true
  · intro a b
    exact h2 _ _ (fun _ D => D a b) _ (fun U D e he => he.grfunD a b) fun l hl =>
      green_mean (l := l + 1) hD hK (by omega) hne a b false

theorem uneqHolds_of_means (hK : K.IsSymm) (hD : Describes sys Norb K U dt)
    (hne : ∀ x : Field L N, signed sys L (Fock.extend x) (fun _ _ => 1) ≠ 0) {R : UneqF → ℤ → ℝ → Prop}
    (h2 : ∀ (f : UneqF) (z : ℤ) (V : TimeG N → TimeG N → ℝ) (T : ℝ),
      (∀ u d e, UneqEstimates Nx Ny Norb L shift 0 (Nx = 1 ↔ Ny = 1) u d e → e f z = V u d) →
      signedAverage sys L (fun _ _ => 1) (fun s => V (timeGreen sys L sys.hs.expVu s)
        (timeGreen sys L sys.hs.expVd s)) = T → R f z T) :
    UneqHolds Nx Ny Norb L shift 0 (Nx = 1 ↔ Ny = 1) (thermalPair (stepOf sys K U dt) L) R := by
  constructor
  · intro f hf l o p hl ho hp dx dy
    refine h2 f _ (fun u d => cellAvg (Nx * Ny) fun c => ucorrSpec u d l (siteN N (Nx * Ny) o c)
      (siteN N (Nx * Ny) p (moveCell Nx Ny shift c dx dy)) f) _
      (fun u d e he => he.corr f hf l o p hl ho hp dx dy) ?_
    rw [average_cellAvg hne]
    exact congrArg (cellAvg _) (funext fun c => ucorr_mean hD hK hl.le hne _ _ f hf)
  · intro f hf hb l o hl ho dx dy
    refine h2 f _ (fun u d => cellAvg (Nx * Ny) fun c => upairSpec Nx Ny 0 (unequalTime u d l) o c
      (moveCell Nx Ny shift c dx dy) f) _ (fun u d e he => he.pair f hf hb l o hl ho dx dy) ?_
    rw [average_cellAvg hne]
    exact congrArg (cellAvg _) (funext fun c => upair_mean hD hl.le hne _ _ _ _ _ _ f hf)

omit [NeZero N] in
theorem zero_mem_insensitive : (fun _ => 0) ∈ insensitive sys L := fun _ _ _ _ => rfl

omit [NeZero N] in
theorem sgn_mem : (fun x => sgnOf sys L x * 1) ∈ insensitive sys L := by
  intro l i hi x
  beta_reduce
  unfold sgnOf signed Sys.flow
  rw [(fieldB_reversed hi l x).1, (fieldB_reversed hi l x).2]

omit [NeZero N] in
theorem eq_mem (V : Mat N → Mat N → ℝ) (k : ℕ) : (fun x => sgnOf sys L x * V (greenAt sys L k sys.hs.expVu (Fock.extend x))
    (greenAt sys L k sys.hs.expVd (Fock.extend x))) ∈ insensitive sys L := by
  intro l i hi x
  beta_reduce
  unfold sgnOf signed Sys.flow greenAt
  rw [(fieldB_reversed hi l x).1, (fieldB_reversed hi l x).2]

omit [NeZero N] in
theorem uneq_mem (V : TimeG N → TimeG N → ℝ) : (fun x => sgnOf sys L x * V (timeGreen sys L sys.hs.expVu (Fock.extend x))
    (timeGreen sys L sys.hs.expVd (Fock.extend x))) ∈ insensitive sys L := by
  intro l i hi x
  beta_reduce
  unfold sgnOf signed Sys.flow timeGreen
  rw [(fieldB_reversed hi l x).1, (fieldB_reversed hi l x).2]

end means

variable [MeasurableSpace σ] {P : Measure σ} {sys : Sys σ N MeasData} {ph : Phonon} {cfg : Cfg}
  {Nx Ny Norb : ℕ} {shift : ℤ} {junk : ℤ → ℤ} {dt : ℝ} {omega : ℕ → ℝ}
  {alg : BlockCyclic.QRs N} {tau : BlockCyclic.Buf} {old : GreensUneq.Arrays} {K : Mat N} {U : ℕ → ℝ}

/-- C90, equal times: the quotients of the entries of the arrays and of the sum of the signs converge to the expectation
values in the Hubbard model -/
theorem equal_times_converge (hP : sys.rng.Ideal N P) (hok : sys.Ok cfg.prodBlen) (hL : 0 < cfg.L)
    (hd : cfg.prodBlen ∣ cfg.L) (hp : cfg.usePhonons = false) (hnq : 0 ≤ cfg.nequil) (hx : 0 < Nx) (hy : 0 < Ny)
    (hN : N = Nx * Ny * Norb) (hs : 0 ≤ shift)
    (hm : sys.meas = realMeas Norb (Nx * Ny) cfg.L (Maps.construct Nx Ny shift junk) dt omega alg tau old)
    (hK : K.IsSymm) (hD : Describes sys Norb K U dt)
    (hw : ∀ x : Field cfg.L N, sys.weight cfg.L (Fock.extend x) (fun _ _ => 1) ≠ 0) (hr : Responsive sys cfg.L)
    (h0 : 0 < cfg.neqlt) (h1 : cfg.neqlt ≤ cfg.L) (X expX : ℕ → Fin N → ℝ)
    (cnt : Counters) (meas : MeasData) (hmeas : meas.eq = EqData.allocate)
    (R : ℕ → Field cfg.L N → σ → LoopResult (State σ N MeasData))
    (hR : ∀ (n : ℕ) x r, simulate sys ph { cfg with nsampl := n } (fun _ => false) 0 r (Fock.extend x) X expX cnt meas
      = some (R n x r)) :
    EqHolds Nx Ny Norb shift 0 (thermalMean (stepOf sys K U dt) cfg.L) fun f z v =>
      Converges P (fun n x r => (R n x r).state.meas.eq.arr f z / (R n x r).state.meas.eq.sign) v := by
  have hne : ∀ x : Field cfg.L N, signed sys cfg.L (Fock.extend x) (fun _ _ => 1) ≠ 0 := fun x h =>
    hw x (by rw [weight_eq, h, abs_zero])
  have hS := signedSum_pos (L := cfg.L) hD hK
  have hsg : wsum sys cfg.L (fun x => sgnOf sys cfg.L x * 1) = signedSum sys cfg.L := by
    rw [wsum_sgn]
    simp only [mul_one]
    rfl
  have hz : wsum sys cfg.L (fun _ => 0) = 0 := by unfold wsum; simp
  refine eqHolds_of_means hK hD hne fun f z V T hV hT => ?_
  refine ratio_converges (q' := fun _ x => sgnOf sys cfg.L x * 1) (qu' := fun _ => 0) hP hok hL hd hp hnq hw hr
    (entry_adds hx hy hN hs hm f z V hV) (fun l => eq_mem V (l + 1)) zero_mem_insensitive
    (sign_adds hx hy hN hs hm) (fun _ => sgn_mem) zero_mem_insensitive T (fun l hl => ?_) ?_ (fun l _ => ?_) ?_ ?_
    X expX cnt meas ?_ ?_ R hR
  · rw [wsum_average hne hS.ne' (fun s => V (greenAt sys cfg.L (l + 1) sys.hs.expVu s)
        (greenAt sys cfg.L (l + 1) sys.hs.expVd s)), hT l hl, hsg]
  · rw [hz, mul_zero]
  · rw [hsg]
    exact hS.le
  · rw [hz]
  · refine Or.inl ⟨cfg.neqlt.toNat - 1, by omega, h0, ?_, by rw [hsg]; exact hS⟩
    rw [show ((cfg.neqlt.toNat - 1 : ℕ) : ℤ) + 1 = cfg.neqlt by omega]
  · rw [hmeas]
    rfl
  · rw [hmeas]
    rfl

/-- C90, unequal times -/
theorem unequal_times_converge (hP : sys.rng.Ideal N P) (hok : sys.Ok cfg.prodBlen) (hL : 0 < cfg.L)
    (hd : cfg.prodBlen ∣ cfg.L) (hp : cfg.usePhonons = false) (hnq : 0 ≤ cfg.nequil) (hx : 0 < Nx) (hy : 0 < Ny)
    (hN : N = Nx * Ny * Norb) (hs : 0 ≤ shift)
    (hm : sys.meas = realMeas Norb (Nx * Ny) cfg.L (Maps.construct Nx Ny shift junk) dt omega alg tau old)
    (hK : K.IsSymm) (hD : Describes sys Norb K U dt)
    (hw : ∀ x : Field cfg.L N, sys.weight cfg.L (Fock.extend x) (fun _ _ => 1) ≠ 0) (hr : Responsive sys cfg.L)
    (h0 : 0 < cfg.nuneqlt) (X expX : ℕ → Fin N → ℝ)
    (cnt : Counters) (meas : MeasData) (hmeas : meas.uneq = UneqData.allocate)
    (R : ℕ → Field cfg.L N → σ → LoopResult (State σ N MeasData))
    (hR : ∀ (n : ℕ) x r, simulate sys ph { cfg with nsampl := n } (fun _ => false) 0 r (Fock.extend x) X expX cnt meas
      = some (R n x r)) :
    UneqHolds Nx Ny Norb cfg.L shift 0 (Nx = 1 ↔ Ny = 1) (thermalPair (stepOf sys K U dt) cfg.L) fun f z v =>
      Converges P (fun n x r => (R n x r).state.meas.uneq.arr f z / (R n x r).state.meas.uneq.sign) v := by
  have hne : ∀ x : Field cfg.L N, signed sys cfg.L (Fock.extend x) (fun _ _ => 1) ≠ 0 := fun x h =>
    hw x (by rw [weight_eq, h, abs_zero])
  have hS := signedSum_pos (L := cfg.L) hD hK
  have hsg : wsum sys cfg.L (fun x => sgnOf sys cfg.L x * 1) = signedSum sys cfg.L := by
    rw [wsum_sgn]
    simp only [mul_one]
    rfl
  have hz : wsum sys cfg.L (fun _ => 0) = 0 := by unfold wsum; simp
  obtain ⟨a1, a2⟩ := uneq_adds (len := cfg.prodBlen) hx hy hN hs hm
  refine uneqHolds_of_means hK hD hne fun f z V T hV hT => ?_
  refine ratio_converges (q' := fun _ _ => 0) (qu' := fun x => sgnOf sys cfg.L x * 1) hP hok hL hd hp hnq hw hr
    (a2 f z V hV) (fun l => zero_mem_insensitive) (uneq_mem V) a1 (fun _ => zero_mem_insensitive) sgn_mem T
    (fun l hl => ?_) ?_ (fun l _ => ?_) ?_ (Or.inr ⟨h0, ?_⟩) X expX cnt meas ?_ ?_ R hR
  · rw [hz, mul_zero]
  · rw [wsum_average hne hS.ne' (fun s => V (timeGreen sys cfg.L sys.hs.expVu s)
        (timeGreen sys cfg.L sys.hs.expVd s)), hT, hsg]
  · rw [hz]
  · rw [hsg]
    exact hS.le
  · rw [hsg]
    exact hS
  · rw [hmeas]
    rfl
  · rw [hmeas]
    rfl

end thermal

end Verif.MonteCarlo
