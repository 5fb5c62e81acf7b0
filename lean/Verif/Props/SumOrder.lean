import Verif.Model.SumOrder
import Verif.Props.JacobiRun

/-!
# Property C127: matrix products may be summed up in any order

Optimised implementations of BLAS split matrix products into blocks, sum up in several partial sums, use fused multiplications and
additions, and may do this in another way for every entry.  The theorems on the whole program hold for all of them.
-/

set_option autoImplicit false

namespace Verif.Reference

open MeasureTheory Filter Matrix Topology Verif.Lapack Verif.Rounded Verif.Scale Verif.Ultra Verif.MonteCarlo Verif.Greens Verif.Measurement
open Verif.Main Verif.Progress Verif.Random Verif.Params Verif.Rough Verif.Fock Verif.Stratonovich

/-! ## Specification -/

/-- scalar operations and fused multiplications and additions of relative error `u` -/
structure Fused (op : Rounded.Ops) (fma : ℝ → ℝ → ℝ → ℝ) (u : ℝ) : Prop where
  nonneg : 0 ≤ u
  add : ∀ x y, |op.add x y - (x + y)| ≤ u * |x + y|
  mul : ∀ x y, |op.mul x y - x * y| ≤ u * |x * y|
  fma : ∀ x y z, |fma x y z - (x * y + z)| ≤ u * |x * y + z|

/-- the results of a run without phonons of the program linked to `pl` and `bl` are further away from `T` than `ε` with a probability
of at most `c` -/
def CloseRun {p : SimParams ℝ} [NeZero (sites p)] {σ M : Type} [MeasurableSpace σ] (P : Measure σ) (sys : Sys σ (sites p) M)
    (cfg : Cfg) (ms : Arith (sites p) → BlockArith → Meas (sites p) M) (φ ψ : M → ℝ) (T : ℝ) (pl : Platform (sites p)) (bl : BlockArith)
    (n : ℕ) (ε c : ℝ) : Prop :=
  ∃ tab, tables p pl = some tab ∧
    ∀ (s : ℕ → Fin (sites p) → Fin 2) (meas : M), φ meas = 0 → ψ meas = 0 → ∃ v, start pl.toArith sys cfg tab s meas = some v ∧
      ∀ pr : Prog, P.real {r | ¬ ∃ R, simLoop (roughBody (numerics pl.toArith sys cfg tab (ms pl.toArith bl)) sys.rng cfg.L)
          (fun _ => false) (cfg.nequil.toNat + n) 0 ⟨r, s, v⟩ pr = some R ∧
        |φ R.state.num.meas / ψ R.state.num.meas - T| < ε} ≤ c

/-- As `AccurateScalarRun`, with matrix products in any order of summation. -/
def AccurateReorderedRun {p : SimParams ℝ} [NeZero (sites p)] {σ M : Type} [MeasurableSpace σ] (P : Measure σ) (sys : Sys σ (sites p) M)
    (cfg : Cfg) (ms : Arith (sites p) → BlockArith → Meas (sites p) M) (φ ψ : M → ℝ) (T : ℝ) : Prop :=
  ∀ ε : ℝ, 0 < ε → ∃ (u₀ C : ℝ) (K : ℕ), 0 < u₀ ∧ 0 < C ∧
    ∀ (u : ℝ) (sc : Scalars) (fma : ℝ → ℝ → ℝ → ℝ) (m : ℕ) (piv : Mat (sites p) → Equiv.Perm (Fin (sites p)))
      (pl : Platform (sites p)) (bl : BlockArith) (n : ℕ), sc.Relative u → (∀ x y z, |fma x y z - (x * y + z)| ≤ u * |x * y + z|) →
      Reordered sc.toOps fma (refPlatform (jacobiLib (sites p) sc m) piv) (refBlocks sc.toFlOps) pl bl →
      (1 - 1 / (sites p : ℝ) ^ 2) ^ m ≤ u → 0 < n → (cfg.nequil.toNat + n : ℝ) ^ K * ((m + 1) * u) ≤ u₀ →
      CloseRun P sys cfg ms φ ψ T pl bl n ε (C / n)

/-! ## Errors of sums -/

namespace SumTree

variable {α : Type}

/-- the number of roundings -/
def cost : SumTree α → ℕ
  | term _ => 1
  | init => 0
  | add l r => cost l + cost r + 1
  | fused _ r => cost r + 1

theorem cost_le (t : SumTree α) : t.cost + 1 ≤ 2 * (t.uses.length + t.inits) := by
  induction t with
  | term k => simp [cost, uses, inits]
  | init => simp [cost, uses, inits]
  | add l r hl hr =>
    simp only [cost, uses, inits, List.length_append]
    omega
  | fused k r hr =>
    simp only [cost, uses, inits, List.length_cons]
    omega

/-- the exact sum -/
def exact (z : ℝ) (x y : α → ℝ) (t : SumTree α) : ℝ := t.inits * z + (t.uses.map fun k => x k * y k).sum

/-- the sum of the absolute values -/
def mag (z : ℝ) (x y : α → ℝ) (t : SumTree α) : ℝ := t.inits * |z| + (t.uses.map fun k => |x k * y k|).sum

theorem mag_nonneg (z : ℝ) (x y : α → ℝ) (t : SumTree α) : 0 ≤ t.mag z x y := by
  refine add_nonneg (by positivity) (List.sum_nonneg fun a ha => ?_)
  obtain ⟨k, -, rfl⟩ := List.mem_map.1 ha
  positivity

theorem exact_le_mag (z : ℝ) (x y : α → ℝ) (t : SumTree α) : |t.exact z x y| ≤ t.mag z x y := by
  have h : ∀ l : List α, |(l.map fun k => x k * y k).sum| ≤ (l.map fun k => |x k * y k|).sum := by
    intro l
    induction l with
    | nil => simp
    | cons a l ih =>
      simp only [List.map_cons, List.sum_cons]
      exact (abs_add_le _ _).trans (by linarith)
  refine (abs_add_le _ _).trans (add_le_add ?_ (h _))
  rw [abs_mul, Nat.abs_cast]

/-- an error bound for any order of summation -/
theorem error {op : Rounded.Ops} {fma : ℝ → ℝ → ℝ → ℝ} {u : ℝ} (hu : 0 ≤ u) (hadd : ∀ x y, |op.add x y - (x + y)| ≤ u * |x + y|)
    (hmul : ∀ x y, |op.mul x y - x * y| ≤ u * |x * y|) (hfma : ∀ x y z, |fma x y z - (x * y + z)| ≤ u * |x * y + z|)
    (z : ℝ) (x y : α → ℝ) (t : SumTree α) :
    |t.eval op fma z x y - t.exact z x y| ≤ ((1 + u) ^ t.cost - 1) * t.mag z x y := by
  have g1 : ∀ n : ℕ, 1 ≤ (1 + u) ^ n := fun n => one_le_pow₀ (by linarith)
  have abs_le : ∀ {a A g m : ℝ}, |a - A| ≤ (g - 1) * m → |A| ≤ m → |a| ≤ g * m := fun {a A g m} h1 h2 => by
    have := abs_add_le (a - A) A
    rw [sub_add_cancel] at this
    linarith [show g * m = (g - 1) * m + m by ring]
  induction t with
  | term k =>
    have := hmul (x k) (y k)
    simp only [eval, exact, mag, cost, uses, inits, Nat.cast_zero, zero_mul, zero_add, List.map_cons, List.map_nil, List.sum_cons,
      List.sum_nil, add_zero, pow_one]
    linarith [show (1 + u - 1) * |x k * y k| = u * |x k * y k| by ring]
  | init => simp [eval, exact, mag, cost, uses, inits]
  | add l r hl hr =>
    have e1 : (add l r).exact z x y = l.exact z x y + r.exact z x y := by
      simp only [exact, uses, inits, Nat.cast_add, List.map_append, List.sum_append]
      ring
    have e2 : (add l r).mag z x y = l.mag z x y + r.mag z x y := by
      simp only [mag, uses, inits, Nat.cast_add, List.map_append, List.sum_append]
      ring
    rw [e1, e2]
    have h1 := abs_le hl (l.exact_le_mag z x y)
    have h2 := abs_le hr (r.exact_le_mag z x y)
    have m1 := l.mag_nonneg z x y
    have m2 := r.mag_nonneg z x y
    simp only [eval, cost]
    generalize eval op fma z x y l = a at *
    generalize eval op fma z x y r = b at *
    generalize l.exact z x y = A at *
    generalize r.exact z x y = B at *
    generalize l.mag z x y = m at *
    generalize r.mag z x y = m' at *
    rw [pow_succ, pow_add]
    have p1 := g1 l.cost
    have p2 := g1 r.cost
    generalize (1 + u) ^ l.cost = g at *
    generalize (1 + u) ^ r.cost = g' at *
    have h3 := hadd a b
    have h4 : |op.add a b - (A + B)| ≤ |op.add a b - (a + b)| + (|a - A| + |b - B|) := by
      have := abs_add_le (op.add a b - (a + b)) ((a - A) + (b - B))
      have h5 := abs_add_le (a - A) (b - B)
      rw [show op.add a b - (a + b) + ((a - A) + (b - B)) = op.add a b - (A + B) by ring] at this
      linarith
    have h5 : u * |a + b| ≤ u * (g * m + g' * m') := mul_le_mul_of_nonneg_left ((abs_add_le a b).trans (add_le_add h1 h2)) hu
    have q1 : g ≤ g * g' := le_mul_of_one_le_right (by linarith) p2
    have q2 : g' ≤ g * g' := le_mul_of_one_le_left (by linarith) p1
    have q3 : (1 + u) * g * m ≤ g * g' * (1 + u) * m := mul_le_mul_of_nonneg_right (by nlinarith) m1
    have q4 : (1 + u) * g' * m' ≤ g * g' * (1 + u) * m' := mul_le_mul_of_nonneg_right (by nlinarith) m2
    linarith
  | fused k r hr =>
    have e1 : (SumTree.fused k r).exact z x y = x k * y k + r.exact z x y := by
      simp only [exact, uses, inits, List.map_cons, List.sum_cons]
      ring
    have e2 : (SumTree.fused k r).mag z x y = |x k * y k| + r.mag z x y := by
      simp only [mag, uses, inits, List.map_cons, List.sum_cons]
      ring
    rw [e1, e2]
    have h2 := abs_le hr (r.exact_le_mag z x y)
    have m2 := r.mag_nonneg z x y
    simp only [eval, cost]
    generalize eval op fma z x y r = b at *
    generalize r.exact z x y = B at *
    generalize r.mag z x y = m' at *
    rw [pow_succ]
    have p2 := g1 r.cost
    generalize (1 + u) ^ r.cost = g' at *
    have h3 := hfma (x k) (y k) b
    have h4 : |fma (x k) (y k) b - (x k * y k + B)| ≤ |fma (x k) (y k) b - (x k * y k + b)| + |b - B| := by
      have := abs_add_le (fma (x k) (y k) b - (x k * y k + b)) (b - B)
      rwa [show fma (x k) (y k) b - (x k * y k + b) + (b - B) = fma (x k) (y k) b - (x k * y k + B) by ring] at this
    have h5 : u * |x k * y k + b| ≤ u * (|x k * y k| + g' * m') :=
      mul_le_mul_of_nonneg_left ((abs_add_le _ b).trans (by linarith)) hu
    have q3 : (1 + u) * |x k * y k| ≤ g' * (1 + u) * |x k * y k| :=
      mul_le_mul_of_nonneg_right (le_mul_of_one_le_left (by linarith) p2) (abs_nonneg _)
    linarith

end SumTree

theorem pow_sub_one_le {u : ℝ} (hu : 0 ≤ u) (h1 : u ≤ 1) (n : ℕ) : (1 + u) ^ n - 1 ≤ u * (2 ^ n - 1) := by
  induction n with
  | zero => simp
  | succ n ih =>
    have h2 : (1 + u) ^ n ≤ 2 ^ n := pow_le_pow_left₀ (by linarith) (by linarith) n
    have := mul_le_mul_of_nonneg_left h2 hu
    rw [pow_succ, pow_succ]
    linarith

/-- a bound for the constants of sums of at most `n` products -/
def sumConst (n : ℕ) : ℕ := 4 ^ (n + 1) * (n + 1)

/-- an error bound for any order of summation -/
theorem Sums.error {α : Type} {op : Rounded.Ops} {fma : ℝ → ℝ → ℝ → ℝ} {u : ℝ} (h : Fused op fma u) (h1 : u ≤ 1) {ks : List α} {z : ℝ}
    {x y : α → ℝ} {r : ℝ} (hs : Sums op fma ks z x y r) {n : ℕ} (hn : ks.length ≤ n) {B : ℝ} (hz : |z| ≤ B)
    (hxy : ∀ k, |x k * y k| ≤ B) : |r - (z + (ks.map fun k => x k * y k).sum)| ≤ u * (sumConst n * B) := by
  obtain ⟨t, hp, hi, rfl⟩ := hs
  have hB : 0 ≤ B := (abs_nonneg z).trans hz
  have he : t.exact z x y = z + (ks.map fun k => x k * y k).sum := by
    have h2 : (t.inits : ℝ) * z = z := by
      rcases hi with hi | ⟨rfl, hi⟩ <;> rw [hi] <;> simp
    rw [SumTree.exact, h2, (hp.map fun k => x k * y k).sum_eq]
  have hi1 : t.inits ≤ 1 := by
    rcases hi with hi | ⟨-, hi⟩ <;> omega
  have hl : t.uses.length ≤ n := hp.length_eq.trans_le hn
  have hm : t.mag z x y ≤ (n + 1 : ℕ) * B := by
    have h3 : (t.uses.map fun k => |x k * y k|).sum ≤ t.uses.length * B := by
      have := List.sum_le_card_nsmul (t.uses.map fun k => |x k * y k|) B fun a ha => by
        obtain ⟨k, -, rfl⟩ := List.mem_map.1 ha
        exact hxy k
      rwa [List.length_map, nsmul_eq_mul] at this
    have h4 : (t.inits : ℝ) * |z| ≤ 1 * B := mul_le_mul (by exact_mod_cast hi1) hz (abs_nonneg _) (by norm_num)
    have h5 : (t.uses.length : ℝ) * B ≤ n * B := mul_le_mul_of_nonneg_right (by exact_mod_cast hl) hB
    unfold SumTree.mag
    push_cast
    linarith
  have hc : t.cost ≤ 2 * (n + 1) := by
    have := t.cost_le
    omega
  have h6 : (1 + u) ^ t.cost - 1 ≤ u * (4 ^ (n + 1) : ℕ) := by
    refine (pow_sub_one_le h.nonneg h1 _).trans (mul_le_mul_of_nonneg_left ?_ h.nonneg)
    have : (2 : ℝ) ^ t.cost ≤ 2 ^ (2 * (n + 1)) := pow_le_pow_right₀ (by norm_num) hc
    rw [pow_mul] at this
    push_cast
    norm_num at this ⊢
    linarith
  rw [← he]
  refine (SumTree.error h.nonneg h.add h.mul h.fma z x y t).trans ?_
  have := mul_le_mul h6 hm (t.mag_nonneg z x y) (mul_nonneg h.nonneg (by positivity))
  refine this.trans_eq ?_
  unfold sumConst
  push_cast
  ring

/-! ## Calls -/

section calls

variable {op : Rounded.Ops} {fma : ℝ → ℝ → ℝ → ℝ} {u e b : ℝ} {n M K : ℕ}

theorem sumConst_mono {n M : ℕ} (h : n ≤ M) : (sumConst n : ℝ) ≤ sumConst M := by
  unfold sumConst
  exact_mod_cast Nat.mul_le_mul (Nat.pow_le_pow_right (by norm_num) (by omega)) (by omega)

/-- products of two factors of at most `b` -/
theorem Sums.near (h : Fused op fma u) (h1 : u ≤ 1) (hb : 1 ≤ b) (hK : 2 ≤ K) (hM : n ≤ M) (hu : 3 * sumConst M * u ≤ e)
    {ks : List (Fin n)} (hks : ks.length ≤ n) {z : ℝ} {x y : Fin n → ℝ} {r : ℝ} (hs : Sums op fma ks z x y r) (hz : |z| ≤ b)
    (hx : ∀ k, |x k| ≤ b) (hy : ∀ k, |y k| ≤ b) : |r - (z + (ks.map fun k => x k * y k).sum)| ≤ e * b ^ K := by
  have hb0 : 0 ≤ b := by linarith
  have := h.nonneg
  have h2 := hs.error h h1 hks (B := b ^ 2) (hz.trans (le_self_pow₀ hb two_ne_zero)) fun k => by
    rw [abs_mul, pow_two]
    exact mul_le_mul (hx k) (hy k) (abs_nonneg _) hb0
  refine h2.trans ?_
  have h3 : u * sumConst n ≤ e := by
    have h4 := mul_le_mul_of_nonneg_left (sumConst_mono hM) this
    have h5 : 0 ≤ (sumConst M : ℝ) * u := by positivity
    linarith
  calc u * (sumConst n * b ^ 2) = u * sumConst n * b ^ 2 := by ring
    _ ≤ e * b ^ K := mul_le_mul h3 (pow_le_pow_right₀ hb hK) (by positivity) (le_trans (by positivity) h3)

theorem filter_length {n : ℕ} (p : Fin n → Bool) : ((List.finRange n).filter p).length ≤ n :=
  (List.length_filter_le _ _).trans_eq List.length_finRange

end calls

/-- with matrix products in any order, the requirements of properties C114 and C117 are met -/
theorem Reordered.within {N S K : ℕ} {op : Rounded.Ops} {fma : ℝ → ℝ → ℝ → ℝ} {u e : ℝ} (h : Fused op fma u) (hK : 3 ≤ K)
    (hu : 3 * sumConst (N + S) * u ≤ e) {pl₀ pl : Platform N} {bl₀ bl : BlockArith} (hr : Reordered op fma pl₀ bl₀ pl bl)
    (hp : pl₀.Within K e) (hb : bl₀.Within S K e) : pl.Within K e ∧ bl.Within S K e := by
  have hu0 := h.nonneg
  have hs1 : (1 : ℝ) ≤ sumConst (N + S) := by
    unfold sumConst
    exact_mod_cast Nat.mul_pos (by positivity) (by omega)
  have hue : u ≤ e := by
    have := le_mul_of_one_le_left hu0 hs1
    have : 0 ≤ (sumConst (N + S) : ℝ) * u := by positivity
    linarith
  have he0 : 0 ≤ e := hu0.trans hue
  have small : ∀ {b : ℝ}, 1 ≤ b → b * e ≤ 1 → u ≤ 1 := fun {b} h1 h2 => by
    have := le_mul_of_one_le_left he0 h1
    linarith
  have small' : ∀ {b : ℝ}, 1 ≤ b → b ^ K * e ≤ 1 → u ≤ 1 := fun {b} h1 h2 => small (one_le_pow₀ h1) h2
  have zero_le' : ∀ {b : ℝ}, 1 ≤ b → |(0 : ℝ)| ≤ b := fun {b} h1 => by
    rw [abs_zero]
    linarith
  constructor
  · have key : ∀ (g t gT : Mat N → Mat N → Mat N),
        (∀ b A B, 1 ≤ b → b * e ≤ 1 → Below b A → Below b B → Near (e * b ^ K) (g A B) (A * B)) →
        (∀ b F T, 1 ≤ b → b * e ≤ 1 → Below b F → Below b T → Near (e * b ^ K) (t F T) (upper F * T)) →
        (∀ b A B, 1 ≤ b → b * e ≤ 1 → Below b A → Below b B → Near (e * b ^ K) (gT A B) (A * Bᵀ)) →
        Platform.Within { pl₀ with
          gemm := g
          trmm := t
          gemmT := gT } K e := fun g t gT h1 h2 h3 =>
      ⟨⟨hp.arith.ops, h1, h2, hp.arith.ger, hp.arith.geqp3, hp.arith.geqrf, hp.arith.ormqr, hp.arith.ormqrT, hp.arith.getrf,
        hp.arith.getrs⟩, hp.scalar, h3, hp.syev⟩
    rw [hr.platform]
    refine key _ _ _ ?_ ?_ ?_
    · intro b A B h1 h2 hA hB i j
      have := (hr.gemm A B i j).near h (small h1 h2) h1 (show 2 ≤ K by omega) (show N ≤ N + S by omega) hu List.length_finRange.le (zero_le' h1) (hA i)
        fun k => hB k j
      rwa [zero_add, sum_finRange] at this
    · intro b F T h1 h2 hF hT i j
      have := (hr.trmm F T i j).near h (small h1 h2) h1 (show 2 ≤ K by omega) (show N ≤ N + S by omega) hu (filter_length _) (zero_le' h1) (hF i)
        fun k => hT k j
      rw [zero_add, sum_filter_finRange] at this
      convert this using 3
      rw [mul_apply]
      refine Finset.sum_congr rfl fun k _ => ?_
      simp only [upper, Matrix.of_apply, ← Fin.le_def, ite_mul, zero_mul]
    · intro b A B h1 h2 hA hB i j
      have := (hr.gemmT A B i j).near h (small h1 h2) h1 (show 2 ≤ K by omega) (show N ≤ N + S by omega) hu List.length_finRange.le (zero_le' h1) (hA i)
        fun k => hB j k
      rwa [zero_add, sum_finRange] at this
  · rw [hr.blocks]
    refine ⟨hb.geqrf, hb.ormqrL, hb.ormqrR, hb.trtri, ?_, ?_, ?_⟩
    · intro m c b α T B hm _ h1 h2 hα hT hB i j
      have hb0 : 0 ≤ b := by linarith
      have hu1 := small' h1 h2
      have hBa : ∀ k, |α * B k j| ≤ b ^ 2 := fun k => by
        rw [abs_mul, pow_two]
        exact mul_le_mul hα (hB k j) (abs_nonneg _) hb0
      have hd : ∀ k, |op.mul α (B k j) - α * B k j| ≤ u * b ^ 2 := fun k =>
        (h.mul _ _).trans (mul_le_mul_of_nonneg_left (hBa k) hu0)
      have hy : ∀ k, |op.mul α (B k j)| ≤ 2 * b ^ 2 := fun k => by
        have := abs_add_le (op.mul α (B k j) - α * B k j) (α * B k j)
        rw [sub_add_cancel] at this
        have h3 := mul_le_mul_of_nonneg_right hu1 (show (0 : ℝ) ≤ b ^ 2 by positivity)
        linarith [hd k, hBa k]
      have e1 := (hr.trmmL α T B i j).error h hu1 (filter_length _) (B := 2 * b ^ 3) (by rw [abs_zero]; positivity) fun k => by
        rw [abs_mul]
        calc |T i k| * |op.mul α (B k j)| ≤ b * (2 * b ^ 2) := mul_le_mul (hT i k) (hy k) (abs_nonneg _) hb0
          _ = 2 * b ^ 3 := by ring
      rw [zero_add, sum_filter_finRange] at e1
      have e2 : |(∑ k, if i ≤ k then T i k * op.mul α (B k j) else 0) - (α • (upper T * B)) i j| ≤ m * (u * b ^ 3) := by
        rw [Matrix.smul_apply, mul_apply, smul_eq_mul, Finset.mul_sum, ← Finset.sum_sub_distrib]
        refine (Finset.abs_sum_le_sum_abs _ _).trans ?_
        have := Finset.sum_le_card_nsmul Finset.univ (fun k => |(if i ≤ k then T i k * op.mul α (B k j) else 0) -
          α * (upper T i k * B k j)|) (u * b ^ 3) fun k _ => by
            simp only [upper, Matrix.of_apply, ← Fin.le_def]
            split_ifs
            · rw [show T i k * op.mul α (B k j) - α * (T i k * B k j) = T i k * (op.mul α (B k j) - α * B k j) by ring, abs_mul]
              calc |T i k| * |op.mul α (B k j) - α * B k j| ≤ b * (u * b ^ 2) := mul_le_mul (hT i k) (hd k) (abs_nonneg _) hb0
                _ = u * b ^ 3 := by ring
            · rw [zero_mul, mul_zero, sub_zero, abs_zero]
              positivity
        rwa [Finset.card_univ, Fintype.card_fin, nsmul_eq_mul] at this
      have e3 : (m : ℝ) ≤ sumConst (N + S) := by
        unfold sumConst
        exact_mod_cast le_trans (by omega) (Nat.le_mul_of_pos_left (N + S + 1) (by positivity))
      have e4 := sumConst_mono (show m ≤ N + S by omega)
      have e5 := abs_sub_le (bl.trmmL α T B i j) (∑ k, if i ≤ k then T i k * op.mul α (B k j) else 0) ((α • (upper T * B)) i j)
      refine e5.trans ((add_le_add e1 e2).trans ?_)
      calc u * (sumConst m * (2 * b ^ 3)) + m * (u * b ^ 3) = (2 * sumConst m + m) * u * b ^ 3 := by ring
        _ ≤ 3 * sumConst (N + S) * u * b ^ 3 := by
          refine mul_le_mul_of_nonneg_right (mul_le_mul_of_nonneg_right (by linarith) hu0) (by positivity)
        _ ≤ e * b ^ K := mul_le_mul hu (pow_le_pow_right₀ h1 hK) (by positivity) he0
    · intro m c b B T _ hc h1 h2 hB hT i j
      have := (hr.trmmR B T i j).near h (small' h1 h2) h1 (show 2 ≤ K by omega) (show c ≤ N + S by omega) hu (filter_length _) (zero_le' h1) (hB i)
        fun k => hT k j
      rw [zero_add, sum_filter_finRange] at this
      convert this using 3
      rw [mul_apply]
      refine Finset.sum_congr rfl fun k _ => ?_
      simp only [upper, Matrix.of_apply, ← Fin.le_def, mul_ite, mul_zero]
    · intro m l c b X Y Z _ hl _ h1 h2 hX hY hZ i j
      have := (hr.gemmAcc X Y Z i j).near h (small' h1 h2) h1 (show 2 ≤ K by omega) (show l ≤ N + S by omega) hu List.length_finRange.le (hZ i j)
        (hX i) fun k => hY k j
      rwa [sum_finRange, add_comm (Z i j)] at this

/-! ## Orders of summation -/

/-- in exact arithmetic, the order does not matter -/
theorem Sums.exact {α : Type} {op : Rounded.Ops} {fma : ℝ → ℝ → ℝ → ℝ} (h : Fused op fma 0) {ks : List α} {z : ℝ} {x y : α → ℝ} {r : ℝ}
    (hs : Sums op fma ks z x y r) : r = z + (ks.map fun k => x k * y k).sum := by
  obtain ⟨t, hp, hi, rfl⟩ := hs
  have h1 := SumTree.error le_rfl h.add h.mul h.fma z x y t
  have h2 : (t.inits : ℝ) * z = z := by
    rcases hi with hi | ⟨rfl, hi⟩ <;> rw [hi] <;> simp
  rw [add_zero, one_pow, sub_self, zero_mul, SumTree.exact, h2, (hp.map fun k => x k * y k).sum_eq] at h1
  exact sub_eq_zero.1 (abs_eq_zero.1 (le_antisymm h1 (abs_nonneg _)))

/-- the loop of the textbook algorithms -/
theorem sums_dotOn {α : Type} (op : Rounded.Ops) (fma : ℝ → ℝ → ℝ → ℝ) (ks : List α) (z : ℝ) (x y : α → ℝ) :
    Sums op fma ks z x y (dotOn op ks z x y) := by
  suffices H : ∀ (t : SumTree α), t.inits = 1 → ∃ t' : SumTree α, t'.uses = t.uses ++ ks ∧ t'.inits = 1 ∧
      dotOn op ks (t.eval op fma z x y) x y = t'.eval op fma z x y by
    obtain ⟨t, h1, h2, h3⟩ := H .init rfl
    exact ⟨t, List.Perm.of_eq h1, Or.inl h2, h3⟩
  induction ks with
  | nil => exact fun t h => ⟨t, by simp, h, rfl⟩
  | cons k ks ih =>
    intro t h
    obtain ⟨t', h1, h2, h3⟩ := ih (.add t (.term k)) (by simp [SumTree.inits, h])
    exact ⟨t', by simp [h1, SumTree.uses], h2, h3⟩

/-- one fused operation for every product, from the last to the first -/
def fusedOn {α : Type} (fma : ℝ → ℝ → ℝ → ℝ) (ks : List α) (z : ℝ) (x y : α → ℝ) : ℝ := ks.foldr (fun k a => fma (x k) (y k) a) z

theorem sums_fusedOn {α : Type} (op : Rounded.Ops) (fma : ℝ → ℝ → ℝ → ℝ) (ks : List α) (z : ℝ) (x y : α → ℝ) :
    Sums op fma ks z x y (fusedOn fma ks z x y) := by
  induction ks with
  | nil => exact ⟨.init, List.Perm.refl _, Or.inl rfl, rfl⟩
  | cons k ks ih =>
    obtain ⟨t, h1, h2, h3⟩ := ih
    refine ⟨.fused k t, h1.cons k, h2, ?_⟩
    show fma (x k) (y k) (fusedOn fma ks z x y) = fma (x k) (y k) (t.eval op fma z x y)
    rw [h3]

/-- the textbook algorithms themselves -/
theorem reordered_self {N : ℕ} (lib : Lib N) (piv : Mat N → Equiv.Perm (Fin N)) (fma : ℝ → ℝ → ℝ → ℝ) :
    Reordered lib.toOps fma (refPlatform lib piv) (refBlocks lib.toFlOps) (refPlatform lib piv) (refBlocks lib.toFlOps) where
  platform := rfl
  blocks := rfl
  gemm := fun _ _ _ _ => sums_dotOn _ _ _ _ _ _
  gemmT := fun _ _ _ _ => sums_dotOn _ _ _ _ _ _
  trmm := fun _ _ _ _ => sums_dotOn _ _ _ _ _ _
  trmmL := fun _ _ _ _ _ => sums_dotOn _ _ _ _ _ _
  trmmR := fun _ _ _ _ => sums_dotOn _ _ _ _ _ _
  gemmAcc := fun _ _ _ _ _ => sums_dotOn _ _ _ _ _ _

/-- all matrix products by fused operations, from the last to the first -/
theorem reordered_fused {N : ℕ} (lib : Lib N) (piv : Mat N → Equiv.Perm (Fin N)) (fma : ℝ → ℝ → ℝ → ℝ) :
    ∃ pl bl, Reordered lib.toOps fma (refPlatform lib piv) (refBlocks lib.toFlOps) pl bl ∧
      ∀ A B i j, pl.gemm A B i j = fusedOn fma (List.finRange N) 0 (A i) fun k => B k j :=
  ⟨{ refPlatform lib piv with
      gemm := fun A B => Matrix.of fun i j => fusedOn fma (List.finRange N) 0 (A i) fun k => B k j
      gemmT := fun A B => Matrix.of fun i j => fusedOn fma (List.finRange N) 0 (A i) (B j)
      trmm := fun F T => Matrix.of fun i j => fusedOn fma ((List.finRange N).filter fun k => i ≤ k) 0 (F i) fun k => T k j },
    { refBlocks lib.toFlOps with
      trmmL := fun α T B => Matrix.of fun i j =>
        fusedOn fma ((List.finRange _).filter fun k => i ≤ k) 0 (T i) fun k => lib.mul α (B k j)
      trmmR := fun B T => Matrix.of fun i j => fusedOn fma ((List.finRange _).filter fun k => k ≤ j) 0 (B i) fun k => T k j
      gemmAcc := fun X Y Z => Matrix.of fun i j => fusedOn fma (List.finRange _) (Z i j) (X i) fun k => Y k j },
    { platform := rfl
      blocks := rfl
      gemm := fun _ _ _ _ => sums_fusedOn _ _ _ _ _ _
      gemmT := fun _ _ _ _ => sums_fusedOn _ _ _ _ _ _
      trmm := fun _ _ _ _ => sums_fusedOn _ _ _ _ _ _
      trmmL := fun _ _ _ _ _ => sums_fusedOn _ _ _ _ _ _
      trmmR := fun _ _ _ _ => sums_fusedOn _ _ _ _ _ _
      gemmAcc := fun _ _ _ _ _ => sums_fusedOn _ _ _ _ _ _ },
    fun _ _ _ _ => rfl⟩

/-- the order of summation makes a difference: three products in two orders, with sums and products which are too large by one half -/
example : ∃ (op : Rounded.Ops) (fma : ℝ → ℝ → ℝ → ℝ) (t t' : SumTree (Fin 3)), Fused op fma (1 / 2) ∧ t.uses.Perm (List.finRange 3) ∧
    t'.uses.Perm (List.finRange 3) ∧ t.eval op fma 0 (fun _ => 1) (fun _ => 1) ≠ t'.eval op fma 0 (fun _ => 1) (fun _ => 1) := by
  have hr : ∀ x : ℝ, |3 / 2 * x - x| ≤ 1 / 2 * |x| := fun x => by
    rw [show 3 / 2 * x - x = 1 / 2 * x by ring, abs_mul, abs_of_pos (by norm_num : (0 : ℝ) < 1 / 2)]
  refine ⟨{ flOpsSqrt fun x => 3 / 2 * x with }, fun x y z => 3 / 2 * (x * y + z), .add (.add (.term 0) (.term 1)) (.term 2),
    .fused 1 (.fused 2 (.term 0)), ⟨by norm_num, fun x y => hr _, fun x y => hr _, fun x y z => hr _⟩, by decide, by decide, ?_⟩
  simp only [SumTree.eval, flOpsSqrt, flOps]
  norm_num

/-! ## The program without phonons -/

variable {σ : Type} [MeasurableSpace σ] {P : Measure σ} {mc : Machine} {p : SimParams ℝ}

/-- the requirements for the algorithms of `refPlatform`, with matrix products in any order -/
theorem reordered_within {N S k K : ℕ} {u e : ℝ} {lib : Lib N} {fma : ℝ → ℝ → ℝ → ℝ} {piv : Mat N → Equiv.Perm (Fin N)} {pl : Platform N}
    {bl : BlockArith} (ho : lib.Relative k u) (hf : ∀ x y z, |fma x y z - (x * y + z)| ≤ u * |x * y + z|)
    (hr : Reordered lib.toOps fma (refPlatform lib piv) (refBlocks lib.toFlOps) pl bl) (ha : Accuracy K u e) (h1 : e ≤ 1)
    (hK : 3 * sumConst (N + S) + k + 3 ≤ K) (hA : (refArith lib.toFlOps piv).Within K e) (hB : (refBlocks lib.toFlOps).Within S K e) :
    u ≤ e ∧ pl.Within K e ∧ bl.Within S K e := by
  have hu := ho.ops.nonneg
  have h5 : e ^ K ≤ e := pow_le_of_le_one ha.nonneg h1 (by omega)
  have h6 : (1 : ℝ) ≤ K := by exact_mod_cast (by omega : 1 ≤ K)
  have h7 : u ≤ K * u := le_mul_of_one_le_left hu h6
  have h4 : u ≤ e := by linarith [ha.le]
  have h8 : (3 * sumConst (N + S) : ℝ) ≤ K := by exact_mod_cast (by omega : 3 * sumConst (N + S) ≤ K)
  have h9 : 3 * sumConst (N + S) * u ≤ e := (mul_le_mul_of_nonneg_right h8 hu).trans (ha.le.trans h5)
  exact ⟨h4, hr.within ⟨hu, ho.ops.add, ho.ops.mul, hf⟩ (by omega) h9 (platform_within ho hA h4 (by omega)) hB⟩

theorem accurateReorderedRun_of_all [NeZero (sites p)] (hv : Admissible p) (hg : Guards p) (rng : Rng σ)
    (sys : Sys Seed (sites p) MeasData) (hsys : sysOf mc p = some sys) {cfg : Cfg} {S : ℕ}
    {ms : Arith (sites p) → BlockArith → Meas (sites p) MeasData} {φ ψ : MeasData → ℝ} {T : ℝ}
    (h : AccurateAll P (sys.withRng rng) cfg S ms φ ψ T) : AccurateReorderedRun P (sys.withRng rng) cfg ms φ ψ T := by
  intro ε hε
  obtain ⟨k₁, hk0, hk₁⟩ := jacobiLib_relative (sites p)
  have hkp : (0 : ℝ) < k₁ := by exact_mod_cast Nat.pos_of_ne_zero hk0
  obtain ⟨k, hk⟩ := refArith_within (sites p)
  obtain ⟨l, hl⟩ := refBlocks_within S
  set K := k + l + (3 * sumConst (sites p + S) + k₁ + 3) with hK
  obtain ⟨u₀, C, hu₀, hC, H⟩ := h K ε hε
  obtain ⟨D, δ, hD, hδ, ht⟩ := tables_close hv hg rng sys hsys K
  have hD0 : 0 < D := by linarith
  have hp : (0 : ℝ) < K := by exact_mod_cast (by omega : 0 < K)
  set c := min 1 (min (u₀ / D) (δ / 2)) with hc
  have hc0 : 0 < c := by positivity
  set c' := min 1 (c ^ K / K) with hc'
  have hc0' : 0 < c' := by positivity
  refine ⟨c' ^ k₁ / k₁, C, K * k₁, by positivity, hC, fun u sc fma m piv pl bl n hsc hf hr hm hn hle => ?_⟩
  have hu := hsc.ops.nonneg
  set q : ℝ := (cfg.nequil.toNat + n : ℝ) with hq
  have hq1 : 1 ≤ q := by
    have : (1 : ℝ) ≤ n := by exact_mod_cast hn
    have := Nat.cast_nonneg (α := ℝ) cfg.nequil.toNat
    linarith
  obtain ⟨u', hb, hu'⟩ := accuracy_exists k₁ hk0 (show 0 ≤ (m + 1) * u by positivity)
  rw [le_div_iff₀ hkp] at hle
  have hqu : q ^ K * u' ≤ c' := le_of_pow_le_pow_left₀ (n := k₁) hk0 hc0'.le (by
    rw [mul_pow, hu', ← pow_mul]
    linarith [mul_assoc (q ^ (K * k₁)) ((m + 1) * u) k₁, mul_comm ((m + 1) * u) (k₁ : ℝ)])
  have hu1 : u' ≤ 1 := by
    have h1 := le_mul_of_one_le_left hb.nonneg (one_le_pow₀ hq1 (n := K))
    exact h1.trans (hqu.trans (min_le_left _ _))
  obtain ⟨huu, ho⟩ := hk₁ sc u u' m hsc hm hb.nonneg hu1 hb.le
  have hs := hqu.trans (min_le_right _ _)
  obtain ⟨e, ha, he⟩ := accuracy_exists K (by omega) hb.nonneg
  rw [le_div_iff₀ hp] at hs
  have hqe : q * e ≤ c := le_of_pow_le_pow_left₀ (n := K) (by omega) hc0.le (by
    rw [mul_pow, he]
    linarith [mul_assoc (q ^ K) u' K, mul_comm u' (K : ℝ)])
  have h1 : q * e ≤ 1 := hqe.trans (min_le_left _ _)
  have h2 : q * (D * e) ≤ u₀ := by
    have := hqe.trans ((min_le_right _ _).trans (min_le_left _ _))
    rw [le_div_iff₀ hD0] at this
    linarith [show q * (D * e) = q * e * D by ring]
  have hee := le_mul_of_one_le_left ha.nonneg hq1
  have h3 : e < δ := by
    have := hqe.trans ((min_le_right _ _).trans (min_le_right _ _))
    linarith
  obtain ⟨h4, hpl, hbl⟩ := reordered_within (lib := jacobiLib (sites p) sc m) ho
    (fun x y z => (hf x y z).trans (mul_le_mul_of_nonneg_right huu (abs_nonneg _))) hr ha (hee.trans h1) (by omega)
    (hk K (by omega) _ u' e piv ho.ops ha) (hl K (by omega) _ u' e ho.ops ha)
  obtain ⟨tab, htab, hw⟩ := ht e pl ha.nonneg h3 hpl
  have hle : e ≤ D * e := le_mul_of_one_le_left ha.nonneg hD
  exact ⟨tab, htab, H (D * e) _ _ tab n (mul_nonneg hD0.le ha.nonneg) (hpl.arith.mono hle) (blocks_mono hbl hle) hw hn h2⟩

/-- C127: The whole program without phonons in rounded arithmetic, with matrix products in any order of summation, with or without
fused operations: if the relative errors of the single operations are small enough for the number of sweeps, then every result of the
equal and unequal time measurements comes close to the expectation value in the Hubbard model. -/
theorem program_reordered_run [NeZero (sites p)] (hmc : mc.Rounds) (hv : Admissible p) (hg : Guards p)
    (hN : sites p < 2 ^ 31) (fnbase : String) (rng : Rng σ) (hlaw : rng.Lawful (sites p))
    (hP : rng.Ideal (sites p) P) (sys : Sys Seed (sites p) MeasData) (hsys : sysOf mc p = some sys)
    (hw : ∀ s, sys.weight p.L.toNat s (fun _ _ => 1) ≠ 0)
    (hr : ∀ i : Fin (sites p), p.U ((i.val / (p.Nx.toNat * p.Ny.toNat) : ℕ) : ℤ) = 0 ∨
      ∀ l < p.L.toNat, ∀ x : Field p.L.toNat (sites p),
        sys.weight p.L.toNat (Fock.extend (flipAt l i x)) (fun _ _ => 1)
          ≠ sys.weight p.L.toNat (Fock.extend x) (fun _ _ => 1))
    (hnq : 0 ≤ p.nequil) (hnw : p.nwraps ≤ p.L) (h2 : 2 * p.prodBlen ≤ p.L) :
    let L := p.L.toNat
    let cfg := (mkSetup mc p fnbase).cfg
    let sys' := sys.withRng rng
    let ms := roundMeasAll p.Norb.toNat (p.Nx.toNat * p.Ny.toNat) L (Maps.construct p.Nx.toNat p.Ny.toNat p.pbcShift mc.maps)
      mc.tau mc.green sys.meas
    (0 < p.neqlt → p.neqlt ≤ p.L →
        EqHolds p.Nx.toNat p.Ny.toNat p.Norb.toNat p.pbcShift 0 (thermalMean (hubbardStep p) L) fun f z v =>
          AccurateReorderedRun P sys' cfg ms (fun m => m.eq.arr f z) (fun m => m.eq.sign) v) ∧
      (0 < p.nuneqlt →
        UneqHolds p.Nx.toNat p.Ny.toNat p.Norb.toNat L p.pbcShift 0 (p.Nx.toNat = 1 ↔ p.Ny.toNat = 1)
          (thermalPair (hubbardStep p) L) fun f z v =>
          AccurateReorderedRun P sys' cfg ms (fun m => m.uneq.arr f z) (fun m => m.uneq.sign) v) := by
  intro L cfg sys' ms
  obtain ⟨h3, h4⟩ := program_rounded_all hmc hv hg hN fnbase rng hlaw hP sys hsys hw hr hnq hnw h2
  exact ⟨fun a b => (h3 a b).mono fun f z v h => accurateReorderedRun_of_all hv hg rng sys hsys h,
    fun a => (h4 a).mono fun f z v h => accurateReorderedRun_of_all hv hg rng sys hsys h⟩

/-- non-vacuity: one site with interaction and two time slices, and unequal time measurements in every sweep -/
example : ∃ mc : Machine, ∃ sys : Sys Seed (sites exU) MeasData, mc.Rounds ∧ sysOf mc exU = some sys ∧
    ∃ T, AccurateReorderedRun (independent (drawDist (sites exU))) (sys.withRng (idealRng (sites exU))) (mkSetup mc exU "").cfg
      (roundMeasAll 1 1 2 (Maps.construct 1 1 0 mc.maps) mc.tau mc.green sys.meas)
      (fun m => m.uneq.arr .gtau0U 1) (fun m => m.uneq.sign) T := by
  obtain ⟨mc, hmc⟩ := machine_exists
  obtain ⟨sys, hsys, hok, -⟩ := sys_defined hmc exU_admissible exU_guards.U exU_guards.shift (by decide) ""
  have hdiag : ∀ i j, i ≠ j → bondMatrix exU i j = 0 := fun i j h => absurd (Subsingleton.elim (α := Fin 1) i j) h
  obtain ⟨ho, hD⟩ := program_describes exU_admissible exU_guards sys hsys
  obtain ⟨-, hr⟩ := atomic_conditions exU_admissible exU_guards hdiag (by decide) sys hsys
  have key := (program_reordered_run hmc exU_admissible exU_guards (by decide) "" _ (idealRng_lawful _)
    (idealRng_ideal _) sys hsys
    (fun s => weight_one_site hmc exU_admissible exU_guards rfl sys hsys _ s _ fun _ _ => one_pos) (fun i => by
      rcases hr i with h | h
      · left
        rw [← ho i]
        exact (decoupled_iff hD (by norm_num [exU, exP]) i).1 h
      · exact Or.inr h)
    (by decide) (by decide) (by decide)).2 (by decide)
  exact ⟨mc, sys, hmc, hsys, _, key.corr .gtau0U (by simp) 1 0 0 (by decide) (by decide) (by decide) 0 0⟩

end Verif.Reference

namespace Verif.Rounded.Ph

open MeasureTheory Filter Topology Matrix Verif.Lapack Verif.TimeFlow Verif.Greens Verif.Stratonovich Verif.MonteCarlo Verif.Ultra
  Verif.Measurement Verif.Main Verif.Metropolis Verif.DrawSeq Verif.Fock Verif.Progress Verif.Random Verif.Params

/-! ## The program with phonons -/

open Verif.Reference in
/-- as `Elementary`, with matrix products in any order of summation -/
def AnyOrder {N : ℕ} [NeZero N] (u : ℝ) (pl : Platform N) (bl : BlockArith) : Prop :=
  ∃ (sc : Scalars) (fma : ℝ → ℝ → ℝ → ℝ) (piv : Mat N → Equiv.Perm (Fin N)) (m : ℕ), sc.Relative u ∧
    (∀ x y z, |fma x y z - (x * y + z)| ≤ u * |x * y + z|) ∧
    (∀ x, 0 < x → |sc.log x - Real.log x| ≤ u * |Real.log x|) ∧ (1 - 1 / (N : ℝ) ^ 2) ^ m ≤ u ∧ (m + 1 : ℝ) ^ 2 * u ≤ 1 ∧
    Reordered sc.toOps fma (refPlatform (jacobiLib N sc m) piv) (refBlocks sc.toFlOps) pl bl

open Verif.Reference in
/-- the requirements of property C124 are met -/
theorem anyOrder_accurate (N S : ℕ) [NeZero N] : ∃ K, ∀ u₀ : ℝ, 0 < u₀ → ∃ u₁ : ℝ, 0 < u₁ ∧
    ∀ (u : ℝ) (pl : Platform N) (bl : BlockArith), u ≤ u₁ → AnyOrder u pl bl → ∃ u' ≤ u₀, Accurate K S u' pl bl := by
  obtain ⟨k, hk0, hk⟩ := jacobiLib_relative N
  have hkp : (0 : ℝ) < k := by exact_mod_cast Nat.pos_of_ne_zero hk0
  obtain ⟨k₁, hk₁⟩ := refArith_within N
  obtain ⟨l, hl⟩ := refBlocks_within S
  set K := k₁ + l + (3 * sumConst (N + S) + k + 3) with hK
  refine ⟨K, fun u₀ h0 => ?_⟩
  have hp' : (0 : ℝ) < K := by exact_mod_cast (by omega : 0 < K)
  set c := min 1 u₀ with hc
  have hc0 : 0 < c := by positivity
  set d := min 1 (c ^ K / K) with hd
  have hd0 : 0 < d := by positivity
  refine ⟨(d ^ k / k) ^ 2, by positivity, fun u pl bl hu hE => ?_⟩
  obtain ⟨sc, fma, piv, m, hs, hf, hlog, hm, hmu, hr⟩ := hE
  have hu0 := hs.ops.nonneg
  obtain ⟨v, hb, hv⟩ := accuracy_exists k hk0 (show 0 ≤ (m + 1) * u by positivity)
  have h1 : (m + 1) * u ≤ d ^ k / k := by
    refine le_of_sq_le_sq (le_trans ?_ hu) (by positivity)
    have := mul_le_mul_of_nonneg_right hmu hu0
    linarith [show ((m + 1) * u) ^ 2 = (m + 1 : ℝ) ^ 2 * u * u by ring]
  rw [le_div_iff₀ hkp] at h1
  have hvd : v ≤ d := le_of_pow_le_pow_left₀ (n := k) hk0 hd0.le (by
    rw [hv]
    linarith [mul_comm ((m + 1) * u) (k : ℝ)])
  obtain ⟨huv, ho⟩ := hk sc u v m hs hm hb.nonneg (hvd.trans (min_le_left _ _)) hb.le
  have hs' := hvd.trans (min_le_right _ _)
  obtain ⟨e, ha, he⟩ := accuracy_exists K (by omega) hb.nonneg
  rw [le_div_iff₀ hp'] at hs'
  have hec : e ≤ c := le_of_pow_le_pow_left₀ (n := K) (by omega) hc0.le (by
    rw [he]
    linarith [mul_comm v (K : ℝ)])
  have he1 : e ≤ 1 := hec.trans (min_le_left _ _)
  obtain ⟨h4, hpl, hbl⟩ := reordered_within (lib := jacobiLib N sc m) ho
    (fun x y z => (hf x y z).trans (mul_le_mul_of_nonneg_right huv (abs_nonneg _))) hr ha he1 (by omega)
    (hk₁ K (by omega) _ v e piv ho.ops ha) (hl K (by omega) _ v e ho.ops ha)
  refine ⟨e, hec.trans (min_le_right _ _), ha.nonneg, hpl, ?_, ?_, hbl⟩
  · rw [hr.platform]
    exact log_mono (log_within hu0 hlog) (huv.trans h4)
  · rw [hr.platform]
    exact fun A i j h => getrf_pivoted (op := sc.toOps) (h4.trans he1) ho.ops.div _ A i j h

variable {σ : Type} [MeasurableSpace σ] {P : Measure σ} {mc : Machine} {p : SimParams ℝ}

/-- C127: The whole program with phonons in rounded arithmetic, with matrix products in any order of summation: in long runs with
sufficiently accurate scalar operations, the results are close to the expectation values in the Hubbard-Holstein model with a
probability close to one. -/
theorem program_reordered_converges_ph [NeZero (sites p)] (hmc : mc.Rounds) (hv : Admissible p) (hg : Guards p)
    (hN : sites p < 2 ^ 31) (hmv : Movable p) (fnbase : String) (rng : Rng σ) (hlaw : rng.Lawful (sites p))
    (hP : rng.Ideal (sites p) P) (sys : Sys Seed (sites p) MeasData) (hsys : sysOf mc p = some sys) :
    let L := p.L.toNat
    (0 < p.neqlt → p.neqlt ≤ p.L →
      (EqHolds p.Nx.toNat p.Ny.toNat p.Norb.toNat p.pbcShift 0
        (fun X => holsteinMean p (Measure.dirac 0) L 0 (fun _ => 1) X 1) fun f z v =>
        Reliable mc fnbase rng P sys AnyOrder (.eq f z) .eqSign v) ∧
      ∀ f ∈ phFields, ∀ o < p.Norb.toNat,
        Reliable mc fnbase rng P sys AnyOrder (.ph f o) .phSign
          (phValue p.Norb.toNat (p.Nx.toNat * p.Ny.toNat) L p.dt (fun o => p.phonon.omega o)
            (fun F X => holsteinMean p (Measure.dirac 0) L 0 F X 1) o f)) ∧
    (0 < p.nuneqlt →
      UneqHolds p.Nx.toNat p.Ny.toNat p.Norb.toNat L p.pbcShift 0 (p.Nx.toNat = 1 ↔ p.Ny.toNat = 1)
        (fun l X Y => holsteinMean p (Measure.dirac 0) L l (fun _ => 1) X Y) fun f z v =>
        Reliable mc fnbase rng P sys AnyOrder (.uneq f z) .uneqSign v) := by
  intro L
  obtain ⟨K, hK⟩ := anyOrder_accurate (sites p) (sites p * (p.L.toNat / p.prodBlen.toNat))
  obtain ⟨h1, h2⟩ := program_rounded_converges_ph hmc hv hg hN hmv fnbase rng hlaw hP sys hsys K _ le_rfl
  refine ⟨fun hc hcL => ⟨?_, fun f hf o ho => ?_⟩, fun hc => ?_⟩
  · exact (h1 hc hcL).1.mono fun f z v h => h.mono hK
  · exact ((h1 hc hcL).2 f hf o ho).mono hK
  · exact (h2 hc).mono fun f z v h => h.mono hK

/-! ## Examples -/

open Verif.Reference in
/-- there are such arithmetics of any accuracy, with fused operations, which do not compute exactly -/
theorem anyOrder_exists (N : ℕ) [NeZero N] : ∃ u₁ : ℝ, 0 < u₁ ∧ ∀ u : ℝ, 0 < u → u ≤ u₁ →
    ∃ (pl : Platform N) (bl : BlockArith), AnyOrder u pl bl ∧ pl.add 1 1 ≠ 2 ∧
      ∀ A B i j, pl.gemm A B i j = fusedOn (fun x y z => (1 + u) * (x * y + z)) (List.finRange N) 0 (A i) fun k => B k j := by
  obtain ⟨u₁, h1, h⟩ := rotations_exist (Nat.pos_of_ne_zero (NeZero.ne N))
  refine ⟨u₁, h1, fun u hu hle => ?_⟩
  obtain ⟨m, hm, hmu⟩ := h u hu hle
  obtain ⟨lib, hl, h2, h3⟩ := lib_exists_log N 0 hu
  obtain ⟨pl, bl, hr, hg⟩ := reordered_fused (jacobiLib N { lib with } m) (fun _ => 1) fun x y z => (1 + u) * (x * y + z)
  refine ⟨pl, bl, ⟨{ lib with }, fun x y z => (1 + u) * (x * y + z), fun _ => 1, m, ⟨hl.ops, hl.exp, hl.expm1⟩, fun x y z => ?_, h3, hm,
    hmu, hr⟩, ?_, hg⟩
  · rw [show (1 + u) * (x * y + z) - (x * y + z) = u * (x * y + z) by ring, abs_mul, abs_of_pos hu]
  · rw [hr.platform]
    exact h2

/-- non-vacuity: the small system with phonons satisfies all hypotheses; the density of its first orbital is reliable, and there are
arithmetics of any accuracy with fused operations -/
example : ∃ mc : Machine, ∃ sys : Sys Seed (sites exW) MeasData, ∃ v : ℝ,
    Reliable mc "" (idealRng (sites exW)) (independent (drawDist (sites exW))) sys AnyOrder (.eq .densityU 0) .eqSign v ∧
    ∃ u₁ : ℝ, 0 < u₁ ∧ ∀ u : ℝ, 0 < u → u ≤ u₁ →
      ∃ (pl : Platform (sites exW)) (bl : BlockArith), AnyOrder u pl bl ∧ pl.add 1 1 ≠ 2 := by
  obtain ⟨mc, hmc⟩ := machine_exists
  obtain ⟨sys, hsys, -⟩ := sys_defined hmc exW_admissible exW_guards.U exW_guards.shift (by decide) ""
  have hmv : Movable exW := by
    refine ⟨rfl, by decide, Or.inl (by decide), ?_, fun _ _ => ?_, fun _ _ => ?_, ?_, ?_, ?_⟩ <;> norm_num [exW, exQ, exPph, exP]
  have h := program_reordered_converges_ph hmc exW_admissible exW_guards (by decide) hmv "" (idealRng (sites exW)) (idealRng_lawful _)
    (idealRng_ideal _) sys hsys
  obtain ⟨u₁, h1, h2⟩ := anyOrder_exists (sites exW)
  refine ⟨mc, sys, _, (h.1 (by decide) (by decide)).1.dens .densityU (by decide) 0 (by decide), u₁, h1, fun u hu hle => ?_⟩
  obtain ⟨pl, bl, h3, h4, -⟩ := h2 u hu hle
  exact ⟨pl, bl, h3, h4⟩

end Verif.Rounded.Ph
