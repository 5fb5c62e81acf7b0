import Mathlib.Algebra.BigOperators.Fin
import Mathlib.Algebra.Module.Submodule.Map
import Mathlib.Algebra.Order.BigOperators.Ring.Finset
import Mathlib.Data.Real.Basic
import Mathlib.Data.Fintype.Prod
import Mathlib.LinearAlgebra.Pi
import Mathlib.Tactic.LinearCombination
import Mathlib.Tactic.FieldSimp
import Mathlib.Tactic.Linarith
import Mathlib.Algebra.Group.Fin.Basic

/-! # Functions which sequences of Metropolis updates leave invariant

Each update averages a function over two elements.  In the norm with the weights of the elements it is a strict
contraction, unless the two weights or the two values of the function are equal. -/

set_option autoImplicit false

namespace Verif.Ergodic

variable {X : Type} [Fintype X]

noncomputable def wnorm (w : X → ℝ) (f : X → ℝ) : ℝ := ∑ x, w x * f x ^ 2

/-- On the functions in `V`, the map `K` preserves the weighted sum and does not increase the norm; if it preserves the norm
of a function, the function is invariant under `K` and the maps in `S`. -/
structure Contracts (w : X → ℝ) (V : Submodule ℝ (X → ℝ)) (K : (X → ℝ) → X → ℝ) (S : Set (X → X)) : Prop where
  mem : ∀ f ∈ V, K f ∈ V
  sum : ∀ f ∈ V, ∑ x, w x * K f x = ∑ x, w x * f x
  le : ∀ f ∈ V, wnorm w (K f) ≤ wnorm w f
  eq : ∀ f ∈ V, wnorm w (K f) = wnorm w f → K f = f ∧ ∀ τ ∈ S, ∀ x, f (τ x) = f x

variable {w : X → ℝ} {V : Submodule ℝ (X → ℝ)}

/-- expected value of a function after the proposal to go to `τ x` -/
noncomputable def flipMean (w : X → ℝ) (τ : X → X) (f : X → ℝ) (x : X) : ℝ :=
  min 1 (w (τ x) / w x) * f (τ x) + (1 - min 1 (w (τ x) / w x)) * f x

theorem sum_pairs {τ : X → X} (hτ : ∀ x, τ (τ x) = x) (G : X → ℝ) : ∑ x, G x = 1 / 2 * ∑ x, (G x + G (τ x)) := by
  have : ∑ x, G (τ x) = ∑ x, G x := Equiv.sum_comp (⟨τ, τ, hτ, hτ⟩ : X ≃ X) G
  rw [Finset.sum_add_distrib, this]
  ring

/-- the loss of norm in a pair of elements -/
noncomputable def loss (a b : ℝ) : ℝ := min a b * (1 - min a b / max a b)

theorem loss_nonneg {a b : ℝ} (ha : 0 < a) (hb : 0 < b) : 0 ≤ loss a b := by
  unfold loss
  refine mul_nonneg (lt_min ha hb).le (sub_nonneg.2 ?_)
  rw [div_le_one (lt_max_of_lt_left ha)]
  exact min_le_max

theorem loss_pos {a b : ℝ} (ha : 0 < a) (hb : 0 < b) (h : a ≠ b) : 0 < loss a b := by
  unfold loss
  refine mul_pos (lt_min ha hb) (sub_pos.2 ?_)
  rw [div_lt_one (lt_max_of_lt_left ha)]
  exact min_lt_max.2 h

theorem pair_loss {a b u v : ℝ} (ha : 0 < a) (hb : 0 < b) :
    (a * u ^ 2 - a * (min 1 (b / a) * v + (1 - min 1 (b / a)) * u) ^ 2)
      + (b * v ^ 2 - b * (min 1 (a / b) * u + (1 - min 1 (a / b)) * v) ^ 2) = loss a b * (v - u) ^ 2 := by
  unfold loss
  rcases le_total a b with h | h
  · rw [min_eq_left ((one_le_div ha).2 h), min_eq_right ((div_le_one hb).2 h), min_eq_left h, max_eq_right h]
    field_simp
    ring
  · rw [min_eq_right ((div_le_one ha).2 h), min_eq_left ((one_le_div hb).2 h), min_eq_right h, max_eq_left h]
    field_simp
    ring

theorem flip_loss (hw : ∀ x, 0 < w x) {τ : X → X} (hτ : ∀ x, τ (τ x) = x) (f : X → ℝ) :
    wnorm w f - wnorm w (flipMean w τ f) = 1 / 2 * ∑ x, loss (w x) (w (τ x)) * (f (τ x) - f x) ^ 2 := by
  unfold wnorm
  rw [← Finset.sum_sub_distrib, sum_pairs hτ]
  congr 1
  refine Finset.sum_congr rfl fun x _ => ?_
  unfold flipMean
  rw [hτ]
  exact pair_loss (hw x) (hw (τ x))

theorem flip_sum (hw : ∀ x, 0 < w x) {τ : X → X} (hτ : ∀ x, τ (τ x) = x) (f : X → ℝ) :
    ∑ x, w x * flipMean w τ f x = ∑ x, w x * f x := by
  rw [sum_pairs hτ, sum_pairs hτ fun x => w x * f x]
  congr 1
  refine Finset.sum_congr rfl fun x _ => ?_
  unfold flipMean
  rw [hτ]
  have ha := hw x
  have hb := hw (τ x)
  rcases le_total (w x) (w (τ x)) with h | h
  · rw [min_eq_left ((one_le_div ha).2 h), min_eq_right ((div_le_one hb).2 h)]
    field_simp
    ring
  · rw [min_eq_right ((div_le_one ha).2 h), min_eq_left ((one_le_div hb).2 h)]
    field_simp
    ring

/-- an update which always changes the weight, or which the functions in `V` do not notice -/
theorem Contracts.flip (hw : ∀ x, 0 < w x) {τ : X → X} (hτ : ∀ x, τ (τ x) = x)
    (hV : ∀ f ∈ V, flipMean w τ f ∈ V) (h : (∀ x, w (τ x) ≠ w x) ∨ ∀ f ∈ V, ∀ x, f (τ x) = f x) :
    Contracts w V (flipMean w τ) {τ} := by
  have hl : ∀ (f : X → ℝ) x, 0 ≤ loss (w x) (w (τ x)) * (f (τ x) - f x) ^ 2 := fun f x =>
    mul_nonneg (loss_nonneg (hw _) (hw _)) (sq_nonneg _)
  have key : ∀ f ∈ V, wnorm w (flipMean w τ f) = wnorm w f → ∀ x, f (τ x) = f x := by
    intro f hf he x
    rcases h with h | h
    · have h0 := flip_loss hw hτ f
      rw [he, sub_self] at h0
      have h1 : ∑ x, loss (w x) (w (τ x)) * (f (τ x) - f x) ^ 2 = 0 := by linarith
      have h2 := (Finset.sum_eq_zero_iff_of_nonneg fun x _ => hl f x).1 h1 x (Finset.mem_univ x)
      rcases mul_eq_zero.1 h2 with h3 | h3
      · exact absurd h3 (loss_pos (hw _) (hw _) (h x).symm).ne'
      · exact sub_eq_zero.1 (pow_eq_zero_iff two_ne_zero |>.1 h3)
    · exact h f hf x
  refine ⟨hV, fun f _ => flip_sum hw hτ f, fun f hf => ?_, fun f hf he => ⟨funext fun x => ?_, fun σ hσ x => ?_⟩⟩
  · have h0 := flip_loss hw hτ f
    have : 0 ≤ ∑ x, loss (w x) (w (τ x)) * (f (τ x) - f x) ^ 2 := Finset.sum_nonneg fun x _ => hl f x
    linarith
  · unfold flipMean
    rw [key f hf he x]
    ring
  · rw [Set.mem_singleton_iff.1 hσ]
    exact key f hf he x

theorem Contracts.id : Contracts w V (fun f => f) ∅ :=
  ⟨fun _ h => h, fun _ _ => rfl, fun _ _ => le_rfl, fun _ _ _ => ⟨rfl, fun _ h => absurd h (Set.notMem_empty _)⟩⟩

theorem Contracts.comp {K₁ K₂ : (X → ℝ) → X → ℝ} {S₁ S₂ : Set (X → X)} (h₁ : Contracts w V K₁ S₁)
    (h₂ : Contracts w V K₂ S₂) : Contracts w V (fun f => K₁ (K₂ f)) (S₁ ∪ S₂) := by
  refine ⟨fun f hf => h₁.mem _ (h₂.mem _ hf), fun f hf => (h₁.sum _ (h₂.mem _ hf)).trans (h₂.sum _ hf),
    fun f hf => (h₁.le _ (h₂.mem _ hf)).trans (h₂.le _ hf), fun f hf he => ?_⟩
  have e2 : wnorm w (K₂ f) = wnorm w f := le_antisymm (h₂.le _ hf) (he ▸ h₁.le _ (h₂.mem _ hf))
  obtain ⟨a2, b2⟩ := h₂.eq f hf e2
  rw [a2] at he
  obtain ⟨a1, b1⟩ := h₁.eq f hf he
  refine ⟨by rw [a2, a1], fun τ hτ => ?_⟩
  rcases hτ with hτ | hτ
  · exact b1 τ hτ
  · exact b2 τ hτ

/-- a random choice between several maps -/
theorem Contracts.mix {Ω : Type} [Fintype Ω] [Nonempty Ω] (hw : ∀ x, 0 < w x) {c : ℝ} (hc : 0 < c)
    (h1 : ∑ _p : Ω, c = 1) {K : Ω → (X → ℝ) → X → ℝ} {S : Ω → Set (X → X)} (h : ∀ p, Contracts w V (K p) (S p)) :
    Contracts w V (fun f x => ∑ p, c * K p f x) (⋃ p, S p) := by
  have jensen : ∀ f, wnorm w (fun x => ∑ p, c * K p f x) ≤ ∑ p, c * wnorm w (K p f) := by
    intro f
    unfold wnorm
    have e : ∑ p, c * ∑ x, w x * K p f x ^ 2 = ∑ x, w x * ∑ p, c * K p f x ^ 2 := by
      simp only [Finset.mul_sum]
      rw [Finset.sum_comm]
      refine Finset.sum_congr rfl fun x _ => Finset.sum_congr rfl fun p _ => by ring
    rw [e]
    refine Finset.sum_le_sum fun x _ => mul_le_mul_of_nonneg_left ?_ (hw x).le
    -- the square of the mean is at most the mean of the squares
    beta_reduce
    have : 0 ≤ ∑ p, c * (K p f x - ∑ p, c * K p f x) ^ 2 :=
      Finset.sum_nonneg fun p _ => mul_nonneg hc.le (sq_nonneg _)
    generalize hm : ∑ p, c * K p f x = m at this ⊢
    have e2 : ∑ p, c * (K p f x - m) ^ 2 = ∑ p, c * K p f x ^ 2 - 2 * m * ∑ p, c * K p f x + m ^ 2 * ∑ _p : Ω, c := by
      rw [Finset.mul_sum, Finset.mul_sum, ← Finset.sum_sub_distrib, ← Finset.sum_add_distrib]
      exact Finset.sum_congr rfl fun p _ => by ring
    rw [e2, h1, hm] at this
    nlinarith
  have mean_le : ∀ f ∈ V, ∑ p, c * wnorm w (K p f) ≤ wnorm w f := by
    intro f hf
    calc ∑ p, c * wnorm w (K p f) ≤ ∑ _p : Ω, c * wnorm w f :=
          Finset.sum_le_sum fun p _ => mul_le_mul_of_nonneg_left ((h p).le f hf) hc.le
      _ = wnorm w f := by rw [← Finset.sum_mul, h1, one_mul]
  refine ⟨fun f hf => ?_, fun f hf => ?_, fun f hf => (jensen f).trans (mean_le f hf), fun f hf he => ?_⟩
  · have e : (fun x => ∑ p, c * K p f x) = ∑ p, c • K p f := by
      funext x
      simp
    rw [e]
    exact V.sum_mem fun p _ => V.smul_mem c ((h p).mem f hf)
  · have e : ∑ x, w x * ∑ p, c * K p f x = ∑ p, c * ∑ x, w x * K p f x := by
      simp only [Finset.mul_sum]
      rw [Finset.sum_comm]
      refine Finset.sum_congr rfl fun x _ => Finset.sum_congr rfl fun p _ => by ring
    rw [e]
    simp only [fun p => (h p).sum f hf]
    rw [← Finset.sum_mul, h1, one_mul]
  · have e1 : ∑ p, c * wnorm w (K p f) = ∑ _p : Ω, c * wnorm w f := by
      refine le_antisymm (Finset.sum_le_sum fun p _ => mul_le_mul_of_nonneg_left ((h p).le f hf) hc.le) ?_
      rw [← Finset.sum_mul, h1, one_mul]
      exact (le_of_eq he.symm).trans (jensen f)
    have e2 := (Finset.sum_eq_sum_iff_of_le fun p _ => mul_le_mul_of_nonneg_left ((h p).le f hf) hc.le).1 e1
    have e3 : ∀ p, wnorm w (K p f) = wnorm w f := fun p => mul_left_cancel₀ hc.ne' (e2 p (Finset.mem_univ p))
    refine ⟨funext fun x => ?_, fun τ hτ => ?_⟩
    · simp only [fun p => ((h p).eq f hf (e3 p)).1]
      rw [← Finset.sum_mul, h1, one_mul]
    · obtain ⟨p, hp⟩ := Set.mem_iUnion.1 hτ
      exact ((h p).eq f hf (e3 p)).2 τ hp

/-! ## Periodic sequences of maps -/

section cycle

variable {m : ℕ} [NeZero m] {K : Fin m → (X → ℝ) → X → ℝ} {S : Fin m → Set (X → X)}

/-- the functions on `Fin m × X` which are in `V` at each position of the cycle -/
def cycleV (m : ℕ) (V : Submodule ℝ (X → ℝ)) : Submodule ℝ (Fin m × X → ℝ) where
  carrier := {f | ∀ c, (fun x => f (c, x)) ∈ V}
  add_mem' ha hb c := V.add_mem (ha c) (hb c)
  zero_mem' _ := V.zero_mem
  smul_mem' a _ hf c := V.smul_mem a (hf c)

/-- expected value of a function of position and element after one step -/
def cycleMean (K : Fin m → (X → ℝ) → X → ℝ) (f : Fin m × X → ℝ) (y : Fin m × X) : ℝ :=
  K y.1 (fun x => f (y.1 + 1, x)) y.2

theorem cycle_mem (h : ∀ c, Contracts w V (K c) (S c)) {f : Fin m × X → ℝ} (hf : f ∈ cycleV m V) :
    cycleMean K f ∈ cycleV m V := fun c => (h c).mem _ (hf (c + 1))

theorem sum_shift (g : Fin m → ℝ) : ∑ c, g (c + 1) = ∑ c, g c := Equiv.sum_comp (Equiv.addRight (1 : Fin m)) g

theorem cycle_sum (h : ∀ c, Contracts w V (K c) (S c)) {f : Fin m × X → ℝ} (hf : f ∈ cycleV m V) :
    ∑ y : Fin m × X, w y.2 * cycleMean K f y = ∑ y : Fin m × X, w y.2 * f y := by
  rw [Fintype.sum_prod_type, Fintype.sum_prod_type]
  have e : ∀ c, ∑ x, w x * cycleMean K f (c, x) = ∑ x, w x * f (c + 1, x) := fun c => (h c).sum _ (hf (c + 1))
  simp only [e]
  exact sum_shift fun c => ∑ x, w x * f (c, x)

theorem cycle_const (h : ∀ c, Contracts w V (K c) (S c))
    (hall : ∀ g ∈ V, (∀ c, ∀ τ ∈ S c, ∀ x, g (τ x) = g x) → ∃ a, g = fun _ => a) {f : Fin m × X → ℝ}
    (hf : f ∈ cycleV m V) (he : cycleMean K f = f) : ∃ a, f = fun _ => a := by
  have hfc : ∀ c, K c (fun x => f (c + 1, x)) = fun x => f (c, x) := fun c => funext fun x => congrFun he (c, x)
  have hle : ∀ c, wnorm w (fun x => f (c, x)) ≤ wnorm w (fun x => f (c + 1, x)) := by
    intro c
    rw [← hfc c]
    exact (h c).le _ (hf (c + 1))
  have heq : ∀ c, wnorm w (fun x => f (c, x)) = wnorm w (fun x => f (c + 1, x)) := by
    have hs := sum_shift fun c => wnorm w (fun x => f (c, x))
    exact fun c => (Finset.sum_eq_sum_iff_of_le fun c _ => hle c).1 hs.symm c (Finset.mem_univ c)
  have hinv := fun c => (h c).eq _ (hf (c + 1)) (by rw [hfc c, heq c])
  have hsame : ∀ c, (fun x => f (c, x)) = fun x => f (c + 1, x) := fun c => (hfc c).symm.trans (hinv c).1
  have h0 : ∀ k : ℕ, ∀ hk : k < m, (fun x => f (⟨k, hk⟩, x)) = fun x => f ((0 : Fin m), x) := by
    intro k
    induction k with
    | zero => exact fun hk => rfl
    | succ k ih =>
      intro hk
      have e : (⟨k, by omega⟩ : Fin m) + 1 = ⟨k + 1, hk⟩ := by
        refine Fin.ext ?_
        rw [Fin.val_add]
        have h1 : (1 : Fin m).val = 1 := by
          rw [Fin.val_one']
          exact Nat.mod_eq_of_lt (by omega)
        rw [h1]
        exact Nat.mod_eq_of_lt hk
      rw [← ih (by omega), hsame ⟨k, _⟩, e]
  have hz : ∀ c : Fin m, (fun x => f (c, x)) = fun x => f ((0 : Fin m), x) := fun c => h0 c.1 c.2
  obtain ⟨a, ha⟩ := hall _ (hf 0) fun c τ hτ x => by
    have := (hinv c).2 τ hτ x
    rw [congrFun (hz (c + 1)) (τ x), congrFun (hz (c + 1)) x] at this
    exact this
  exact ⟨a, funext fun y => (congrFun (hz y.1) y.2).trans (congrFun ha y.2)⟩

end cycle

end Verif.Ergodic
