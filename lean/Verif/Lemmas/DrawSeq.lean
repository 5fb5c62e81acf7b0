import Verif.Lemmas.Metropolis
import Mathlib.MeasureTheory.Constructions.Pi
import Mathlib.MeasureTheory.Measure.Lebesgue.Basic

/-! # Sequences of draws from a source of random numbers -/

set_option autoImplicit false

namespace Verif.DrawSeq

open MeasureTheory Verif.Metropolis

variable {σ α : Type}

/-- state after `n` draws -/
def after (step : ℕ → σ → α × σ) : ℕ → σ → σ
  | 0, r => r
  | n + 1, r => (step n (after step n r)).2

/-- the first `n` draws and the state left behind -/
def draws (step : ℕ → σ → α × σ) (n : ℕ) (r : σ) : (Fin n → α) × σ :=
  (fun k => (step k (after step k r)).1, after step n r)

theorem after_add (step : ℕ → σ → α × σ) (a b : ℕ) (r : σ) :
    after step (a + b) r = after (fun k => step (a + k)) b (after step a r) := by
  induction b with
  | zero => rfl
  | succ b ih =>
    show (step (a + b) (after step (a + b) r)).2 = _
    rw [ih]
    rfl

/-- the array filled by a loop -/
theorem fold_draws (step : ℕ → σ → α × σ) (d : ℕ → α) (n : ℕ) (r : σ) :
    (List.range n).foldl (fun a k => (Function.update a.1 k (step k a.2).1, (step k a.2).2)) (d, r)
      = (fun k => if k < n then (step k (after step k r)).1 else d k, after step n r) := by
  induction n with
  | zero => simp [after]
  | succ n ih =>
    rw [List.range_succ, List.foldl_append, ih]
    simp only [List.foldl_cons, List.foldl_nil, after]
    refine Prod.ext (funext fun k => ?_) rfl
    by_cases hk : k = n
    · subst hk; simp
    · simp only [Function.update_of_ne hk]
      have : k < n + 1 ↔ k < n := by omega
      simp only [this]

/-- rows of `N` draws each -/
def row (step : ℕ → σ → α × σ) (N l : ℕ) (r : σ) : (Fin N → α) × σ := draws (fun k => step (l * N + k)) N r

theorem after_row (step : ℕ → σ → α × σ) (N l : ℕ) (r : σ) : after (row step N) l r = after step (l * N) r := by
  induction l with
  | zero => simp [after]
  | succ l ih =>
    show (row step N l (after (row step N) l r)).2 = _
    rw [ih, Nat.succ_mul, after_add]
    rfl

theorem draws_row (step : ℕ → σ → α × σ) (N L : ℕ) (r : σ) :
    draws (row step N) L r = (fun (l : Fin L) (i : Fin N) => (step (l * N + i) (after step (l * N + i) r)).1, after step (L * N) r) := by
  refine Prod.ext (funext fun l => funext fun i => ?_) (after_row step N L r)
  show (row step N l (after (row step N) l r)).1 i = (step (l * N + i) (after step (l * N + i) r)).1
  rw [after_row, after_add]
  rfl

variable [MeasurableSpace σ] [MeasurableSpace α] {P : Measure σ} [IsProbabilityMeasure P]

theorem draws_succ (step : ℕ → σ → α × σ) (n : ℕ) :
    draws step (n + 1) = (Prod.map (MeasurableEquiv.piFinSuccAbove (fun _ : Fin (n + 1) => α) (Fin.last n)).symm id) ∘
      (Prod.map Prod.swap id) ∘ (MeasurableEquiv.prodAssoc.symm : (Fin n → α) × α × σ → ((Fin n → α) × α) × σ) ∘
      (Prod.map id (step n)) ∘ draws step n := by
  funext r
  refine Prod.ext (funext fun k => ?_) rfl
  simp only [Function.comp_apply, draws, Prod.map, MeasurableEquiv.piFinSuccAbove, id]
  show _ = Fin.insertNth (α := fun _ => α) (Fin.last n) _ _ k
  rw [Fin.insertNth_last']
  refine Fin.lastCases ?_ (fun j => ?_) k
  · rw [Fin.snoc_last]
    rfl
  · rw [Fin.snoc_castSucc]
    rfl

/-- independent draws -/
theorem draws_preserving (step : ℕ → σ → α × σ) (μ : ℕ → Measure α) [∀ k, SigmaFinite (μ k)]
    (h : ∀ k, MeasurePreserving (step k) P ((μ k).prod P)) (n : ℕ) :
    MeasurePreserving (draws step n) P ((Measure.pi fun k : Fin n => μ k).prod P) := by
  induction n with
  | zero =>
    refine ⟨measurable_pi_lambda _ (fun k => k.elim0) |>.prodMk measurable_id, ?_⟩
    rw [Measure.pi_of_empty _ (fun k : Fin 0 => k.elim0), Measure.dirac_prod]
    congr 1
    funext r
    exact Prod.ext (Subsingleton.elim _ _) rfl
  | succ n ih =>
    rw [draws_succ]
    have e : MeasurePreserving (MeasurableEquiv.piFinSuccAbove (fun _ : Fin (n + 1) => α) (Fin.last n)).symm
        ((μ n).prod (Measure.pi fun k : Fin n => μ k)) (Measure.pi fun k : Fin (n + 1) => μ k) := by
      have h0 := (measurePreserving_piFinSuccAbove (fun k : Fin (n + 1) => μ k) (Fin.last n)).symm
      simp only [Fin.succAbove_last, Fin.val_last, Fin.val_castSucc] at h0
      exact h0
    exact (e.prod (MeasurePreserving.id P)).comp ((Measure.measurePreserving_swap.prod (MeasurePreserving.id P)).comp
      ((measurePreserving_prodAssoc _ _ _).symm.comp (((MeasurePreserving.id _).prod (h n)).comp ih)))

/-- absolutely continuous draws -/
theorem draws_quasi (step : ℕ → σ → α × σ) (μ : ℕ → Measure α) [∀ k, SigmaFinite (μ k)]
    (h : ∀ k, Measure.QuasiMeasurePreserving (step k) P ((μ k).prod P)) (n : ℕ) :
    Measure.QuasiMeasurePreserving (draws step n) P ((Measure.pi fun k : Fin n => μ k).prod P) := by
  induction n with
  | zero =>
    refine MeasurePreserving.quasiMeasurePreserving
      ⟨measurable_pi_lambda _ (fun k => k.elim0) |>.prodMk measurable_id, ?_⟩
    rw [Measure.pi_of_empty _ (fun k : Fin 0 => k.elim0), Measure.dirac_prod]
    congr 1
    funext r
    exact Prod.ext (Subsingleton.elim _ _) rfl
  | succ n ih =>
    rw [draws_succ]
    have e : MeasurePreserving (MeasurableEquiv.piFinSuccAbove (fun _ : Fin (n + 1) => α) (Fin.last n)).symm
        ((μ n).prod (Measure.pi fun k : Fin n => μ k)) (Measure.pi fun k : Fin (n + 1) => μ k) := by
      have h0 := (measurePreserving_piFinSuccAbove (fun k : Fin (n + 1) => μ k) (Fin.last n)).symm
      simp only [Fin.succAbove_last, Fin.val_last, Fin.val_castSucc] at h0
      exact h0
    exact (e.prod (MeasurePreserving.id P)).quasiMeasurePreserving.comp
      ((Measure.measurePreserving_swap.prod (MeasurePreserving.id P)).quasiMeasurePreserving.comp
      ((measurePreserving_prodAssoc _ _ _).symm.quasiMeasurePreserving.comp
      ((QuasiMeasurePreserving.prodMap (Measure.QuasiMeasurePreserving.id _) (h n)).comp ih)))

/-- a uniform number in a box has a density -/
theorem box_quasi (c w : ℝ) (hw : w ≠ 0) : Measure.QuasiMeasurePreserving (fun u : ℝ => (u - c) * w) unit volume := by
  have hm : Measurable fun u : ℝ => (u - c) * w := (measurable_id.sub_const c).mul_const w
  refine ⟨hm, Measure.AbsolutelyContinuous.mk fun s hs h0 => ?_⟩
  rw [Measure.map_apply hm hs]
  refine (Measure.restrict_le_self (μ := volume) (s := Set.Ioc 0 1)).absolutelyContinuous ?_
  have e : (fun u : ℝ => (u - c) * w) ⁻¹' s = (fun u => u - c) ⁻¹' ((· * w) ⁻¹' s) := rfl
  rw [e, (measurePreserving_sub_right volume c).measure_preimage ((measurable_mul_const w) hs).nullMeasurableSet,
    Real.volume_preimage_mul_right hw, h0, mul_zero]

end Verif.DrawSeq
