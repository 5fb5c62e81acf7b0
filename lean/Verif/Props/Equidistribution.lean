import Verif.Props.Period
import Mathlib.SetTheory.Cardinal.Finite
import Mathlib.Data.Fintype.Card

/-! # C100: sixteen consecutive outputs of the generator -/

set_option autoImplicit false

namespace Verif.Random

/-- the first sixteen outputs for given words of the state -/
def sixteen (p : Fin 16) (s : Fin 16 → BitVec 64) : Fin 16 → BitVec 64 := fun k => outputAt ⟨s, p⟩ k

theorem stateAt_p (sd : Seed) (n : ℕ) : (stateAt sd n).p = sd.p + (Fin.ofNat 16 n) := by
  induction n with
  | zero => simp [stateAt]
  | succ n ih =>
    rw [stateAt, getUint_p, ih, add_assoc]
    congr 1
    ext
    simp [Fin.val_add, Fin.ofNat]

theorem stateAt_other (sd : Seed) (n : ℕ) (i : Fin 16) (h : i ≠ sd.p + Fin.ofNat 16 (n + 1)) :
    (stateAt sd (n + 1)).s i = (stateAt sd n).s i := by
  rw [stateAt, getUint_s, Function.update_of_ne]
  rw [← getUint_p, show (getUint (stateAt sd n)).2 = stateAt sd (n + 1) from rfl, stateAt_p]
  exact h

/-- the word written in a step determines the output and is determined by it -/
theorem stateAt_new (sd : Seed) (n : ℕ) :
    (stateAt sd (n + 1)).s (sd.p + Fin.ofNat 16 (n + 1)) * 1181783497276652981#64 = outputAt sd n := by
  rw [outputAt, getUint_fst, ← stateAt_p]
  rfl

/-- after `n + k` steps, `k < 16`, the word written in step `n` is still there -/
theorem stateAt_kept (sd : Seed) (n k : ℕ) (hk : k < 16) :
    (stateAt sd (n + 1 + k)).s (sd.p + Fin.ofNat 16 (n + 1)) = (stateAt sd (n + 1)).s (sd.p + Fin.ofNat 16 (n + 1)) := by
  induction k with
  | zero => rfl
  | succ k ih =>
    rw [← add_assoc, stateAt_other _ _ _ ?_, ih (by omega)]
    intro h
    have h := congrArg Fin.val (add_left_cancel h)
    simp only [Fin.ofNat] at h
    omega

/-- after sixteen steps the state is determined by the outputs -/
theorem state_of_outputs (sd sd' : Seed) (hp : sd.p = sd'.p) (h : ∀ k < 16, outputAt sd k = outputAt sd' k) :
    stateAt sd 16 = stateAt sd' 16 := by
  have hs : (stateAt sd 16).s = (stateAt sd' 16).s := by
    funext i
    obtain ⟨n, hn, rfl⟩ : ∃ n < 16, i = sd.p + Fin.ofNat 16 (n + 1) := by
      generalize sd.p = p
      revert i p
      decide
    have e : n + 1 + (15 - n) = 16 := by omega
    have e1 := stateAt_kept sd n (15 - n) (by omega)
    have e2 := stateAt_kept sd' n (15 - n) (by omega)
    rw [e] at e1 e2
    rw [e1]
    have e3 := stateAt_new sd n
    have e4 := stateAt_new sd' n
    rw [h n hn, ← e4] at e3
    rw [hp, e2]
    rw [hp] at e3
    exact mul_inj_of_inv _ 13515856136758413469#64 (by decide) e3
  have hp' : (stateAt sd 16).p = (stateAt sd' 16).p := by rw [stateAt_p, stateAt_p, hp]
  cases h1 : stateAt sd 16
  cases h2 : stateAt sd' 16
  rw [h1, h2] at hs hp'
  simp only at hs hp'
  rw [hs, hp']

theorem stateAt_inj (n : ℕ) (sd sd' : Seed) (h : stateAt sd n = stateAt sd' n) : sd = sd' := by
  induction n with
  | zero => exact h
  | succ n ih => exact ih (getUint_injective h)

/-- C100: every sequence of sixteen words is the output of exactly one state (for each value of the counter) -/
theorem sixteen_bijective (p : Fin 16) : Function.Bijective (sixteen p) := by
  refine Finite.injective_iff_bijective.1 fun s s' h => ?_
  have h16 := state_of_outputs ⟨s, p⟩ ⟨s', p⟩ rfl fun k hk => congrFun h ⟨k, hk⟩
  have := stateAt_inj 16 _ _ h16
  exact congrArg Seed.s this

/-- C100: the sixteen outputs determine the state and with it all that follow -/
theorem outputs_determine (sd sd' : Seed) (hp : sd.p = sd'.p) (h : ∀ k < 16, outputAt sd k = outputAt sd' k) (n : ℕ) :
    outputAt sd n = outputAt sd' n := by
  rw [stateAt_inj 16 _ _ (state_of_outputs sd sd' hp h)]

/-- C100: any sixteen consecutive outputs, starting at any time -/
theorem sixteen_later (n : ℕ) (p : Fin 16) :
    Function.Bijective fun s : Fin 16 → BitVec 64 => fun k : Fin 16 => outputAt ⟨s, p⟩ (n + k) := by
  have e : (fun s : Fin 16 → BitVec 64 => fun k : Fin 16 => outputAt ⟨s, p⟩ (n + k))
      = fun s => sixteen (stateAt ⟨s, p⟩ n).p (stateAt ⟨s, p⟩ n).s := by
    funext s k
    unfold sixteen
    rw [show (⟨(stateAt ⟨s, p⟩ n).s, (stateAt ⟨s, p⟩ n).p⟩ : Seed) = stateAt ⟨s, p⟩ n from rfl]
    unfold outputAt
    congr 2
    generalize (k : ℕ) = j
    induction j with
    | zero => rfl
    | succ j ih => rw [← add_assoc, stateAt, ih]; rfl
  rw [e]
  refine Finite.injective_iff_bijective.1 fun s s' h => ?_
  simp only [stateAt_p] at h
  have h1 := (sixteen_bijective _).1 h
  have h2 := stateAt_inj n ⟨s, p⟩ ⟨s', p⟩ (by
    have hp' : (stateAt ⟨s, p⟩ n).p = (stateAt ⟨s', p⟩ n).p := by rw [stateAt_p, stateAt_p]
    cases a : stateAt ⟨s, p⟩ n
    cases b : stateAt ⟨s', p⟩ n
    rw [a, b] at h1 hp'
    simp only at h1 hp'
    rw [h1, hp'])
  exact congrArg Seed.s h2

/-- seventeen outputs are not free: the seventeenth follows from the others -/
example : ∃ o : Fin 17 → BitVec 64, ¬ ∃ s : Fin 16 → BitVec 64, ∀ k : Fin 17, outputAt ⟨s, 0⟩ k = o k := by
  by_contra hc
  push Not at hc
  obtain ⟨s, hs⟩ := hc fun _ => 0#64
  obtain ⟨s', hs'⟩ := hc fun k => if k = 16 then 1#64 else 0#64
  have h := outputs_determine ⟨s, 0⟩ ⟨s', 0⟩ rfl (fun k hk => by
    have h1 := hs ⟨k, by omega⟩
    have h2 := hs' ⟨k, by omega⟩
    rw [if_neg (by intro h; have := congrArg Fin.val h; simp at this; omega)] at h2
    exact h1.trans h2.symm) 16
  have h1 := hs 16
  have h2 := hs' 16
  rw [if_pos rfl] at h2
  have : (0#64 : BitVec 64) = 1#64 := h1.symm.trans (h.trans h2)
  exact absurd this (by decide)

end Verif.Random
