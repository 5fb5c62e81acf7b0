import Verif.Model.Measurement
import Mathlib.Tactic.Linarith
import Mathlib.Tactic.Ring
import Mathlib.Algebra.BigOperators.Fin

/-! # Facts about the loops of the measurement code -/

set_option autoImplicit false

namespace Verif.Measurement

open Matrix Verif.Lapack Verif.TimeFlow Verif.Greens Verif.Mem

/-! ## Loops with defined bodies -/

theorem mapM_eq_some {α β : Type} (l : List α) (f : α → Option β) (g : α → β)
    (h : ∀ a ∈ l, f a = some (g a)) : l.mapM f = some (l.map g) := by
  induction l with
  | nil => rfl
  | cons a l ih =>
    rw [List.mapM_cons, h a (List.mem_cons_self ..),
      ih fun b hb => h b (List.mem_cons_of_mem _ hb)]
    rfl

theorem loopM_eq {β : Type} {n : ℕ} {f : ℕ → Option (List β)} (g : ℕ → List β)
    (h : ∀ i < n, f i = some (g i)) : loopM n f = some (forLoop n g) := by
  unfold loopM forLoop
  rw [mapM_eq_some _ f g fun i hi => h i (List.mem_range.1 hi)]
  rfl

theorem sumM_eq {n : ℕ} {f : ℕ → Option ℝ} (g : ℕ → ℝ) (h : ∀ i < n, f i = some (g i)) :
    sumM n f = some (∑ i ∈ Finset.range n, g i) := by
  unfold sumM
  induction n with
  | zero => rfl
  | succ n ih =>
    rw [List.range_succ, List.foldlM_append, ih fun i hi => h i (by omega)]
    simp [h n (by omega), Finset.sum_range_succ]

theorem foldlM_terms (ts : List (ℝ × ℤ × ℤ)) (f : ℤ → ℤ → Option ℝ) (g : ℤ → ℤ → ℝ) (a : ℝ)
    (h : ∀ t ∈ ts, f t.2.1 t.2.2 = some (g t.2.1 t.2.2)) :
    ts.foldlM (fun a t => (f t.2.1 t.2.2).map (a + t.1 * ·)) a
      = some (a + (ts.map fun t => t.1 * g t.2.1 t.2.2).sum) := by
  induction ts generalizing a with
  | nil => simp
  | cons t ts ih =>
    rw [List.foldlM_cons, h t (List.mem_cons_self ..)]
    show (some (a + t.1 * g t.2.1 t.2.2) >>= _) = _
    rw [Option.bind_eq_bind, Option.bind_some,
      ih _ fun t' ht' => h t' (List.mem_cons_of_mem _ ht'), List.map_cons, List.sum_cons, add_assoc]

theorem sumTerms_eq {ts : List (ℝ × ℤ × ℤ)} {f : ℤ → ℤ → Option ℝ} (g : ℤ → ℤ → ℝ)
    (h : ∀ t ∈ ts, f t.2.1 t.2.2 = some (g t.2.1 t.2.2)) :
    sumTerms ts f = some ((ts.map fun t => t.1 * g t.2.1 t.2.2).sum) := by
  unfold sumTerms
  rw [foldlM_terms ts f g 0 h, zero_add]

/-! ## Executing additions -/

variable {A : Type} [DecidableEq A]

/-- what a list of additions contributes to an entry -/
def total (ws : List (Add A)) (a : A) (z : ℤ) : ℝ :=
  (ws.map fun w => if w.1 = a ∧ w.2.1 = z then w.2.2 else 0).sum

theorem total_nil (a : A) (z : ℤ) : total ([] : List (Add A)) a z = 0 := rfl

theorem total_cons (w : Add A) (ws : List (Add A)) (a : A) (z : ℤ) :
    total (w :: ws) a z = (if w.1 = a ∧ w.2.1 = z then w.2.2 else 0) + total ws a z := by
  simp [total]

theorem total_append (ws ws' : List (Add A)) (a : A) (z : ℤ) :
    total (ws ++ ws') a z = total ws a z + total ws' a z := by
  simp [total]

theorem total_forLoop (n : ℕ) (f : ℕ → List (Add A)) (a : A) (z : ℤ) :
    total (forLoop n f) a z = ∑ i ∈ Finset.range n, total (f i) a z := sum_forLoop n f _

/-- all additions are inside of the arrays -/
def Inside (size : A → ℤ) (ws : List (Add A)) : Prop := ∀ w ∈ ws, 0 ≤ w.2.1 ∧ w.2.1 < size w.1

omit [DecidableEq A] in
theorem Inside.nil (size : A → ℤ) : Inside size ([] : List (Add A)) := by simp [Inside]

omit [DecidableEq A] in
theorem Inside.append {size : A → ℤ} {ws ws' : List (Add A)} (h : Inside size ws)
    (h' : Inside size ws') : Inside size (ws ++ ws') := by
  intro w hw
  rcases List.mem_append.1 hw with hw | hw
  · exact h w hw
  · exact h' w hw

omit [DecidableEq A] in
theorem Inside.forLoop {size : A → ℤ} {n : ℕ} {f : ℕ → List (Add A)}
    (h : ∀ i < n, Inside size (f i)) : Inside size (forLoop n f) := by
  intro w hw
  obtain ⟨i, hi, hw⟩ := mem_forLoop.1 hw
  exact h i hi w hw

theorem execute_eq (size : A → ℤ) (m : Arrays A) (ws : List (Add A)) (h : Inside size ws) :
    execute size m ws = some fun a z => m a z + total ws a z := by
  unfold execute
  induction ws generalizing m with
  | nil => simp [total_nil]
  | cons w ws ih =>
    have hw := h w (List.mem_cons_self ..)
    rw [List.foldlM_cons]
    have e : addTo size m w = some (Function.update m w.1
        (Function.update (m w.1) w.2.1 (m w.1 w.2.1 + w.2.2))) := if_pos hw
    rw [e, Option.bind_eq_bind, Option.bind_some,
      ih _ fun w' hw' => h w' (List.mem_cons_of_mem _ hw')]
    congr 1
    funext a z
    rw [total_cons]
    by_cases ha : w.1 = a
    · subst ha
      by_cases hz : w.2.1 = z
      · subst hz; simp; ring
      · simp [hz, Function.update_of_ne (Ne.symm hz)]
    · simp [ha, Function.update_of_ne (Ne.symm ha)]

/-- an execution that stays inside has this result; one that does not is undefined -/
theorem execute_some_iff (size : A → ℤ) (m : Arrays A) (ws : List (Add A)) (m' : Arrays A) :
    execute size m ws = some m' ↔ Inside size ws ∧ m' = fun a z => m a z + total ws a z := by
  constructor
  · intro h
    have : Inside size ws := by
      unfold execute at h
      induction ws generalizing m with
      | nil => exact Inside.nil size
      | cons w ws ih =>
        rw [List.foldlM_cons, Option.bind_eq_bind] at h
        obtain ⟨m1, e1, h⟩ := Option.bind_eq_some_iff.1 h
        unfold addTo at e1
        split at e1
        · rename_i hw
          intro w' hw'
          rcases List.mem_cons.1 hw' with rfl | hw'
          · exact hw
          · exact ih _ h w' hw'
        · simp at e1
    rw [execute_eq size m ws this] at h
    exact ⟨this, (Option.some.inj h).symm⟩
  · rintro ⟨h, rfl⟩
    exact execute_eq size m ws h

/-! ## Matrices in memory -/

theorem flat_fin {N : ℕ} (M : Mat N) (a b : Fin N) :
    flat M ((a.val : ℤ) + N * (b.val : ℤ)) = some (M a b) := by
  have ha : (a.val : ℤ) < N := by exact_mod_cast a.2
  have hb : (b.val : ℤ) < N := by exact_mod_cast b.2
  have hb' : (b.val : ℤ) + 1 ≤ N := by omega
  have hN : (0 : ℤ) < N := by omega
  unfold flat
  rw [dif_pos]
  · have h1 : ((a.val : ℤ) + N * b.val) % N = a.val := by
      rw [Int.add_mul_emod_self_left, Int.emod_eq_of_lt (by omega) ha]
    have h2 : ((a.val : ℤ) + N * b.val) / N = b.val := by
      rw [Int.add_mul_ediv_left _ _ hN.ne', Int.ediv_eq_zero_of_lt (by omega) ha, zero_add]
    congr 2
    · exact Fin.ext (by simp [h1])
    · exact Fin.ext (by simp [h2])
  · constructor
    · positivity
    · nlinarith

/-- read with the two indices as integers -/
theorem flat_apply {N : ℕ} (M : Mat N) (a b : Fin N) (r c z : ℤ) (hr : r = a.val) (hc : c = b.val)
    (hz : z = r + N * c) : flat M z = some (M a b) := by
  subst hr hc hz
  exact flat_fin M a b

theorem flatX_apply {N : ℕ} (L : ℕ) (X : ℕ → Fin N → ℝ) (l : ℕ) (hl : l < L) (a : Fin N) (z : ℤ)
    (hz : z = a.val + N * l) : flatX L X z = some (X l a) := by
  subst hz
  have ha : (a.val : ℤ) < N := by exact_mod_cast a.2
  have hb' : (l : ℤ) + 1 ≤ L := by omega
  have hN : (0 : ℤ) < N := by omega
  unfold flatX
  rw [dif_pos]
  · have h1 : ((a.val : ℤ) + N * l) % N = a.val := by
      rw [Int.add_mul_emod_self_left, Int.emod_eq_of_lt (by omega) ha]
    have h2 : ((a.val : ℤ) + N * l) / N = l := by
      rw [Int.add_mul_ediv_left _ _ hN.ne', Int.ediv_eq_zero_of_lt (by omega) ha, zero_add]
    congr 2
    · simp [h2]
    · exact Fin.ext (by simp [h1])
  · constructor
    · positivity
    · nlinarith

theorem rdInt_eq (size : ℤ) (m : ℤ → ℤ) (z : ℤ) (h0 : 0 ≤ z) (h1 : z < size) :
    rdInt size m z = some (m z) := if_pos ⟨h0, h1⟩

/-! ## Index arithmetic -/

/-- site number of cell `i` and orbital `o` -/
def siteN (N Ncell o i : ℕ) [NeZero N] : Fin N := Fin.ofNat N (i + Ncell * o)

theorem site_lt {Norb Ncell o i : ℕ} (ho : o < Norb) (hi : i < Ncell) :
    i + Ncell * o < Ncell * Norb := by
  have : Ncell * (o + 1) ≤ Ncell * Norb := Nat.mul_le_mul_left _ ho
  rw [Nat.mul_succ] at this
  omega

theorem siteN_val {N Norb Ncell o i : ℕ} [NeZero N] (hN : N = Ncell * Norb) (ho : o < Norb)
    (hi : i < Ncell) : (siteN N Ncell o i).val = i + Ncell * o := by
  simp only [siteN, Fin.ofNat]
  exact Nat.mod_eq_of_lt (hN ▸ site_lt ho hi)

theorem mixed_inj {n a a' b b' : ℕ} (ha : a < n) (ha' : a' < n) :
    (a : ℤ) + n * b = a' + n * b' ↔ a = a' ∧ b = b' := by
  constructor
  · intro h
    have h : a + n * b = a' + n * b' := by exact_mod_cast h
    have h1 : (a + n * b) % n = (a' + n * b') % n := by rw [h]
    rw [Nat.add_mul_mod_self_left, Nat.add_mul_mod_self_left, Nat.mod_eq_of_lt ha,
      Nat.mod_eq_of_lt ha'] at h1
    subst h1
    have : n * b = n * b' := by omega
    exact ⟨rfl, Nat.eq_of_mul_eq_mul_left (by omega) this⟩
  · rintro ⟨rfl, rfl⟩; rfl

end Verif.Measurement
