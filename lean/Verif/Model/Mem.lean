import Mathlib.Data.Int.Notation
import Mathlib.Data.Nat.Notation
import Mathlib.Logic.Function.Basic
import Mathlib.Algebra.BigOperators.Group.List.Basic
import Mathlib.Algebra.BigOperators.Group.Finset.Basic
import Mathlib.Algebra.BigOperators.Intervals

set_option autoImplicit false

/-!
# Arrays and loops

C arrays are memory functions `ℤ → α` (the index may be negative in a faulty program).  A loop nest
whose indices do not depend on the data is modelled by the list of its writes in program order.
-/

namespace Verif.Mem

/-- execute assignments `a[i] = v` in order -/
def assignAll {α : Type} (m : ℤ → α) (ws : List (ℤ × α)) : ℤ → α :=
  ws.foldl (fun m w => Function.update m w.1 w.2) m

/-- execute additions `a[i] += v` in order -/
def addAll {α : Type} [Add α] (m : ℤ → α) (ws : List (ℤ × α)) : ℤ → α :=
  ws.foldl (fun m w => Function.update m w.1 (m w.1 + w.2)) m

/-- all indices of the writes lie in `0 .. size-1` -/
def InBounds {α : Type} (size : ℤ) (ws : List (ℤ × α)) : Prop := ∀ w ∈ ws, 0 ≤ w.1 ∧ w.1 < size

/-- a C loop `for (i = 0; i < n; i++)` that contributes the writes `f i` -/
def forLoop {β : Type} (n : ℕ) (f : ℕ → List β) : List β := (List.range n).flatMap f

variable {α : Type}

theorem mem_forLoop {β : Type} {n : ℕ} {f : ℕ → List β} {w : β} :
    w ∈ forLoop n f ↔ ∃ i < n, w ∈ f i := by
  simp [forLoop, List.mem_flatMap]

theorem assignAll_append (m : ℤ → α) (ws ws' : List (ℤ × α)) :
    assignAll m (ws ++ ws') = assignAll (assignAll m ws) ws' := List.foldl_append

theorem assignAll_of_not_mem (m : ℤ → α) (ws : List (ℤ × α)) (i : ℤ) (h : ∀ w ∈ ws, w.1 ≠ i) :
    assignAll m ws i = m i := by
  induction ws generalizing m with
  | nil => rfl
  | cons w ws ih =>
    change assignAll (Function.update m w.1 w.2) ws i = m i
    rw [ih _ (fun w' hw' => h w' (List.mem_cons_of_mem _ hw'))]
    exact Function.update_of_ne (h w (List.mem_cons_self ..)).symm _ _

/-- if every write to `i` stores the same value, that value is found at the end -/
theorem assignAll_of_mem (m : ℤ → α) (ws : List (ℤ × α)) (i : ℤ) (v : α) (hi : (i, v) ∈ ws)
    (h : ∀ w ∈ ws, w.1 = i → w.2 = v) : assignAll m ws i = v := by
  induction ws generalizing m with
  | nil => simp at hi
  | cons w ws ih =>
    change assignAll (Function.update m w.1 w.2) ws i = v
    by_cases hmem : (i, v) ∈ ws
    · exact ih _ hmem (fun w' hw' => h w' (List.mem_cons_of_mem _ hw'))
    · have hw : w = (i, v) := by
        rcases List.mem_cons.1 hi with h' | h'
        · exact h'.symm
        · exact absurd h' hmem
      rw [assignAll_of_not_mem]
      · rw [hw]; simp
      · intro w' hw' hw'i
        have := h w' (List.mem_cons_of_mem _ hw') hw'i
        exact hmem (by rw [← hw'i, ← this]; exact hw')

theorem addAll_apply [AddCommMonoid α] (m : ℤ → α) (ws : List (ℤ × α)) (i : ℤ) :
    addAll m ws i = m i + (ws.map fun w => if w.1 = i then w.2 else 0).sum := by
  induction ws generalizing m with
  | nil => simp [addAll]
  | cons w ws ih =>
    change addAll (Function.update m w.1 (m w.1 + w.2)) ws i = _
    rw [ih, List.map_cons, List.sum_cons, ← add_assoc]
    by_cases h : w.1 = i
    · subst h; simp
    · rw [Function.update_of_ne (Ne.symm h), if_neg h, add_zero]

theorem sum_forLoop [AddCommMonoid α] {β : Type} (n : ℕ) (f : ℕ → List β) (g : β → α) :
    ((forLoop n f).map g).sum = ∑ i ∈ Finset.range n, ((f i).map g).sum := by
  induction n with
  | zero => simp [forLoop]
  | succ n ih =>
    rw [Finset.sum_range_succ, ← ih]
    simp [forLoop, List.range_succ, List.flatMap_append]

end Verif.Mem
