import Verif.Model.RoundedTables
import Verif.Model.RoundedUneq

/-!
# Matrix products in any order of summation

`cblas_dgemm` and `cblas_dtrmm` leave open in which order the products are summed up, how many partial sums are formed, and whether
a multiplication and an addition are fused to one operation with a single rounding; optimised implementations of BLAS use all of
this, and the order may depend on the sizes, on the entry which is computed, and on the number of threads.  An entry of a matrix product
is the value of an expression here, in which every product occurs once.

Calls of `cblas_dgemm`: `greens_func.c:208`, `211`, `278`, `302`, `308` and `linalg.c:82`, `128`, `258`; of `cblas_dtrmm`:
`time_flow.c:484` and `linalg.c:235`, `253`, `255`, `260`.
-/

set_option autoImplicit false

namespace Verif.Reference

open Matrix Verif.Lapack Verif.Rounded

/-- an expression for the sum of a start value and of products -/
inductive SumTree (α : Type) where
  /-- the product with index `k`, rounded -/
  | term (k : α)
  /-- the start value -/
  | init
  /-- the rounded sum of two partial sums -/
  | add (l r : SumTree α)
  /-- the product with index `k` and a partial sum, added with a single rounding -/
  | fused (k : α) (r : SumTree α)

namespace SumTree

variable {α : Type}

/-- the value in rounded arithmetic -/
def eval (op : Ops) (fma : ℝ → ℝ → ℝ → ℝ) (z : ℝ) (x y : α → ℝ) : SumTree α → ℝ
  | term k => op.mul (x k) (y k)
  | init => z
  | add l r => op.add (eval op fma z x y l) (eval op fma z x y r)
  | fused k r => fma (x k) (y k) (eval op fma z x y r)

/-- the indices of the products -/
def uses : SumTree α → List α
  | term k => [k]
  | init => []
  | add l r => uses l ++ uses r
  | fused k r => k :: uses r

/-- how often the start value occurs -/
def inits : SumTree α → ℕ
  | term _ => 0
  | init => 1
  | add l r => inits l + inits r
  | fused _ r => inits r

end SumTree

/-- `r` is a sum of `z` and of the products `x_k y_k` for the indices in the list, each of them once, in some order; zero as a start value
may be left out -/
def Sums {α : Type} (op : Ops) (fma : ℝ → ℝ → ℝ → ℝ) (ks : List α) (z : ℝ) (x y : α → ℝ) (r : ℝ) : Prop :=
  ∃ t : SumTree α, t.uses.Perm ks ∧ (t.inits = 1 ∨ z = 0 ∧ t.inits = 0) ∧ r = t.eval op fma z x y

/-- the calls `pl`, `bl` agree with `pl₀`, `bl₀` but for the products of matrices, which are summed up in some order -/
structure Reordered {N : ℕ} (op : Ops) (fma : ℝ → ℝ → ℝ → ℝ) (pl₀ : Platform N) (bl₀ : BlockArith) (pl : Platform N) (bl : BlockArith) :
    Prop where
  platform : pl = { pl₀ with
    gemm := pl.gemm
    trmm := pl.trmm
    gemmT := pl.gemmT }
  blocks : bl = { bl₀ with
    trmmL := bl.trmmL
    trmmR := bl.trmmR
    gemmAcc := bl.gemmAcc }
  gemm : ∀ A B i j, Sums op fma (List.finRange N) 0 (A i) (fun k => B k j) (pl.gemm A B i j)
  gemmT : ∀ A B i j, Sums op fma (List.finRange N) 0 (A i) (B j) (pl.gemmT A B i j)
  trmm : ∀ F T i j, Sums op fma ((List.finRange N).filter fun k => i ≤ k) 0 (F i) (fun k => T k j) (pl.trmm F T i j)
  trmmL : ∀ {m c : ℕ} (α : ℝ) (T : Mat m) (B : Matrix (Fin m) (Fin c) ℝ) i j,
    Sums op fma ((List.finRange m).filter fun k => i ≤ k) 0 (T i) (fun k => op.mul α (B k j)) (bl.trmmL α T B i j)
  trmmR : ∀ {m c : ℕ} (B : Matrix (Fin m) (Fin c) ℝ) (T : Mat c) i j,
    Sums op fma ((List.finRange c).filter fun k => k ≤ j) 0 (B i) (fun k => T k j) (bl.trmmR B T i j)
  gemmAcc : ∀ {m l c : ℕ} (X : Matrix (Fin m) (Fin l) ℝ) (Y : Matrix (Fin l) (Fin c) ℝ) (Z : Matrix (Fin m) (Fin c) ℝ) i j,
    Sums op fma (List.finRange l) (Z i j) (X i) (fun k => Y k j) (bl.gemmAcc X Y Z i j)

end Verif.Reference
