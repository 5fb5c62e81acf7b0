import Verif.Model.RoundedUneq

/-!
# Unblocked algorithms for the calls of BLAS and LAPACK, in rounded arithmetic

The program links against any implementation of BLAS and LAPACK; `Verif/Model/Rounded.lean` and `Verif/Model/RoundedUneq.lean`
leave the calls open.  Here are the textbook algorithms, as in the reference implementation (netlib) without blocking, scaling
against underflow and overflow, and shortcuts for zeros: matrix products by loops, Householder reflections (`dgeqr2`, `dlarfg`,
`dorm2r`), Gaussian elimination with partial pivoting (`dgetf2`), substitution (`dtrsm`) and the inversion of triangular matrices
(`dtrti2`).  Loops over the columns are recursions to the remaining block.  `Verif/Props/ReferenceCalls.lean` proves that they meet
the requirements of properties C114 and C117.
-/

set_option autoImplicit false

namespace Verif.Reference

open Matrix Verif.Lapack Verif.Rounded

/-- the floating point operations and the square root -/
structure FlOps extends Ops where
  sqrt : ℝ → ℝ

section

variable (op : Ops)

/-! ## BLAS -/

/-- `z + Σ x_k y_k`, summed up in the order of the list -/
def dotOn {α : Type} (ks : List α) (z : ℝ) (x y : α → ℝ) : ℝ := ks.foldl (fun a k => op.add a (op.mul (x k) (y k))) z

/-- `dgemm`: `X Y + Z` -/
def gemmAcc {m l c : ℕ} (X : Matrix (Fin m) (Fin l) ℝ) (Y : Matrix (Fin l) (Fin c) ℝ) (Z : Matrix (Fin m) (Fin c) ℝ) :
    Matrix (Fin m) (Fin c) ℝ :=
  Matrix.of fun i j => dotOn op (List.finRange l) (Z i j) (X i) fun k => Y k j

/-- `dtrmm` from the left with the upper triangle -/
def trmmL {m c : ℕ} (α : ℝ) (T : Mat m) (B : Matrix (Fin m) (Fin c) ℝ) : Matrix (Fin m) (Fin c) ℝ :=
  Matrix.of fun i j => dotOn op ((List.finRange m).filter fun k => i ≤ k) 0 (T i) fun k => op.mul α (B k j)

/-- `dtrmm` from the left with the upper triangle and the factor 1 -/
def trmm {m c : ℕ} (T : Mat m) (B : Matrix (Fin m) (Fin c) ℝ) : Matrix (Fin m) (Fin c) ℝ :=
  Matrix.of fun i j => dotOn op ((List.finRange m).filter fun k => i ≤ k) 0 (T i) fun k => B k j

/-- `dtrmm` from the right with the upper triangle -/
def trmmR {m c : ℕ} (B : Matrix (Fin m) (Fin c) ℝ) (T : Mat c) : Matrix (Fin m) (Fin c) ℝ :=
  Matrix.of fun i j => dotOn op ((List.finRange c).filter fun k => k ≤ j) 0 (B i) fun k => T k j

/-- `dger` -/
def ger {m c : ℕ} (α : ℝ) (x : Fin m → ℝ) (y : Fin c → ℝ) (A : Matrix (Fin m) (Fin c) ℝ) : Matrix (Fin m) (Fin c) ℝ :=
  Matrix.of fun i j => op.add (A i j) (op.mul (x i) (op.mul α (y j)))

/-! ## Application of reflections -/

/-- multiplication by `1 - tau v vᵀ` from the right, where the first `i` entries of `v` are zero (`dlarf`) -/
def applyRefl {m c : ℕ} (i : ℕ) (v : Fin c → ℝ) (tau : ℝ) (C : Matrix (Fin m) (Fin c) ℝ) : Matrix (Fin m) (Fin c) ℝ :=
  Matrix.of fun r j =>
    if j.val < i then C r j
    else op.sub (C r j) (op.mul (op.mul tau (dotOn op ((List.finRange c).filter fun k => i ≤ k.val) 0 (C r) v)) (v j))

/-- `dorm2r` from the right: multiplication by `Q = H_0 H_1 ...` -/
def ormqr {m c k : ℕ} (F : Matrix (Fin c) (Fin k) ℝ) (tau : Fin k → ℝ) (C : Matrix (Fin m) (Fin c) ℝ) : Matrix (Fin m) (Fin c) ℝ :=
  (List.finRange k).foldl (fun C i => applyRefl op i.val (houseVec F i) (tau i) C) C

/-- `dorm2r` from the right: multiplication by `Qᵀ = ... H_1 H_0` -/
def ormqrT {m c k : ℕ} (F : Matrix (Fin c) (Fin k) ℝ) (tau : Fin k → ℝ) (C : Matrix (Fin m) (Fin c) ℝ) : Matrix (Fin m) (Fin c) ℝ :=
  (List.finRange k).reverse.foldl (fun C i => applyRefl op i.val (houseVec F i) (tau i) C) C

/-- `dorm2r` from the left: multiplication by `Qᵀ` -/
def ormqrL {m c k : ℕ} (F : Matrix (Fin m) (Fin k) ℝ) (tau : Fin k → ℝ) (C : Matrix (Fin m) (Fin c) ℝ) : Matrix (Fin m) (Fin c) ℝ :=
  (ormqr op F tau Cᵀ)ᵀ

end

/-! ## QR decomposition -/

section

variable (op : FlOps)

/-- `dnrm2` -/
def nrm2 {m : ℕ} (x : Fin m → ℝ) : ℝ := op.sqrt (dotOn op.toOps (List.finRange m) 0 x x)

open Classical in
/-- `dlarfg`: a reflection which maps `(α, x)` to a multiple of the first unit vector; the results are the multiple `β`, the vector
without its leading 1, and the scalar factor -/
noncomputable def larfg {m : ℕ} (α : ℝ) (x : Fin m → ℝ) : ℝ × (Fin m → ℝ) × ℝ :=
  let xnorm := nrm2 op x
  if xnorm = 0 then (α, x, 0)
  else
    let s := op.sqrt (op.add (op.mul α α) (op.mul xnorm xnorm))
    let β := if 0 ≤ α then -s else s
    let tau := op.div (op.sub β α) β
    let c := op.div 1 (op.sub α β)
    (β, fun r => op.mul c (x r), tau)

/-- `dgeqr2` -/
noncomputable def geqrf : (k m : ℕ) → Matrix (Fin m) (Fin k) ℝ → Matrix (Fin m) (Fin k) ℝ × (Fin k → ℝ)
  | 0, _, A => (A, fun _ => 0)
  | _ + 1, 0, A => (A, fun _ => 0)
  | k + 1, m + 1, A =>
    let h := larfg op (A 0 0) fun r => A r.succ 0
    let v : Fin (m + 1) → ℝ := Fin.cons 1 h.2.1
    let tau := h.2.2
    -- the other columns: dlarf from the left
    let B := (applyRefl op.toOps 0 v tau (A.submatrix id Fin.succ)ᵀ)ᵀ
    let rest := geqrf k m (B.submatrix Fin.succ id)
    (Matrix.of fun i j => Fin.cases (Fin.cases h.1 (fun j => B 0 j) j) (fun i => Fin.cases (h.2.1 i) (fun j => rest.1 i j) j) i,
      Fin.cons tau rest.2)

/-! ## Linear systems -/

/-- `idamax` -/
noncomputable def idamax {n : ℕ} (x : Fin (n + 1) → ℝ) : Fin (n + 1) :=
  open Classical in (List.finRange (n + 1)).foldl (fun p i => if |x p| < |x i| then i else p) 0

/-- `dlaswp`: the row interchanges in their order -/
def laswp {n : ℕ} (ipiv : Fin n → Fin n) (x : Fin n → ℝ) : Fin n → ℝ :=
  (List.finRange n).foldl (fun x i => x ∘ Equiv.swap i (ipiv i)) x

variable (op : Ops)

open Classical in
/-- `dgetf2` -/
noncomputable def getrf : (n : ℕ) → Mat n → Mat n × (Fin n → Fin n)
  | 0, A => (A, id)
  | n + 1, A =>
    let p := idamax fun i => A i 0
    let A' : Mat (n + 1) := Matrix.of fun i j => A (Equiv.swap 0 p i) j
    let l : Fin n → ℝ := fun i => if A' 0 0 = 0 then A' i.succ 0 else op.div (A' i.succ 0) (A' 0 0)
    let rest := getrf n (Matrix.of fun i j => op.sub (A' i.succ j.succ) (op.mul (l i) (A' 0 j.succ)))
    (Matrix.of fun i j => Fin.cases (A' 0 j) (fun i' => Fin.cases (laswp rest.2 l i') (fun j' => rest.1 i' j') j) i,
      Fin.cons p fun i => (rest.2 i).succ)

/-- `dtrsm` with the unit lower triangle -/
def solveL : (n : ℕ) → Mat n → (Fin n → ℝ) → Fin n → ℝ
  | 0, _, g => g
  | n + 1, F, g => Fin.cons (g 0) (solveL n (F.submatrix Fin.succ Fin.succ) fun r => op.sub (g r.succ) (op.mul (g 0) (F r.succ 0)))

/-- `dtrsm` with the upper triangle -/
def solveU : (n : ℕ) → Mat n → (Fin n → ℝ) → Fin n → ℝ
  | 0, _, g => g
  | n + 1, F, g =>
    let x := op.div (g (Fin.last n)) (F (Fin.last n) (Fin.last n))
    Fin.snoc (α := fun _ => ℝ) (solveU n (F.submatrix Fin.castSucc Fin.castSucc)
      fun r => op.sub (g r.castSucc) (op.mul x (F r.castSucc (Fin.last n)))) x

/-- `dgetrs` -/
def getrs {n c : ℕ} (F : Mat n) (ipiv : Fin n → Fin n) (G : Matrix (Fin n) (Fin c) ℝ) : Matrix (Fin n) (Fin c) ℝ :=
  Matrix.of fun i j => solveU op n F (solveL op n F (laswp ipiv fun r => G r j)) i

/-- `dtrti2` for the upper triangle; the rest is not referenced -/
def trtri : (n : ℕ) → Mat n → Mat n
  | 0, M => M
  | n + 1, M =>
    let X := trtri n (M.submatrix Fin.castSucc Fin.castSucc)
    let d := op.div 1 (M (Fin.last n) (Fin.last n))
    Matrix.of fun i j => Fin.lastCases (Fin.lastCases d (fun j => M (Fin.last n) j.castSucc) j)
      (fun i => Fin.lastCases
        (op.mul (-d) (dotOn op ((List.finRange n).filter fun k => i ≤ k) 0 (X i) fun k => M k.castSucc (Fin.last n)))
        (fun j => X i j) j) i

end

/-! ## The calls of the program -/

/-- the calls for square matrices; `piv` stands for the choice of the pivots by `dgeqp3`, which applies the steps of `dgeqr2`
to the columns in another order -/
noncomputable def refArith (op : FlOps) {N : ℕ} (piv : Mat N → Equiv.Perm (Fin N)) : Arith N :=
  { op.toOps with
    nrm2 := nrm2 op
    gemm := fun A B => gemmAcc op.toOps A B 0
    trmm := fun F T => trmm op.toOps F T
    ger := ger op.toOps
    geqp3 := fun A => ((geqrf op N N (A.submatrix id (piv A))).1, (geqrf op N N (A.submatrix id (piv A))).2, piv A)
    geqrf := geqrf op N N
    ormqr := ormqr op.toOps
    ormqrT := ormqrT op.toOps
    getrf := getrf op.toOps N
    getrs := getrs op.toOps }

/-- the calls for rectangular matrices -/
noncomputable def refBlocks (op : FlOps) : BlockArith where
  geqrf := geqrf op _ _
  ormqrL := ormqrL op.toOps
  ormqrR := ormqrT op.toOps
  trtri := trtri op.toOps _
  trmmL := trmmL op.toOps
  trmmR := trmmR op.toOps
  gemmAcc := gemmAcc op.toOps

end Verif.Reference
