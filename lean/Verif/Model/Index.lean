import Verif.Model.Lattice

set_option autoImplicit false

/-!
# Model of the `int` arithmetic of array subscripts and allocation sizes

The other models use unbounded integers and arrays without bounds.  Here only the control flow
around array accesses is kept: every function is modelled by the list of its accesses, with every
subscript, count, leading dimension and allocation size computed by 32-bit `int` arithmetic in
which overflow, division by zero and anything computed from them are *undefined* (`none`).

* Values that depend on numbers are over-approximated: an entry of a permutation, a random site, a
  Hubbard-Stratonovich entry is any value in its range, and both branches of a data dependent `if`
  are taken.
* A call of BLAS or LAPACK touches (at most) a block of `rows` times `cols` elements with leading
  dimension `ld`; a vector with increment `d` is a block of one row with leading dimension `d`.
  What these libraries compute internally is not modelled.
* `sizeof(double) * ...` and pointer additions are done in 64 bits and do not overflow; element
  counts are compared, not bytes.
* `malloc` succeeds.
-/

namespace Verif.Index

/-- the value of a C expression of type `int`; `none` is undefined behaviour -/
structure I where
  /-- the value if it is defined -/
  val : Option ℤ

/-- `INT_MAX` -/
def maxInt : ℤ := 2147483647

/-- a result is defined if it is representable -/
def chk (z : ℤ) : I := ⟨if -maxInt - 1 ≤ z ∧ z ≤ maxInt then some z else none⟩

/-- apply an operation to defined operands -/
def op (f : ℤ → ℤ → I) (a b : I) : I :=
  match a.val, b.val with
  | some x, some y => f x y
  | _, _ => ⟨none⟩

instance : Coe ℤ I := ⟨fun z => ⟨some z⟩⟩
instance (n : ℕ) : OfNat I n := ⟨⟨some n⟩⟩
instance : Add I := ⟨op fun x y => chk (x + y)⟩
instance : Sub I := ⟨op fun x y => chk (x - y)⟩
instance : Mul I := ⟨op fun x y => chk (x * y)⟩
/-- C division truncates -/
instance : Div I := ⟨op fun x y => if y = 0 then ⟨none⟩ else chk (Int.tdiv x y)⟩
/-- C remainder; it is undefined if the quotient is -/
instance : Mod I := ⟨op fun x y => if y = 0 then ⟨none⟩ else
  if (chk (Int.tdiv x y)).val = none then ⟨none⟩ else chk (Int.tmod x y)⟩

/-- something that must be in order -/
inductive Event where
  /-- the value of an expression is used (allocation size, count) -/
  | use (file : String) (line : ℕ) (v : I)
  /-- access to a block of a buffer with `size` elements; `offs` are the offsets that are added to
  the base pointer one after the other -/
  | access (file : String) (line : ℕ) (size : I) (offs : List I) (rows cols ld : I)

/-- access to a single element -/
def el (file : String) (line : ℕ) (size : I) (offs : List I) : Event :=
  .access file line size offs 1 1 1

/-- the sum of pointer offsets -/
def offset : List I → Option ℤ
  | [] => some 0
  | a :: as => do return (← a.val) + (← offset as)

/-- the specification: all numbers are defined, dimensions are legal, and the block lies inside the
buffer -/
def Event.ok : Event → Prop
  | .use _ _ v => ∃ x, v.val = some x ∧ 0 ≤ x
  | .access _ _ size offs rows cols ld =>
      ∃ n b r c d, size.val = some n ∧ offset offs = some b ∧ rows.val = some r ∧
        cols.val = some c ∧ ld.val = some d ∧ 0 ≤ r ∧ 0 ≤ c ∧ max 1 r ≤ d ∧
        (0 < r → 0 < c → 0 ≤ b ∧ b + (r - 1) + (c - 1) * d < n)

/-- all events are in order -/
def Safe (es : List Event) : Prop := ∀ e ∈ es, e.ok

/-- a C loop over `lo ≤ i < hi` in either direction; undefined bounds are an error -/
def loop (lo hi : I) (body : I → List Event) : List Event :=
  match lo.val, hi.val with
  | some a, some b => (List.range (b - a).toNat).flatMap fun (k : ℕ) => body ((a + (k : ℤ) : ℤ) : I)
  | _, _ => [.use "" 0 ⟨none⟩]

/-- branch on a comparison of `int` values -/
def cond (p : ℤ → ℤ → Bool) (a b : I) (t e : List Event) : List Event :=
  match a.val, b.val with
  | some x, some y => if p x y then t else e
  | _, _ => [.use "" 0 ⟨none⟩]

/-- conditional expression on `int` values -/
def sel (p : ℤ → ℤ → Bool) (a b : I) (t e : I) : I :=
  match a.val, b.val with
  | some x, some y => if p x y then t else e
  | _, _ => ⟨none⟩

/-- `a < b` -/
def lt (x y : ℤ) : Bool := x < y
/-- `a == b` -/
def eq (x y : ℤ) : Bool := x = y
/-- `a != b` -/
def ne (x y : ℤ) : Bool := x ≠ y

/-- an `int` read from a table at a position -/
def get (tab : ℤ → ℤ) (i : I) : I :=
  match i.val with
  | some x => chk (tab x)
  | none => ⟨none⟩

/-! ## linalg.c -/

/-- the accesses of a full `n × n` matrix in a buffer of `size` elements -/
def full (file : String) (line : ℕ) (size n : I) : Event := .access file line size [0] n n n

/-- at most `n` consecutive elements, `n ≥ 0` possibly zero -/
def run1 (file : String) (line : ℕ) (size off n : I) : Event := .access file line size [off] 1 n 1

/-- `domatcopy` (linalg.c:17-40); the arguments are converted to `size_t` -/
def domatcopy (file : String) (line : ℕ) (rows cols : I) (sizeA : I) (offA : List I) (lda : I)
    (sizeB : I) (offB : List I) (ldb : I) : List Event :=
  [.access file line sizeA offA rows cols lda, .access file line sizeB offB rows cols ldb]

/-- `MatrixExp` (linalg.c:47-90) on buffers of `sizeA`, `sizeRet` elements -/
def matrixExp (n sizeA sizeRet : I) : List Event :=
  let nn := n*n
  [.use "linalg.c" 52 n, .use "linalg.c" 55 nn, run1 "linalg.c" 57 nn 0 nn, run1 "linalg.c" 57 sizeA 0 nn,
    full "linalg.c" 59 nn n, run1 "linalg.c" 59 n 0 n] ++
  (loop 0 n fun i => [el "linalg.c" 69 n [i]]) ++
  [.use "linalg.c" 73 nn, run1 "linalg.c" 75 nn 0 nn] ++
  (loop 0 n fun i => [el "linalg.c" 78 n [i], run1 "linalg.c" 78 nn (i*n) n]) ++
  [full "linalg.c" 82 nn n, full "linalg.c" 82 sizeRet n]

/-- `MatrixProductSequence` (linalg.c:97-143) on `num` matrices starting at entry `start` of an array of
`numA` pointers to buffers of `sizeA` elements, writing to `sizeRet` elements -/
def matrixProductSequence (n num numA start sizeA sizeRet : I) : List Event :=
  let nn := n*n
  [.use "linalg.c" 103 nn, el "linalg.c" 122 numA [start, 0], run1 "linalg.c" 123 nn 0 nn, run1 "linalg.c" 123 sizeRet 0 nn,
    run1 "linalg.c" 123 sizeA 0 nn] ++
  loop 1 num fun i => [el "linalg.c" 128 numA [start, i], full "linalg.c" 128 sizeA n, full "linalg.c" 128 nn n,
    full "linalg.c" 128 sizeRet n]

/-- `BlockCyclicQR` (linalg.c:161-192) on `H` with `size` elements and `tau` with `sizeTau` elements -/
def blockCyclicQR (n p size sizeTau : I) : List Event :=
  let N := n*p
  (loop 0 (p - 2) fun i =>
    [.access "linalg.c" 171 size [(1 + N)*i*n] (2*n) n N, run1 "linalg.c" 171 sizeTau (i*n) n,
      .access "linalg.c" 178 size [(1 + N)*i*n] (2*n) n N, .access "linalg.c" 178 size [(i + N*(i + 1))*n] (2*n) n N,
      .access "linalg.c" 179 size [(i + N*(p - 1))*n] (2*n) n N]) ++
  [.access "linalg.c" 185 size [(1 + N)*(p - 2)*n] (2*n) (2*n) N, run1 "linalg.c" 185 sizeTau ((p - 2)*n) (2*n)]

/-- `BlockCyclicTriangularInverse` (linalg.c:209-266) -/
def blockCyclicTri (n p size : I) : List Event :=
  let N := n*p
  cond lt 2 p
    ([.access "linalg.c" 226 size [(1 + N)*(p - 3)*n] (3*n) (3*n) N] ++
      cond lt 3 p
        ([.access "linalg.c" 235 size [(1 + N)*(p - 1)*n] n n N, .access "linalg.c" 235 size [N*(p - 1)*n] (n*(p - 3)) n N] ++
          loop 0 (p - 4 + 1) fun i =>
            [.access "linalg.c" 241 size [(1 + N)*i*n] n n N, .access "linalg.c" 243 size [(i + N*(i + 1))*n] n n N,
              .access "linalg.c" 253 size [(i + N*(p - 1))*n] n n N,
              .access "linalg.c" 258 size [((i + 1) + N*(i + 2))*n] n (n*(p - i - 2)) N,
              .access "linalg.c" 258 size [(i + N*(i + 2))*n] n (n*(p - i - 2)) N,
              .access "linalg.c" 260 size [(1 + N)*(i + 1)*n] n n N])
        [])
    [.access "linalg.c" 217 size [0] N N N]

/-- `MoveStrictlyLowerTriangularMatrix` (linalg.c:280-294); `A` is a pointer at `offA` into `sizeA` elements -/
def moveStrictlyLower (m n sizeA offA lda sizeB ldb : I) : List Event :=
  loop 0 n fun j => loop (j + 1) m fun i =>
    [el "linalg.c" 290 sizeB [i + ldb*j], el "linalg.c" 290 sizeA [offA, i + lda*j]]

/-- `BlockCyclicInverseRotation` (linalg.c:312-344) -/
def blockCyclicRot (n p size sizeTau : I) : List Event :=
  let N := n*p
  let sizeQ := 4*n*n
  [.use "linalg.c" 321 sizeQ] ++
  moveStrictlyLower (2*n) (2*n) size ((1 + N)*(p - 2)*n) N sizeQ (2*n) ++
  [.access "linalg.c" 327 sizeQ [0] (2*n) (2*n) (2*n), run1 "linalg.c" 327 sizeTau ((p - 2)*n) (2*n),
    .access "linalg.c" 327 size [N*(p - 2)*n] N (2*n) N] ++
  loop 0 (p - 3 + 1) fun i =>
    moveStrictlyLower (2*n) n size ((1 + N)*i*n) N sizeQ (2*n) ++
    [.access "linalg.c" 338 sizeQ [0] (2*n) n (2*n), run1 "linalg.c" 338 sizeTau (i*n) n,
      .access "linalg.c" 338 size [N*i*n] N (2*n) N]

/-- `BlockCyclicInverse` (linalg.c:361-376) -/
def blockCyclicInverse (n p size : I) : List Event :=
  let N := n*p
  [.use "linalg.c" 366 N] ++ blockCyclicQR n p size N ++ blockCyclicTri n p size ++ blockCyclicRot n p size N

/-! ## kinetic.c, stratonovich.c -/

/-- `(i < n-1 ? i + 1 : 0)` -/
def next (n i : I) : I := sel lt i (n - 1) (i + 1) 0

/-- `RectangularKineticExponential` (kinetic.c:11-105); the hoppings have `Norb * Norb` entries
(param_parser.c:17-21), the site energies `Norb` (param_parser.c:368) -/
def kineticExponential (Norb Nx Ny shift : I) : List Event :=
  let Ncell := Nx*Ny
  let N := Norb*Ncell
  let T := N*N
  let hop := Norb*Norb
  [.use "kinetic.c" 26 T] ++
  (loop 0 Norb fun o => loop 0 Norb fun p => loop 0 Ny fun j => loop 0 Nx fun i =>
    let jn := next Ny j
    let inx := next Nx i
    let is := (i + sel eq jn 0 shift 0) % Nx
    let isn := next Nx is
    let a := i + j*Nx
    let b := inx + j*Nx
    let c := is + jn*Nx
    let d := isn + jn*Nx
    ([(59, a, a), (62, a, b), (65, a, c), (68, a, d), (71, b, c)] : List (ℕ × I × I)).flatMap fun x =>
      [el "kinetic.c" x.1 T [(x.2.1 + o*Ncell) + (x.2.2 + p*Ncell)*N],
        el "kinetic.c" (x.1 + 1) T [(x.2.1 + o*Ncell)*N + (x.2.2 + p*Ncell)],
        el "kinetic.c" x.1 hop [o + p*Norb]]) ++
  (loop 0 Norb fun o => loop 0 Ncell fun i =>
    let index := i + o*Ncell
    [el "kinetic.c" 84 T [index + N*index], el "kinetic.c" 84 Norb [o]]) ++
  [run1 "kinetic.c" 89 T 0 (N*N), .use "kinetic.c" 91 (N*N), .use "kinetic.c" 92 (N*N)] ++
  matrixExp N T (N*N)

/-- `FillStratonovichParameters` (stratonovich.c:10-45); `U` has `Norb` entries (param_parser.c:367) -/
def fillStratonovich (Norb : I) : List Event :=
  [.use "stratonovich.c" 14 Norb] ++ loop 0 Norb fun o => [el "stratonovich.c" 24 Norb [o], el "stratonovich.c" 34 Norb [o]]

/-! ## time_flow.c -/

/-- `ComputeTimeStepMatrix`, `ComputeInverseTimeStepMatrix` and their variants with phonons
(time_flow.c:15-110); `s` (and `expX`) are pointers at `offS` into `sizeS` elements -/
def timeStepMatrix (Norb Ncell sizeS offS sizeB : I) : List Event :=
  let N := Ncell*Norb
  [run1 "time_flow.c" 24 sizeB 0 (N*N)] ++
  loop 0 N fun i =>
    let o := i/Ncell
    [el "time_flow.c" 32 sizeS [offS, i], el "time_flow.c" 32 Norb [o], .access "time_flow.c" 32 sizeB [i] 1 N N,
      run1 "time_flow.c" 57 sizeB (i*N) N] ++
    loop 0 2 fun σ => [el "time_flow.c" 32 2 [σ], el "time_flow.c" 57 2 [1 - σ]]

/-- `AllocateTimeStepMatrices` (time_flow.c:117-143) -/
def allocateTimeStep (N L prodBlen : I) : List Event :=
  let nB := L/prodBlen
  [.use "time_flow.c" 127 L, .use "time_flow.c" 130 nB] ++
  (loop 0 L fun l => [el "time_flow.c" 136 L [l], .use "time_flow.c" 136 (N*N)]) ++
  loop 0 nB fun l => [el "time_flow.c" 141 nB [l], .use "time_flow.c" 141 (N*N)]

/-- `InitTimeStepMatrices`, `InitPhononTimeStepMatrices` (time_flow.c:218-260) and
`CopyTimeStepMatrices` (time_flow.c:175-211) -/
def initTimeStep (Norb Ncell L prodBlen sizeS : I) : List Event :=
  let N := Ncell*Norb
  let nB := L/prodBlen
  (loop 0 L fun l => [el "time_flow.c" 227 L [l], run1 "time_flow.c" 195 (N*N) 0 (N*N)] ++
    timeStepMatrix Norb Ncell sizeS (l*N) (N*N)) ++
  loop 0 nB fun l => [el "time_flow.c" 234 nB [l], run1 "time_flow.c" 209 (N*N) 0 (N*N)] ++
    matrixProductSequence N prodBlen L (l*prodBlen) (N*N) (N*N)

/-- `UpdateTimeStepMatrices`, `UpdatePhononTimeStepMatrices` (time_flow.c:268-301) -/
def updateTimeStep (Norb Ncell L prodBlen sizeS l : I) : List Event :=
  let N := Ncell*Norb
  let nB := L/prodBlen
  [el "time_flow.c" 272 L [l]] ++ timeStepMatrix Norb Ncell sizeS (l*N) (N*N) ++
  cond eq (l % prodBlen) (prodBlen - 1)
    (let lstart := l - (prodBlen - 1);
      [el "time_flow.c" 279 nB [lstart/prodBlen]] ++ matrixProductSequence N prodBlen L lstart (N*N) (N*N))
    []

/-- `TimeFlowMap` (time_flow.c:327-495); `Q`, `tau`, `d`, `T` have `N*N`, `N`, `N`, `N*N` elements; the
entries of `jpvt` are any column numbers `q` -/
def timeFlowMap (N L prodBlen shift : I) : List Event :=
  let nB := L/prodBlen
  let ps := shift/prodBlen
  let nn := N*N
  [.use "time_flow.c" 346 nn, .use "time_flow.c" 350 N, el "time_flow.c" 365 nB [ps % nB], run1 "time_flow.c" 367 nn 0 nn,
    run1 "time_flow.c" 370 N 0 N, full "time_flow.c" 371 nn N] ++
  (loop 0 N fun i => [el "time_flow.c" 376 N [i], el "time_flow.c" 376 nn [i + i*N]]) ++
  (loop 0 N fun j => [el "time_flow.c" 389 N [j]] ++ loop 0 (j + 1) fun i => loop 0 N fun q =>
    [el "time_flow.c" 393 nn [i + q*N], el "time_flow.c" 393 N [i], el "time_flow.c" 393 nn [i + j*N]]) ++
  loop 1 nB fun l =>
    [el "time_flow.c" 405 nB [(l + ps) % nB], full "time_flow.c" 411 nn N, run1 "time_flow.c" 411 N 0 N] ++
    (loop 0 N fun i => [el "time_flow.c" 417 N [i], run1 "time_flow.c" 417 nn (i*N) N]) ++
    [el "time_flow.c" 429 N [0]] ++
    (loop 1 N fun i => (loop 1 (i + 1) fun j => [el "time_flow.c" 432 N [j - 1], el "time_flow.c" 433 N [j]]) ++
      loop 0 N fun q => [el "time_flow.c" 432 N [q], el "time_flow.c" 432 N [i]]) ++
    (loop 0 N fun j => [run1 "time_flow.c" 440 nn (j*N) N, el "time_flow.c" 440 N [j]] ++
      loop 0 N fun q => [run1 "time_flow.c" 440 nn (q*N) N]) ++
    (loop 0 N fun i => [el "time_flow.c" 453 N [i], el "time_flow.c" 453 nn [i + i*N]]) ++
    (loop 0 N fun j => loop 0 (j + 1) fun i => [el "time_flow.c" 466 nn [i + j*N], el "time_flow.c" 466 N [i]]) ++
    (loop 0 N fun j => (loop 0 N fun i => loop 0 N fun q => [el "time_flow.c" 477 N [i], el "time_flow.c" 477 nn [q + j*N]]) ++
      [run1 "time_flow.c" 480 nn (j*N) N])

/-! ## greens_func.c -/

/-- `GreenConstruct` (greens_func.c:62-162); `G->mat` has `N*N` elements (greens_func.c:16) -/
def greenConstruct (N L prodBlen shift : I) : List Event :=
  let nn := N*N
  [.use "greens_func.c" 67 nn, .use "greens_func.c" 68 N] ++ timeFlowMap N L prodBlen shift ++
  [run1 "greens_func.c" 81 nn 0 nn] ++
  (loop 0 N fun i => [el "greens_func.c" 86 nn [i + i*N], el "greens_func.c" 86 N [i]]) ++
  [full "greens_func.c" 89 nn N, run1 "greens_func.c" 89 N 0 N] ++
  (loop 0 N fun i => [el "greens_func.c" 94 N [i], .access "greens_func.c" 96 nn [i] 1 N N]) ++
  [run1 "greens_func.c" 101 nn 0 nn, full "greens_func.c" 105 nn N, run1 "greens_func.c" 105 N 0 N] ++
  (loop 0 N fun i => [el "greens_func.c" 113 nn [i + i*N], el "greens_func.c" 122 N [i]]) ++
  [full "greens_func.c" 154 nn N]

/-- `GreenShermanMorrisonUpdate` (greens_func.c:169-195) for site `i` -/
def shermanMorrison (N i : I) : List Event :=
  [.use "greens_func.c" 176 N] ++
  (loop 0 N fun j => [el "greens_func.c" 180 N [j], el "greens_func.c" 180 (N*N) [i + j*N]]) ++
  [el "greens_func.c" 182 N [i], run1 "greens_func.c" 187 (N*N) (N*i) N, run1 "greens_func.c" 187 N 0 N,
    full "greens_func.c" 190 (N*N) N]

/-- `GreenTimeSliceWrap` (greens_func.c:202-215) on a pointer at `off` into `size` elements -/
def timeSliceWrap (N size : I) (off : List I) : List Event :=
  [.use "greens_func.c" 205 (N*N), full "greens_func.c" 208 (N*N) N, .access "greens_func.c" 208 size off N N N]

/-- `ComputeUnequalTimeGreensFunction` (greens_func.c:238-327) on buffers of `sizeH`, `size10` (`Gtau0`) and
`size01` (`G0tau`, `Geqlt`) elements -/
def unequalTimeGreens (N L prodBlen sizeH size10 size01 : I) : List Event :=
  let nB := L/prodBlen
  [run1 "greens_func.c" 245 sizeH 0 (N*N*nB*nB)] ++
  (loop 0 (nB*N) fun i => [el "greens_func.c" 248 sizeH [i + i*nB*N]]) ++
  (loop 0 nB fun i => [el "greens_func.c" 257 nB [i]] ++
    cond lt i (nB - 1)
      (domatcopy "greens_func.c" 257 N N (N*N) [0] N sizeH [((i + 1) + nB*N*i)*N] (nB*N))
      (domatcopy "greens_func.c" 262 N N (N*N) [0] N sizeH [nB*N*(nB - 1)*N] (nB*N))) ++
  blockCyclicInverse N nB sizeH ++
  (loop 0 L fun i =>
    cond eq (i % prodBlen) 0
      (domatcopy "greens_func.c" 274 N N sizeH [(i/prodBlen)*N] (nB*N) size10 [i*N] (L*N))
      [el "greens_func.c" 278 L [i - 1], full "greens_func.c" 278 (N*N) N, .access "greens_func.c" 278 size10 [(i - 1)*N] N N (L*N),
        .access "greens_func.c" 278 size10 [i*N] N N (L*N)]) ++
  (loop 0 L fun i =>
    cond eq (i % prodBlen) 0
      (domatcopy "greens_func.c" 287 N N sizeH [(i/prodBlen)*nB*N*N] (nB*N) size01 [i*N*N] N)
      (cond eq i 1
        ([.use "greens_func.c" 294 (N*N)] ++ domatcopy "greens_func.c" 295 N N sizeH [0] (nB*N) (N*N) [0] N ++
          (loop 0 N fun j => [el "greens_func.c" 299 (N*N) [j + N*j]]) ++
          [el "greens_func.c" 302 L [i - 1], full "greens_func.c" 302 (N*N) N, .access "greens_func.c" 302 size01 [i*N*N] N N N])
        [.access "greens_func.c" 308 size01 [(i - 1)*N*N] N N N, el "greens_func.c" 308 L [i - 1], full "greens_func.c" 308 (N*N) N,
          .access "greens_func.c" 308 size01 [i*N*N] N N N])) ++
  loop 0 L fun i =>
    cond eq (i % prodBlen) 0
      (let ib := i/prodBlen;
        domatcopy "greens_func.c" 319 N N sizeH [(ib + ib*nB*N)*N] (nB*N) size01 [i*N*N] N)
      ([run1 "greens_func.c" 323 size01 (i*N*N) (N*N), run1 "greens_func.c" 323 size01 ((i - 1)*N*N) (N*N),
        el "greens_func.c" 324 L [i - 1]] ++ timeSliceWrap N size01 [i*N*N])

/-! ## measurement.c -/

/-- `ConstructLatticeCoordinateSumMap` (measurement.c:15-46) -/
def sumMapEvents (Nx Ny shift size : I) : List Event :=
  let Ncell := Nx*Ny
  loop 0 Ny fun j => loop 0 Nx fun i => loop 0 Ny fun l => loop 0 Nx fun k =>
    let ij := i + Nx*j
    let kl := k + Nx*l
    let u := (i + k + sel lt (j + l) Ny 0 shift) % Nx
    let v := (j + l) % Ny
    [el "measurement.c" 41 size [ij + Ncell*kl], .use "measurement.c" 41 (u + Nx*v)]

/-- `ConstructLatticeNearestNeighborMap` (measurement.c:53-76) -/
def nnMapEvents (Nx Ny size : I) : List Event :=
  loop 0 Ny fun j => loop 0 Nx fun i =>
    let prev (n x : I) := sel lt 0 x (x - 1) (n - 1)
    let ij := i + Nx*j
    [el "measurement.c" 70 size [ij], .use "measurement.c" 70 (next Nx i + Nx*j), .use "measurement.c" 71 (prev Nx i + Nx*j),
      .use "measurement.c" 72 (i + Nx*next Ny j), .use "measurement.c" 73 (i + Nx*prev Ny j)]

/-- the four neighbour tables and the table of coordinate sums -/
structure Tables where
  /-- `latt_sum_map` -/
  sum : ℤ → ℤ
  /-- `latt_xp1_map` -/
  xp1 : ℤ → ℤ
  /-- `latt_xm1_map` -/
  xm1 : ℤ → ℤ
  /-- `latt_yp1_map` -/
  yp1 : ℤ → ℤ
  /-- `latt_ym1_map` -/
  ym1 : ℤ → ℤ

/-- the tables that are computed by the code (`Model/Lattice.lean`) -/
def tables (Nx Ny shift : ℤ) (junk : ℤ → ℤ) : Tables where
  sum := Lattice.sumMap Nx.toNat Ny.toNat shift junk
  xp1 := Lattice.xp1Map Nx.toNat Ny.toNat junk
  xm1 := Lattice.xm1Map Nx.toNat Ny.toNat junk
  yp1 := Lattice.yp1Map Nx.toNat Ny.toNat junk
  ym1 := Lattice.ym1Map Nx.toNat Ny.toNat junk

/-- `AllocateMeasurementData` (measurement.c:83-130) -/
def allocateMeas (Norb Nx Ny shift : I) : List Event :=
  let Ncell := Nx*Ny
  let N := Ncell*Norb
  [.use "measurement.c" 96 Norb, .use "measurement.c" 101 (N*N), .use "measurement.c" 106 (Ncell*Norb*Norb), .use "measurement.c" 116 N,
    .use "measurement.c" 121 (Ncell*Ncell), .use "measurement.c" 125 Ncell] ++
  sumMapEvents Nx Ny shift (Ncell*Ncell) ++ nnMapEvents Nx Ny Ncell

/-- `AccumulateMeasurement` (measurement.c:170-313) -/
def accumulateMeas (t : Tables) (Norb Ncell : I) : List Event :=
  let N := Ncell*Norb
  let G := N*N
  let corr := Ncell*Norb*Norb
  (loop 0 Norb fun o =>
    (loop 0 Ncell fun i =>
      let io := i + Ncell*o
      [el "measurement.c" 195 G [io + N*io]]) ++
    [el "measurement.c" 200 Norb [o]]) ++
  [run1 "measurement.c" 206 G 0 (N*N)] ++
  (loop 0 Norb fun o => loop 0 Norb fun p =>
    let offset := Ncell*(o + Norb*p)
    loop 0 Ncell fun i =>
      let io := i + Ncell*o
      [el "measurement.c" 221 G [io + N*io]] ++
      loop 0 Ncell fun k =>
        let jp := get t.sum (k + Ncell*i) + p*Ncell
        [el "measurement.c" 226 (Ncell*Ncell) [k + Ncell*i], el "measurement.c" 228 G [jp + N*jp], el "measurement.c" 230 G [io + N*jp],
          el "measurement.c" 232 G [jp + N*io], el "measurement.c" 237 corr [k + offset]]) ++
  loop 0 Norb fun o =>
    let base := (Ncell*o) + N*(Ncell*o)
    loop 0 Ncell fun i =>
      let is := [get t.xp1 i, get t.xm1 i, get t.yp1 i, get t.ym1 i]
      [el "measurement.c" 270 Ncell [i]] ++
      loop 0 Ncell fun k =>
        let j := get t.sum (k + Ncell*i)
        let js := [get t.xp1 j, get t.xm1 j, get t.yp1 j, get t.ym1 j]
        [el "measurement.c" 277 (Ncell*Ncell) [k + Ncell*i], el "measurement.c" 280 Ncell [j], el "measurement.c" 285 G [base, i + N*j],
          el "measurement.c" 289 N [k + Ncell*o]] ++
        is.flatMap fun a => js.flatMap fun b => [el "measurement.c" 293 G [base, a + N*b]]

/-- `NormalizeMeasurementData`, `LoadMeasurementData`, `SaveMeasurementData` (measurement.c:320-438): the same
counts for the buffers of `AllocateMeasurementData` -/
def countsMeas (Norb Ncell : I) : List Event :=
  let N := Ncell*Norb
  [run1 "measurement.c" 331 Norb 0 Norb, run1 "measurement.c" 334 (N*N) 0 (N*N),
    run1 "measurement.c" 337 (Ncell*Norb*Norb) 0 (Ncell*Norb*Norb), run1 "measurement.c" 343 N 0 N] ++
  loop 0 Norb fun o => [el "measurement.c" 366 Norb [o]]

/-- `AllocateUnequalTimeMeasurementData` (measurement.c:445-504) -/
def allocateUneq (Norb Nx Ny shift L nB : I) : List Event :=
  let Ncell := Nx*Ny
  let N := Ncell*Norb
  [.use "measurement.c" 458 (N*N*nB*nB), .use "measurement.c" 462 (Ncell*Norb*Norb*L), .use "measurement.c" 475 (N*L),
    .use "measurement.c" 488 (Ncell*Ncell), .use "measurement.c" 492 Ncell] ++
  sumMapEvents Nx Ny shift (Ncell*Ncell) ++ nnMapEvents Nx Ny Ncell

/-- `AccumulateUnequalTimeMeasurement` (measurement.c:550-811) -/
def accumulateUneq (t : Tables) (Norb Ncell L prodBlen : I) : List Event :=
  let N := Ncell*Norb
  let nB := L/prodBlen
  let g10 := N*L*N
  let g01 := N*N*L
  let corr := Ncell*Norb*Norb*L
  let sc := N*L
  [.use "measurement.c" 562 g10, .use "measurement.c" 563 g01] ++
  unequalTimeGreens N L prodBlen (N*N*nB*nB) g10 g01 ++
  loop 0 L fun l => loop 0 Norb fun o =>
    (loop 0 Norb fun p =>
      let offset := Ncell*(o + Norb*p + Norb*Norb*l)
      loop 0 Ncell fun i =>
        let io := i + o*Ncell
        [el "measurement.c" 596 g01 [io + N*(io + N*l)]] ++
        loop 0 Ncell fun k =>
          let jp := get t.sum (k + Ncell*i) + Ncell*p
          [el "measurement.c" 601 (Ncell*Ncell) [k + Ncell*i], el "measurement.c" 603 corr [k + offset],
            el "measurement.c" 603 g01 [io + N*(jp + N*l)], el "measurement.c" 605 g10 [io + N*(l + L*jp)],
            el "measurement.c" 613 corr [0 + offset], el "measurement.c" 619 g01 [jp + N*jp],
            el "measurement.c" 624 g01 [jp + N*(io + N*l)]]) ++
    (let t0 := (Ncell*o) + N*(l + L*(Ncell*o))
     let b0t := (Ncell*o) + N*((Ncell*o) + N*l)
     let b00 := (Ncell*o) + N*(Ncell*o)
     let offset := Ncell*o + N*l
     loop 0 Ncell fun i =>
      let ipx := get t.xp1 i
      let imx := get t.xm1 i
      let ipy := get t.yp1 i
      let imy := get t.ym1 i
      let is := [i, ipx, imx, ipy, imy, get t.yp1 ipx, get t.ym1 ipx, get t.yp1 imx, get t.ym1 imx]
      [el "measurement.c" 659 Ncell [i], el "measurement.c" 665 Ncell [ipx], el "measurement.c" 667 Ncell [imx]] ++
      loop 0 Ncell fun k =>
        let j := get t.sum (k + Ncell*i)
        let jpx := get t.xp1 j
        let jmx := get t.xm1 j
        let jpy := get t.yp1 j
        let jmy := get t.ym1 j
        let js := [j, jpx, jmx, jpy, jmy, get t.yp1 jpx, get t.ym1 jpx, get t.yp1 jmx, get t.ym1 jmx]
        [el "measurement.c" 672 (Ncell*Ncell) [k + Ncell*i], el "measurement.c" 675 Ncell [j], el "measurement.c" 681 Ncell [jpx],
          el "measurement.c" 683 Ncell [jmx], el "measurement.c" 690 sc [k + offset]] ++
        (is.flatMap fun a => js.flatMap fun b =>
          [el "measurement.c" 686 g10 [t0, a + N*L*b], el "measurement.c" 719 g01 [b0t, b + N*a]]) ++
        (is.flatMap fun a => is.flatMap fun b => [el "measurement.c" 716 g01 [b0t, a + N*b]]) ++
        (js.flatMap fun a => js.flatMap fun b => [el "measurement.c" 717 g01 [b00, a + N*b]]))

/-- `NormalizeUnequalTimeMeasurementData`, `LoadUnequalTimeMeasurementData`,
`SaveUnequalTimeMeasurementData` (measurement.c:818-928) -/
def countsUneq (Norb Ncell L : I) : List Event :=
  let N := Ncell*Norb
  [run1 "measurement.c" 833 (Ncell*Norb*Norb*L) 0 (Ncell*Norb*Norb*L), run1 "measurement.c" 842 (N*L) 0 (N*L)]

/-- `AllocatePhononData` (measurement.c:935-966) -/
def allocatePhonon (Norb maxSampl : I) : List Event :=
  [.use "measurement.c" 949 Norb, .use "measurement.c" 958 (Norb*maxSampl)]

/-- `AccumulatePhononData` (measurement.c:992-1061) for time slice `lGreen` and the sample number `nsampl`;
`X` has `L*N` elements (main.c:139,194) -/
def accumulatePhonon (Norb Ncell L maxSampl lGreen nsampl : I) : List Event :=
  let N := Ncell*Norb
  let sizeX := L*N
  (loop 0 L fun l =>
    let lplus := (l + 1) % L
    loop 0 Norb fun o =>
      (loop 0 Ncell fun i =>
        [el "measurement.c" 1019 Norb [o], el "measurement.c" 1019 sizeX [i + o*Ncell + l*N],
          el "measurement.c" 1021 (Norb*maxSampl) [o + nsampl*Norb], el "measurement.c" 1022 sizeX [i + o*Ncell + lplus*N]]) ++
      [el "measurement.c" 1027 (Norb*maxSampl) [o + nsampl*Norb], el "measurement.c" 1027 sizeX [o*Ncell + l*N]]) ++
  (loop 0 Norb fun o => [el "measurement.c" 1033 Norb [o], el "measurement.c" 1035 Norb [0]]) ++
  loop 0 Norb fun o =>
    (loop 0 Ncell fun i =>
      let io := i + Ncell*o
      [el "measurement.c" 1045 (N*N) [io + N*io], el "measurement.c" 1049 sizeX [i + o*Ncell + lGreen*N]]) ++
    [el "measurement.c" 1053 Norb [o]]

/-- `NormalizePhononData`, `PrintPhononData`, `SavePhononData` (measurement.c:1068-1145) -/
def countsPhonon (Norb maxSampl : I) : List Event :=
  [run1 "measurement.c" 1077 Norb 0 Norb, run1 "measurement.c" 1139 (Norb*maxSampl) 0 (Norb*maxSampl)] ++
  loop 0 Norb fun o => [el "measurement.c" 1109 Norb [o]]

/-! ## monte_carlo.c -/

/-- `Random_Shuffle` (random.c:79-91) on `n` entries: `j ≤ i` is any number -/
def shuffle (n : I) : List Event :=
  loop 0 n fun i => loop 0 (i + 1) fun j => [el "random.c" 87 n [i], el "random.c" 89 n [j]]

/-- the field updates of a time slice (monte_carlo.c:78-110, 550-582) -/
def siteUpdates (Norb Ncell L l : I) : List Event :=
  let N := Ncell*Norb
  shuffle N ++ loop 0 N fun j => [el "monte_carlo.c" 82 N [j]] ++ loop 0 N fun i =>
    let o := i/Ncell
    [el "monte_carlo.c" 89 (N*N) [i + i*N], el "monte_carlo.c" 89 (L*N) [i + l*N], el "monte_carlo.c" 89 Norb [o]] ++
    shermanMorrison N i ++ loop 0 2 fun σ => [el "monte_carlo.c" 89 2 [σ], el "monte_carlo.c" 90 2 [1 - σ]]

/-- the end of a time slice (monte_carlo.c:113-168, 643-703): new time step matrices, the Green's function and
the measurement -/
def sliceEnd (t : Tables) (Norb Ncell L prodBlen nwraps neqlt l : I) (meas : List Event) : List Event :=
  let N := Ncell*Norb
  updateTimeStep Norb Ncell L prodBlen (L*N) l ++
  cond eq ((l + 1) % nwraps) 0 (greenConstruct N L prodBlen ((l + 1) % L)) [] ++
  cond lt 0 neqlt (cond eq ((l + 1) % neqlt) 0 (accumulateMeas t Norb Ncell ++ meas) []) []

/-- `DQMCIteration` (monte_carlo.c:31-178) -/
def iteration (t : Tables) (Norb Ncell L prodBlen nwraps neqlt : I) : List Event :=
  let N := Ncell*Norb
  [.use "monte_carlo.c" 59 N] ++ loop 0 L fun l =>
    [el "monte_carlo.c" 70 L [l]] ++ timeSliceWrap N (N*N) [0] ++ siteUpdates Norb Ncell L l ++
    sliceEnd t Norb Ncell L prodBlen nwraps neqlt l []

/-- `PhononBlockUpdates`, `PhononFlipUpdates` (monte_carlo.c:201-325, 349-468): for any site `i` -/
def phononBlock (Norb Ncell L prodBlen nBlock : I) : List Event :=
  let N := Ncell*Norb
  cond lt 0 nBlock
    ([.use "monte_carlo.c" 223 L, .use "greens_func.c" 16 (N*N)] ++ allocateTimeStep N L prodBlen ++
      loop 0 N fun i =>
        let o := i/Ncell
        [el "monte_carlo.c" 246 Norb [o]] ++
        (loop 0 L fun l => [el "monte_carlo.c" 255 L [l], el "monte_carlo.c" 255 (L*N) [i + l*N]]) ++
        initTimeStep Norb Ncell L prodBlen (L*N) ++ greenConstruct N L prodBlen 0 ++
        [run1 "greens_func.c" 44 (N*N) 0 (N*N)])
    []

/-- `DQMCPhononIteration` (monte_carlo.c:495-724) with `nsampl` samples taken before -/
def phononIteration (t : Tables) (Norb Ncell L prodBlen nwraps neqlt nLocal nBlock maxSampl nsampl : I) :
    List Event :=
  let N := Ncell*Norb
  [.use "monte_carlo.c" 529 N] ++ (loop 0 L fun l =>
    let lnext := (l + 1) % L
    let lprev := (l + L - 1) % L
    [el "monte_carlo.c" 540 L [l]] ++ timeSliceWrap N (N*N) [0] ++ siteUpdates Norb Ncell L l ++ shuffle N ++
    (loop 0 nLocal fun j => [el "monte_carlo.c" 596 N [j % N]]) ++
    (loop 0 N fun i =>
      let o := i/Ncell
      [el "monte_carlo.c" 602 Norb [o], el "monte_carlo.c" 612 (N*N) [i + i*N], el "monte_carlo.c" 616 (L*N) [i + l*N],
        el "monte_carlo.c" 616 (L*N) [i + lnext*N], el "monte_carlo.c" 616 (L*N) [i + lprev*N]] ++ shermanMorrison N i) ++
    sliceEnd t Norb Ncell L prodBlen nwraps neqlt l (accumulatePhonon Norb Ncell L maxSampl l nsampl)) ++
  phononBlock Norb Ncell L prodBlen nBlock

/-! ## main.c -/

/-- the parameters that enter the subscripts -/
structure Cfg where
  /-- number of orbitals -/
  Norb : ℤ
  /-- lattice dimension -/
  Nx : ℤ
  /-- lattice dimension -/
  Ny : ℤ
  /-- shift of the periodic boundary conditions -/
  shift : ℤ
  /-- number of time slices -/
  L : ℤ
  /-- length of the products of time step matrices -/
  prodBlen : ℤ
  /-- time slices between recomputations of the Green's function -/
  nwraps : ℤ
  /-- time slices between measurements -/
  neqlt : ℤ
  /-- iterations between measurements at unequal times -/
  nuneqlt : ℤ
  /-- number of equilibration iterations -/
  nequil : ℤ
  /-- number of measurement iterations -/
  nsampl : ℤ
  /-- whether phonons are used -/
  phonons : Bool
  /-- local phonon updates -/
  nLocal : ℤ
  /-- block phonon updates -/
  nBlock : ℤ

/-- `AllocateSimulationParameters`, `ValidateSimulationParameters` and `PrintSimulationParameters`
(param_parser.c:361-371, 393-461, 468-559) -/
def paramEvents (Norb : I) : List Event :=
  [.use "param_parser.c" 17 (Norb*Norb), .use "param_parser.c" 367 Norb] ++
  [el "param_parser.c" 476 Norb [Norb - 1]] ++
  (loop 0 Norb fun i => loop 0 Norb fun j => [el "param_parser.c" 473 Norb [i], el "param_parser.c" 493 (Norb*Norb) [i + j*Norb]]) ++
  loop 0 Norb fun i => [el "param_parser.c" 412 (Norb*Norb) [i + i*Norb]] ++
    loop (i + 1) Norb fun j => [el "param_parser.c" 422 (Norb*Norb) [i + j*Norb], el "param_parser.c" 422 (Norb*Norb) [j + i*Norb]]

/-- the accesses before the simulation (main.c:44-217, monte_carlo.c:741-815) -/
def setup (phonons : Bool) (Norb Nx Ny shift L prodBlen nuneqlt maxSampl : I) : List Event :=
  let Ncell := Nx*Ny
  let N := Norb*Ncell
  let LxN := L*N
  paramEvents Norb ++ allocateMeas Norb Nx Ny shift ++
  cond lt 0 nuneqlt (allocateUneq Norb Nx Ny shift L (L/prodBlen)) [] ++
  (if phonons then allocatePhonon Norb maxSampl else []) ++
  [.use "main.c" 142 LxN] ++ (loop 0 LxN fun i => [el "main.c" 154 LxN [i]]) ++
  [run1 "checkpoint.c" 85 LxN 0 LxN] ++
  (if phonons then
    loop 0 L fun l => loop 0 N fun i => [el "main.c" 203 Norb [i/Ncell], el "main.c" 205 LxN [i + l*N]]
   else []) ++
  kineticExponential Norb Nx Ny shift ++ fillStratonovich Norb ++ allocateTimeStep N L prodBlen ++
  initTimeStep Norb Ncell L prodBlen LxN ++ [.use "greens_func.c" 16 (N*N)] ++ greenConstruct N L prodBlen 0

/-- the accesses of the iterations and of the output (monte_carlo.c:816-862, main.c:218-310); an iteration is listed
once for every number `n` of phonon samples taken before; the phonon sample buffer is never full when a sample is
taken (C40) -/
def simulate (t : Tables) (phonons : Bool) (Norb Ncell L prodBlen nwraps neqlt nuneqlt nLocal nBlock maxSampl : I) :
    List Event :=
  (if phonons then
    (loop 0 maxSampl fun n => phononIteration t Norb Ncell L prodBlen nwraps neqlt nLocal nBlock maxSampl n) ++
    phononIteration t Norb Ncell L prodBlen nwraps 0 nLocal nBlock maxSampl 0
   else iteration t Norb Ncell L prodBlen nwraps neqlt ++ iteration t Norb Ncell L prodBlen nwraps 0) ++
  cond lt 0 nuneqlt (accumulateUneq t Norb Ncell L prodBlen) [] ++
  countsMeas Norb Ncell ++ cond lt 0 nuneqlt (countsUneq Norb Ncell L) [] ++
  (if phonons then countsPhonon Norb maxSampl else [])

/-- the accesses of the whole program (main.c:44-310) -/
def program (c : Cfg) (junk : ℤ → ℤ) : List Event :=
  let maxSampl := (c.nsampl : I)*(c.L : I)/(c.neqlt : I)
  setup c.phonons c.Norb c.Nx c.Ny c.shift c.L c.prodBlen c.nuneqlt maxSampl ++
  [.use "monte_carlo.c" 818 ((c.nequil : I) + (c.nsampl : I))] ++
  simulate (tables c.Nx c.Ny c.shift junk) c.phonons c.Norb ((c.Nx : I)*(c.Ny : I)) c.L c.prodBlen c.nwraps c.neqlt
    c.nuneqlt c.nLocal c.nBlock maxSampl

end Verif.Index
