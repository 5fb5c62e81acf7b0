import Mathlib.Analysis.SpecialFunctions.Complex.Circle
import Mathlib.Algebra.BigOperators.Group.Finset.Basic

set_option autoImplicit false

/-!
# Model of lattice_fourier.c and lattice_fourier.h

These files are compiled only with `USE_MKL` and are used only by the test suite.  The descriptors of
the MKL library are modelled by the settings that the code makes; the transforms by the contract that
the MKL documentation states for two-dimensional real transforms with conjugate-even storage
`DFTI_COMPLEX_COMPLEX`, out of place.  For any other setting nothing is assumed.
-/

namespace Verif.Fourier

open Complex

/-- a DFTI descriptor of a real transform in double precision and two dimensions -/
structure Dfti where
  /-- lengths of the dimensions -/
  sizes : ℤ × ℤ
  /-- `DFTI_CONJUGATE_EVEN_STORAGE = DFTI_COMPLEX_COMPLEX` -/
  complexStorage : Bool
  /-- `DFTI_PLACEMENT = DFTI_NOT_INPLACE` -/
  notInplace : Bool
  /-- `DFTI_INPUT_STRIDES` -/
  inStrides : ℤ × ℤ × ℤ
  /-- `DFTI_OUTPUT_STRIDES` -/
  outStrides : ℤ × ℤ × ℤ
  /-- committed without later changes -/
  committed : Bool

/-- `lattice_fourier_desc_t` (lattice_fourier.h:15-25) -/
structure LatticeDesc where
  /-- `hand_forw` -/
  forw : Dfti
  /-- `hand_back` -/
  back : Dfti
  /-- `nfac` -/
  nfac : ℝ
  /-- `Nx` -/
  Nx : ℤ
  /-- `Ny` -/
  Ny : ℤ

/-- what `DftiCreateDescriptor` produces for a real transform: strides without gaps, in place,
`DFTI_COMPLEX_REAL` -/
def Dfti.create (sizes : ℤ × ℤ) : Dfti :=
  ⟨sizes, false, false, (0, sizes.2, 1), (0, sizes.2, 1), false⟩

/-- `DftiSetValue` -/
def Dfti.set (f : Dfti → Dfti) (d : Dfti) : Dfti := { f d with committed := false }

/-- the MKL calls of `CreateLatticeFourierDescriptor` in program order (lattice_fourier.c:24-92) -/
def createSteps (Nx Ny : ℤ) : List (LatticeDesc → LatticeDesc) :=
  let forw (f : Dfti → Dfti) (d : LatticeDesc) : LatticeDesc := { d with forw := f d.forw }
  let back (f : Dfti → Dfti) (d : LatticeDesc) : LatticeDesc := { d with back := f d.back }
  [ forw fun _ => Dfti.create (Ny, Nx)                                             -- 24-27
  , forw (Dfti.set fun d => { d with complexStorage := true })                      -- 31
  , forw (Dfti.set fun d => { d with notInplace := true })                          -- 35
  , forw (Dfti.set fun d => { d with inStrides := (0, Nx, 1) })                     -- 39-43
  , forw (Dfti.set fun d => { d with outStrides := (0, Int.tdiv Nx 2 + 1, 1) })     -- 47-50
  , forw fun d => { d with committed := true }                                      -- 54
  , back fun _ => Dfti.create (Ny, Nx)                                             -- 60-63
  , back (Dfti.set fun d => { d with complexStorage := true })                      -- 67
  , back (Dfti.set fun d => { d with notInplace := true })                          -- 71
  , back (Dfti.set fun d => { d with inStrides := (0, Int.tdiv Nx 2 + 1, 1) })      -- 75-79
  , back (Dfti.set fun d => { d with outStrides := (0, Nx, 1) })                    -- 83-86
  , back fun d => { d with committed := true } ]                                    -- 90

/-- perform calls until one of them fails; `st` are the statuses of the calls -/
def runSteps : List (LatticeDesc → LatticeDesc) → List ℤ → LatticeDesc → ℤ × LatticeDesc
  | [], _, d => (0, d)
  | _ :: _, [], d => (0, d)
  | f :: fs, s :: st, d => if s ≠ 0 then (s, d) else runSteps fs st (f d)

/-- `CreateLatticeFourierDescriptor` (lattice_fourier.c:10-98); `st` are the statuses that the MKL calls
return, `junk` is the uninitialised descriptor -/
noncomputable def create (Nx Ny : ℤ) (st : List ℤ) (junk : LatticeDesc) : ℤ × LatticeDesc :=
  let r := runSteps (createSteps Nx Ny) st { junk with Nx := Nx, Ny := Ny }
  if r.1 ≠ 0 then r else (r.1, { r.2 with nfac := 1 / (Nx * Ny : ℤ) })

/-- `exp(2 π i m / n)` -/
noncomputable def phase (n m : ℤ) : ℂ := exp (2 * Real.pi * I * m / n)

/-- the position of an element -/
def pos (s : ℤ × ℤ × ℤ) (a b : ℤ) : ℤ := s.1 + a * s.2.1 + b * s.2.2

/-- the settings for which the contracts are stated -/
def Dfti.ready (d : Dfti) : Prop := d.committed = true ∧ d.complexStorage = true ∧ d.notInplace = true

/-- contract of `DftiComputeForward` (`FourierTransformLatticeForward`, lattice_fourier.h:36-39): the half of the
spectrum with `k₂ ≤ n₂/2` is stored, everything else in the output buffer is untouched -/
def Forward (d : Dfti) (v : ℤ → ℝ) (w w' : ℤ → ℂ) : Prop :=
  d.ready →
    (∀ k₁ k₂ : ℤ, 0 ≤ k₁ → k₁ < d.sizes.1 → 0 ≤ k₂ → k₂ ≤ Int.tdiv d.sizes.2 2 →
      w' (pos d.outStrides k₁ k₂) = ∑ j₁ ∈ Finset.range d.sizes.1.toNat, ∑ j₂ ∈ Finset.range d.sizes.2.toNat,
        (v (pos d.inStrides j₁ j₂) : ℂ) * (phase d.sizes.1 (-(k₁ * j₁)) * phase d.sizes.2 (-(k₂ * j₂)))) ∧
    ∀ p, (∀ k₁ k₂ : ℤ, 0 ≤ k₁ → k₁ < d.sizes.1 → 0 ≤ k₂ → k₂ ≤ Int.tdiv d.sizes.2 2 → p ≠ pos d.outStrides k₁ k₂) →
      w' p = w p

/-- a spectrum of a real signal -/
def ConjEven (n₁ n₂ : ℤ) (Z : ℤ → ℤ → ℂ) : Prop :=
  ∀ k₁ k₂, 0 ≤ k₁ → k₁ < n₁ → 0 ≤ k₂ → k₂ < n₂ → Z ((n₁ - k₁) % n₁) ((n₂ - k₂) % n₂) = (starRingEnd ℂ) (Z k₁ k₂)

/-- contract of `DftiComputeBackward` (`FourierTransformLatticeBackward`, lattice_fourier.h:46-49): if the stored half
belongs to a conjugate-even spectrum, then the output is the sum over the whole spectrum -/
def Backward (d : Dfti) (w : ℤ → ℂ) (v v' : ℤ → ℝ) : Prop :=
  d.ready → ∀ Z : ℤ → ℤ → ℂ, ConjEven d.sizes.1 d.sizes.2 Z →
    (∀ k₁ k₂ : ℤ, 0 ≤ k₁ → k₁ < d.sizes.1 → 0 ≤ k₂ → k₂ ≤ Int.tdiv d.sizes.2 2 → w (pos d.inStrides k₁ k₂) = Z k₁ k₂) →
    (∀ j₁ j₂ : ℤ, 0 ≤ j₁ → j₁ < d.sizes.1 → 0 ≤ j₂ → j₂ < d.sizes.2 →
      (v' (pos d.outStrides j₁ j₂) : ℂ) = ∑ k₁ ∈ Finset.range d.sizes.1.toNat, ∑ k₂ ∈ Finset.range d.sizes.2.toNat,
        Z k₁ k₂ * (phase d.sizes.1 (k₁ * j₁) * phase d.sizes.2 (k₂ * j₂))) ∧
    ∀ p, (∀ j₁ j₂ : ℤ, 0 ≤ j₁ → j₁ < d.sizes.1 → 0 ≤ j₂ → j₂ < d.sizes.2 → p ≠ pos d.outStrides j₁ j₂) → v' p = v p

end Verif.Fourier
