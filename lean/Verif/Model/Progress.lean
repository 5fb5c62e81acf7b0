import Mathlib.Init

/-! # Model of `src/progress.c` (states and counts; the clock values only serve to print estimates) -/

set_option autoImplicit false

namespace Verif.Progress

/-- `enum { INIT, EQUILIB, MEASURE, OUTPUT }` (progress.c:14) -/
inductive Phase
  | init
  | equilib
  | measure
  | output
  deriving DecidableEq

/-- `dqmc_progress_t` (progress.c:12-24) without the clock values -/
structure Prog where
  phase : Phase
  nequil : Int
  nsampl : Int
  niter : Int

/-- `InitProgressTracking` (progress.c:91-109) -/
def start (nequil nsampl : Int) : Prog := ⟨.init, nequil, nsampl, 0⟩

/-- `UpdateProgress` (progress.c:116-157); `it` is `*p.iteration` at the call -/
def update (it : Int) (p : Prog) : Prog :=
  match p.phase with
  | .init => { p with phase := if it < p.nequil then .equilib else .measure }
  | .equilib =>
    if it + 1 = p.nequil then { p with phase := .measure, niter := 0 }
    else { p with niter := p.niter + 1 }
  | .measure =>
    if it + 1 = p.nequil + p.nsampl then { p with phase := .output, niter := p.niter + 1 }
    else { p with niter := p.niter + 1 }
  | .output => p

end Verif.Progress
