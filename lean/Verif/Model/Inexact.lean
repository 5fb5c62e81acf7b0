import Verif.Model.Simulation

/-!
# `DQMCIteration` in an unspecified arithmetic (src/monte_carlo.c:31-180, 821-853)

`Verif/Model/MonteCarlo.lean` computes with real numbers.  Here the numbers of the program (Green's functions, time step
matrices, measurement data) are of an arbitrary type `V`, and the operations on them are arbitrary functions: for instance the
binary64 operations of a compiled program, with any rounding, any order of summation and any LAPACK library.
What remains is the control flow: the order of the sites, the comparison of a random number with the computed factor, and the
changes of the field.  Runs without phonons only.
-/

set_option autoImplicit false

namespace Verif.MonteCarlo

open Verif.Progress

/-- the numerical operations of `DQMCIteration` and of the main loop -/
structure Numerics (N : ℕ) (V : Type) where
  /-- wrap the Green's functions at slice `l` (monte_carlo.c:66-73) -/
  wrap : ℕ → V → V
  /-- computed value of `fabs(du*dd)` for field, slice and site (monte_carlo.c:84-90); a NaN, for which the comparison is false,
  counts as a number which is not positive -/
  factor : (ℕ → Fin N → Fin 2) → ℕ → V → Fin N → ℝ
  /-- update of the Green's functions; the field is the one before the update (monte_carlo.c:93-104) -/
  update : (ℕ → Fin N → Fin 2) → ℕ → V → Fin N → V
  /-- new time step matrices, recomputation and measurement at the end of slice `l` of an iteration
  (monte_carlo.c:112-171) -/
  finish : ℤ → (ℕ → Fin N → Fin 2) → ℕ → V → Option V
  /-- unequal time measurement at the end of an iteration (monte_carlo.c:845-850) -/
  close : ℤ → (ℕ → Fin N → Fin 2) → V → Option V

/-- state of a run in an unspecified arithmetic -/
structure RoughState (σ : Type) (N : ℕ) (V : Type) where
  rng : σ
  s : ℕ → Fin N → Fin 2
  num : V

variable {σ : Type} {N : ℕ} {V : Type} (num : Numerics N V) (rng : Rng σ)

/-- proposal to flip `s[i + l*N]` (monte_carlo.c:81-109) -/
noncomputable def roughSite (l : ℕ) (st : RoughState σ N V) (i : Fin N) : RoughState σ N V :=
  let r := rng.uniform st.rng
  if r.1 < num.factor st.s l st.num i then
    { rng := r.2
      s := Function.update st.s l (Function.update (st.s l) i (1 - st.s l i))
      num := num.update st.s l st.num i }
  else { st with rng := r.2 }

/-- all sites of a slice in random order (monte_carlo.c:77-110) -/
noncomputable def roughSlice (l : ℕ) (st : RoughState σ N V) : Option (RoughState σ N V) := do
  let (order, r) ← rng.shuffle N st.rng
  return order.foldl (roughSite num rng l) { st with rng := r }

/-- one time slice (monte_carlo.c:64-172) -/
noncomputable def roughTimeSlice (it : ℤ) (st : RoughState σ N V) (l : ℕ) : Option (RoughState σ N V) := do
  let st ← roughSlice num rng l { st with num := num.wrap l st.num }
  let v ← num.finish it st.s l st.num
  return { st with num := v }

/-- one iteration of the main loop (monte_carlo.c:833-850) -/
noncomputable def roughBody (L : ℕ) (it : ℤ) (st : RoughState σ N V) : Option (RoughState σ N V) := do
  let st ← (List.range L).foldlM (roughTimeSlice num rng it) st
  let v ← num.close it st.s st.num
  return { st with num := v }

/-! ## The exact arithmetic -/

variable {M : Type}

/-- the operations of `Verif/Model/MonteCarlo.lean`, as an instance; source and field in the `State` are not used -/
noncomputable def exactNumerics [NeZero N] (sys : Sys σ N M) (cfg : Cfg) : Numerics N (State σ N M) where
  wrap := wrap
  factor := fun s l v i => |ratio v.Gu i (sys.hs.delta (s l i) (sys.orb i)) *
    ratio v.Gd i (sys.hs.delta (1 - s l i) (sys.orb i))|
  update := fun s l v i =>
    let deltaU := sys.hs.delta (s l i) (sys.orb i)
    let deltaD := sys.hs.delta (1 - s l i) (sys.orb i)
    { v with
      Gu := applyUpdate v.Gu i deltaU (ratio v.Gu i deltaU)
      Gd := applyUpdate v.Gd i deltaD (ratio v.Gd i deltaD) }
  finish := fun it s l v => do
    let v ← maybeRecompute sys l (updateB sys l { v with s := s })
    measureEq sys (effNeqlt cfg it) l v
  close := fun it s v => measureUneq sys cfg it { v with s := s }

/-- the state of the model with real numbers -/
def RoughState.join (st : RoughState σ N (State σ N M)) : State σ N M := { st.num with rng := st.rng, s := st.s }

end Verif.MonteCarlo
