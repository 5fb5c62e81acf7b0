import Verif.Lemmas.MeasureUneq
import Verif.Props.Measurement

/-! # Properties C46 and C65: unequal time measurements -/

set_option autoImplicit false

namespace Verif.Measurement

open Matrix Verif.Lapack Verif.TimeFlow Verif.Greens Verif.Mem Verif.Lattice

variable {N : ℕ}

/-! ## Specification -/

/-- pairs for the time difference `l`: `G(τ,0) = ⟨c(τ) c†(0)⟩` and
`G(0,τ) = -⟨c†(τ) c(0)⟩` for `τ > 0`, where at `τ = 0` the anticommutator is added -/
def unequalTime (u d : TimeG N) (l : ℕ) : Pairs N where
  dens a b := (if a = b then 1 else 0) - spinG (u.eq l) (d.eq l) b a
  dens0 a b := (if a = b then 1 else 0) - spinG (u.eq 0) (d.eq 0) b a
  lesser a b := (if l = 0 ∧ a = b then 1 else 0) - spinG (u.zt l) (d.zt l) b a
  greater a b := spinG (u.t0 l) (d.t0 l) a b

/-- at time difference 0 all three Green's functions coincide -/
structure TimeG.Start (g : TimeG N) : Prop where
  t0 : g.t0 0 = g.eq 0
  zt : g.zt 0 = g.eq 0

/-- correlations of the sites `a` and `b` -/
def ucorrSpec (u d : TimeG N) (l : ℕ) (a b : Fin N) : UneqF → ℝ
  | .geqltU => u.eq l a b
  | .geqltD => d.eq l a b
  | .gtau0U => u.t0 l a b
  | .gtau0D => d.t0 l a b
  | .g0tauU => u.zt l a b
  | .g0tauD => d.zt l a b
  | .nn => (unequalTime u d l).corr (nOp true a ++ nOp false a) (nOp true b ++ nOp false b)
  | .zz => (unequalTime u d l).corr (zOp a) (zOp b)
  | .xx => (unequalTime u d l).corr (xOp a) (xOp b)
  | _ => 0

section
variable [NeZero N] (Nx Ny : ℕ) (t : ℤ)

/-- current from cell `c` to the neighbouring cell in direction `(ex, ey)`, without the factor `i`:
`Σ_σ (c†_{c+e} c_c - c†_c c_{c+e})` -/
def currentOp (ex ey : ℤ) (o c : ℕ) : OneBody N :=
  [true, false].flatMap fun sp =>
    [(1, (siteN N (Nx * Ny) o (moveCell Nx Ny t c ex ey), sp), (siteN N (Nx * Ny) o c, sp)),
     (-1, (siteN N (Nx * Ny) o c, sp), (siteN N (Nx * Ny) o (moveCell Nx Ny t c ex ey), sp))]

/-- Raman operator with form factor `f`: `¼ Σ_e f(e) Σ_σ c†_{c+e} c_c` -/
noncomputable def ramanOp (f : Form) (o c : ℕ) : OneBody N :=
  [true, false].flatMap fun sp => f.map fun e =>
    (e.1 / 4, (siteN N (Nx * Ny) o (moveCell Nx Ny t c e.2.1 e.2.2), sp),
      (siteN N (Nx * Ny) o c, sp))

/-- form factor of the B2g channel -/
def b2gForm : Form := [(1, 1, 1), (-1, -1, 1), (-1, 1, -1), (1, -1, -1)]

/-- pairing, current and Raman correlations of the cells `c` and `c'` for one orbital -/
noncomputable def upairSpec (P : Pairs N) (o c c' : ℕ) : UneqF → ℝ
  | .scSw => P.pairCorr (onsitePair Nx Ny o c) (onsitePair Nx Ny o c')
  | .scDw => P.pairCorr (pairOp Nx Ny t dWave o c) (pairOp Nx Ny t dWave o c')
  | .scSx => P.pairCorr (pairOp Nx Ny t extS o c) (pairOp Nx Ny t extS o c')
  | .jx => -P.corr (currentOp Nx Ny t 1 0 o c) (currentOp Nx Ny t 1 0 o c')
  | .jy => -P.corr (currentOp Nx Ny t 0 1 o c) (currentOp Nx Ny t 0 1 o c')
  | .b1g => P.corr (ramanOp Nx Ny t dWave o c) (ramanOp Nx Ny t dWave o c')
  | .b2g => P.corr (ramanOp Nx Ny t b2gForm o c) (ramanOp Nx Ny t b2gForm o c')
  | _ => 0

end

/-- The unequal time estimates of one sample.  `b1` says whether the B1g Raman correlations are
included. -/
structure UneqEstimates [NeZero N] (Nx Ny Norb L : ℕ) (s t : ℤ) (b1 : Prop) (u d : TimeG N)
    (e : UneqF → ℤ → ℝ) : Prop where
  corr : ∀ f ∈ [UneqF.geqltU, .geqltD, .gtau0U, .gtau0D, .g0tauU, .g0tauD, .nn, .zz, .xx],
    ∀ l o p : ℕ, l < L → o < Norb → p < Norb → ∀ dx dy : ℤ,
    e f (cellOf Nx Ny s dx dy + (Nx * Ny : ℕ) * (o + Norb * p + Norb * Norb * l))
      = cellAvg (Nx * Ny) fun c => ucorrSpec u d l (siteN N (Nx * Ny) o c)
        (siteN N (Nx * Ny) p (moveCell Nx Ny s c dx dy)) f
  pair : ∀ f ∈ [UneqF.scSw, .scDw, .scSx, .jx, .jy, .b1g, .b2g], (f = .b1g → b1) →
    ∀ l o : ℕ, l < L → o < Norb → ∀ dx dy : ℤ,
    e f (cellOf Nx Ny s dx dy + (Nx * Ny : ℕ) * (o + Norb * l))
      = cellAvg (Nx * Ny) fun c => upairSpec Nx Ny t (unequalTime u d l) o c
        (moveCell Nx Ny s c dx dy) f

/-! ## More about moving cells -/

section
variable {Nx Ny : ℕ} (hx : 0 < Nx) (hy : 0 < Ny)
include hx hy

/-- moving a cell given by any of its coordinates -/
theorem moveCell_of_coords (t : ℤ) {c : ℕ} (hc : c < Nx * Ny) (x y a b : ℤ)
    (h : (c : ℤ) = cellOf Nx Ny t x y) :
    (moveCell Nx Ny t c a b : ℤ) = cellOf Nx Ny t (x + a) (y + b) := by
  rw [moveCell_cast hx hy]
  rw [cell_coords hx t hc, cellOf_eq_iff Nx Ny hx hy] at h
  obtain ⟨m, n, h1, h2⟩ := h
  rw [cellOf_eq_iff Nx Ny hx hy]
  exact ⟨m, n, by rw [h1]; ring, by rw [h2]; ring⟩

theorem moveCell_add (t : ℤ) (c : ℕ) (a b a' b' : ℤ) :
    moveCell Nx Ny t (moveCell Nx Ny t c a b) a' b' = moveCell Nx Ny t c (a + a') (b + b') := by
  have h := moveCell_of_coords hx hy t (moveCell_lt hx hy t c a b) _ _ a' b'
    (moveCell_cast hx hy t c a b)
  have h' := moveCell_cast hx hy t c (a + a') (b + b')
  rw [add_assoc, add_assoc, ← h'] at h
  exact_mod_cast h

theorem moveCell_inj (t : ℤ) {c c' : ℕ} (hc : c < Nx * Ny) (hc' : c' < Nx * Ny) (a b : ℤ) :
    moveCell Nx Ny t c a b = moveCell Nx Ny t c' a b ↔ c = c' := by
  constructor
  · intro h
    have h2 := congrArg (fun x => moveCell Nx Ny t x (-a) (-b)) h
    simp only [moveCell_add hx hy] at h2
    rwa [add_neg_cancel, add_neg_cancel, moveCell_zero hx t hc, moveCell_zero hx t hc'] at h2
  · intro h
    rw [h]

theorem moveCell_fixed {c : ℕ} (hc : c < Nx * Ny) (a b : ℤ) :
    moveCell Nx Ny 0 c a b = c ↔ (Nx : ℤ) ∣ a ∧ (Ny : ℤ) ∣ b := by
  have h1 := moveCell_cast hx hy 0 c a b
  have h2 := cell_coords (Ny := Ny) hx 0 hc
  have h3 := cellOf_eq_iff Nx Ny hx hy 0 (c % Nx : ℕ) (c / Nx : ℕ) ((c % Nx : ℕ) + a)
    ((c / Nx : ℕ) + b)
  rw [← h1, ← h2] at h3
  constructor
  · intro h
    obtain ⟨m, n, e1, e2⟩ := h3.1 (by exact_mod_cast h.symm)
    exact ⟨⟨m, by linarith⟩, ⟨n, by linarith⟩⟩
  · rintro ⟨⟨m, e1⟩, ⟨n, e2⟩⟩
    exact_mod_cast (h3.2 ⟨m, n, by rw [e1]; ring, by rw [e2]⟩).symm

end

/-! ## The formulas of the code are Wick contractions -/

theorem ucorrVal_eq (u d : TimeG N) (hu : u.Start) (hd : d.Start) (l : ℕ) (same : Prop)
    [Decidable same] (a b : Fin N) (h : same ↔ a = b ∧ l = 0) (f : UneqF) (hf : f ∈ ucorrFields) :
    ucorrVal u d l same a b f = ucorrSpec u d l a b f := by
  by_cases hab : a = b
  · subst hab
    by_cases hl : l = 0
    · have hs : same := h.2 ⟨rfl, hl⟩
      subst hl
      fin_cases hf <;>
      simp [ucorrVal, ucorrSpec, hs, Pairs.corr, Pairs.four, unequalTime, spinG, nOp, zOp, xOp,
        hu.t0, hu.zt, hd.t0, hd.zt] <;> ring
    · have hs : ¬ same := fun hs => hl (h.1 hs).2
      fin_cases hf <;>
      simp [ucorrVal, ucorrSpec, hs, Pairs.corr, Pairs.four, unequalTime, spinG, nOp, zOp, xOp,
        hl] <;> ring
  · have hs : ¬ same := fun hs => hab (h.1 hs).1
    fin_cases hf <;>
    simp [ucorrVal, ucorrSpec, hs, Pairs.corr, Pairs.four, unequalTime, spinG, nOp, zOp, xOp,
      hab] <;> ring

/-- double sum over a list -/
def dsum {α : Type} (l : List α) (F : α → α → ℝ) : ℝ :=
  (l.map fun e => (l.map fun e' => F e e').sum).sum

theorem dsum_add {α : Type} (l : List α) (F G : α → α → ℝ) :
    dsum l F + dsum l G = dsum l fun e e' => F e e' + G e e' := by
  unfold dsum
  rw [← List.sum_map_add]
  simp only [List.sum_map_add]

theorem dsum_mul {α : Type} (l : List α) (r : ℝ) (F : α → α → ℝ) :
    r * dsum l F = dsum l fun e e' => r * F e e' := by
  unfold dsum
  rw [← List.sum_map_mul_left]
  simp only [List.sum_map_mul_left]

theorem dsum_prod {α : Type} (l : List α) (a b : α → ℝ) :
    (l.map a).sum * (l.map b).sum = dsum l fun e e' => a e * b e' := by
  unfold dsum
  simp only [List.sum_map_mul_left]
  rw [List.sum_map_mul_right]

section
variable [NeZero N] {Nx Ny Norb : ℕ} (hx : 0 < Nx) (hy : 0 < Ny) (hN : N = Nx * Ny * Norb)
include hx hy hN

theorem current_eq (u d : TimeG N) (l : ℕ) {o i j : ℕ} (ho : o < Norb) (hi : i < Nx * Ny)
    (hj : j < Nx * Ny) (ex ey : ℤ) :
    currentVal (u.base (Nx * Ny) l o) (d.base (Nx * Ny) l o) l i (moveCell Nx Ny 0 i ex ey) j
        (moveCell Nx Ny 0 j ex ey)
      = -(unequalTime u d l).corr (currentOp Nx Ny 0 ex ey o i) (currentOp Nx Ny 0 ex ey o j) := by
  have hip := moveCell_lt hx hy 0 i ex ey
  have hjp := moveCell_lt hx hy 0 j ex ey
  have hinj := moveCell_inj hx hy 0 hi hj ex ey
  have inj : ∀ {x y : ℕ}, x < Nx * Ny → y < Nx * Ny →
      (siteN N (Nx * Ny) o x = siteN N (Nx * Ny) o y ↔ x = y) := by
    intro x y h1 h2
    rw [siteN_inj hN ho h1 ho h2]
    simp
  unfold currentOp
  generalize moveCell Nx Ny 0 i ex ey = ip at hip hinj ⊢
  generalize moveCell Nx Ny 0 j ex ey = jp at hjp hinj ⊢
  have e1 : ∀ x y : ℕ, (if x = y then (1 : ℝ) else 0) = if y = x then 1 else 0 := by
    intro x y
    simp [eq_comm]
  simp only [currentVal, TimeG.base, Pairs.corr, Pairs.four, unequalTime, spinG, List.flatMap_cons,
    List.flatMap_nil, List.cons_append, List.nil_append, List.map_cons, List.map_nil,
    List.sum_cons, List.sum_nil, Prod.mk.injEq, inj hi hj, inj hip hj, inj hi hjp, inj hip hjp,
    inj hip hi, inj hi hip, inj hjp hj, inj hj hjp, hinj, and_true, if_true, if_false, and_false,
    Bool.false_eq_true, reduceCtorEq, dTau, e1 i ip, e1 j jp]
  ring

/-- the anticommutator terms of a form factor: `Σ_e f(e) δ_{c,c+e}` -/
noncomputable def formSelf (Nx Ny : ℕ) (f : Form) (c : ℕ) : ℝ :=
  (f.map fun e => e.1 * if moveCell Nx Ny 0 c e.2.1 e.2.2 = c then 1 else 0).sum

/-- the Raman formula of the code summed over both form factors -/
noncomputable def ramanSum (u d : BaseN) (Nx Ny l : ℕ) (f : Form) (i j : ℕ) : ℝ :=
  (f.map fun e => (f.map fun e' => e.1 * e'.1 * ramanVal u d l i j
    (moveCell Nx Ny 0 i e.2.1 e.2.2) (moveCell Nx Ny 0 j e'.2.1 e'.2.2)).sum).sum

/-- `⟨n⟩`-like sum at time 0 with the anticommutator terms -/
noncomputable def ramanMean (u d : BaseN) (Nx Ny : ℕ) (f : Form) (j : ℕ) : ℝ :=
  (f.map fun e => e.1 * ((if moveCell Nx Ny 0 j e.2.1 e.2.2 = j then 2 else 0)
    - u.g00 j (moveCell Nx Ny 0 j e.2.1 e.2.2) - d.g00 j (moveCell Nx Ny 0 j e.2.1 e.2.2))).sum

/-- the sum without them at time `τ` -/
noncomputable def ramanMean' (u d : BaseN) (Nx Ny : ℕ) (f : Form) (i : ℕ) : ℝ :=
  (f.map fun e => e.1 * (u.gtt i (moveCell Nx Ny 0 i e.2.1 e.2.2)
    + d.gtt i (moveCell Nx Ny 0 i e.2.1 e.2.2))).sum

/-- difference between the Wick contraction and the formula of the code -/
theorem raman_general (u d : TimeG N) (l : ℕ) {o i j : ℕ} (ho : o < Norb) (hi : i < Nx * Ny)
    (hj : j < Nx * Ny) (f : Form) :
    (unequalTime u d l).corr (ramanOp Nx Ny 0 f o i) (ramanOp Nx Ny 0 f o j)
      = 1 / 16 * (ramanSum (u.base (Nx * Ny) l o) (d.base (Nx * Ny) l o) Nx Ny l f i j
        + 2 * formSelf Nx Ny f i
          * ramanMean (u.base (Nx * Ny) l o) (d.base (Nx * Ny) l o) Nx Ny f j
        - 2 * ramanMean' (u.base (Nx * Ny) l o) (d.base (Nx * Ny) l o) Nx Ny f i
          * formSelf Nx Ny f j) := by
  have inj : ∀ {x y : ℕ}, x < Nx * Ny → y < Nx * Ny →
      (siteN N (Nx * Ny) o x = siteN N (Nx * Ny) o y ↔ x = y) := by
    intro x y h1 h2
    rw [siteN_inj hN ho h1 ho h2]
    simp
  set ub := u.base (Nx * Ny) l o with hub
  set db := d.base (Nx * Ny) l o with hdb
  set S := ramanMean ub db Nx Ny f j with hS
  set S' := ramanMean' ub db Nx Ny f i with hS'
  have hl : (unequalTime u d l).corr (ramanOp Nx Ny 0 f o i) (ramanOp Nx Ny 0 f o j)
      = dsum f fun e e' => ([true, false].map fun sp => ([true, false].map fun sp' =>
        e.1 / 4 * (e'.1 / 4) * (unequalTime u d l).four
          (siteN N (Nx * Ny) o (moveCell Nx Ny 0 i e.2.1 e.2.2), sp) (siteN N (Nx * Ny) o i, sp)
          (siteN N (Nx * Ny) o (moveCell Nx Ny 0 j e'.2.1 e'.2.2), sp')
          (siteN N (Nx * Ny) o j, sp')).sum).sum := by
    unfold Pairs.corr ramanOp
    simp only [List.flatMap_cons, List.flatMap_nil, List.append_nil, List.map_append,
      List.map_map, List.sum_append, Function.comp_def, List.map_cons, List.map_nil,
      List.sum_cons, List.sum_nil, add_zero]
    simp only [List.sum_map_add]
    simp only [← dsum_add]
    unfold dsum
    ring
  have hr : 1 / 16 * (ramanSum ub db Nx Ny l f i j + 2 * formSelf Nx Ny f i * S
        - 2 * S' * formSelf Nx Ny f j) = 1 / 16 * (ramanSum ub db Nx Ny l f i j
        + 2 * (formSelf Nx Ny f i * S) + (-2) * (S' * formSelf Nx Ny f j)) := by ring
  rw [hl, hr, hS, hS']
  unfold formSelf ramanMean ramanMean'
  rw [dsum_prod, dsum_prod, show ramanSum ub db Nx Ny l f i j = dsum f fun e e' =>
    e.1 * e'.1 * ramanVal ub db l i j (moveCell Nx Ny 0 i e.2.1 e.2.2)
      (moveCell Nx Ny 0 j e'.2.1 e'.2.2) from rfl, dsum_mul, dsum_mul, dsum_add, dsum_add,
    dsum_mul]
  refine congrArg (dsum f) (funext fun e => funext fun e' => ?_)
  have hip := moveCell_lt hx hy 0 i e.2.1 e.2.2
  have hjp := moveCell_lt hx hy 0 j e'.2.1 e'.2.2
  generalize moveCell Nx Ny 0 i e.2.1 e.2.2 = ip at hip ⊢
  generalize moveCell Nx Ny 0 j e'.2.1 e'.2.2 = jp at hjp ⊢
  have e2 : ∀ x y : ℕ, (if l = 0 ∧ x = y then (1 : ℝ) else 0) = if l = 0 ∧ y = x then 1 else 0 := by
    intro x y
    simp [eq_comm (a := x)]
  have e3 : ∀ x y : ℕ, (if x = y then (2 : ℝ) else 0) = 2 * if x = y then 1 else 0 := by
    intro x y
    simp
  simp only [hub, hdb, ramanVal, TimeG.base, Pairs.four, unequalTime, spinG, List.map_cons,
    List.map_nil, List.sum_cons, List.sum_nil, Prod.mk.injEq, inj hip hj, inj hip hi, inj hjp hj, and_true, if_true, if_false, and_false,
    Bool.false_eq_true, reduceCtorEq, dTau, e2 j ip, e3]
  ring

theorem raman_eq (u d : TimeG N) (l : ℕ) {o i j : ℕ} (ho : o < Norb) (hi : i < Nx * Ny)
    (hj : j < Nx * Ny) (f : Form) (fi : formSelf Nx Ny f i = 0) (fj : formSelf Nx Ny f j = 0) :
    (unequalTime u d l).corr (ramanOp Nx Ny 0 f o i) (ramanOp Nx Ny 0 f o j)
      = 1 / 16 * ramanSum (u.base (Nx * Ny) l o) (d.base (Nx * Ny) l o) Nx Ny l f i j := by
  rw [raman_general hx hy hN u d l ho hi hj f, fi, fj]
  ring

omit hN [NeZero N] in
theorem formSelf_b2g {c : ℕ} (hc : c < Nx * Ny) : formSelf Nx Ny b2gForm c = 0 := by
  simp only [formSelf, b2gForm, List.map_cons, List.map_nil, List.sum_cons, List.sum_nil,
    moveCell_fixed hx hy hc, dvd_neg]
  by_cases h : (Nx : ℤ) ∣ 1 ∧ (Ny : ℤ) ∣ 1 <;> simp [h]

omit hN [NeZero N] in
theorem formSelf_b1g {c : ℕ} (hc : c < Nx * Ny) :
    formSelf Nx Ny dWave c = (if Nx = 1 then 2 else 0) - (if Ny = 1 then 2 else 0) := by
  have e : ∀ n : ℕ, ((n : ℤ) ∣ 1) ↔ n = 1 := by
    intro n
    rw [show (1 : ℤ) = ((1 : ℕ) : ℤ) from rfl, Int.natCast_dvd_natCast, Nat.dvd_one]
  simp only [formSelf, dWave, List.map_cons, List.map_nil, List.sum_cons, List.sum_nil,
    moveCell_fixed hx hy hc, dvd_neg, dvd_zero, and_true, true_and, e]
  by_cases h : Nx = 1 <;> by_cases h' : Ny = 1 <;> simp [h, h'] <;> norm_num

theorem upairVal_eq (u d : TimeG N) (l : ℕ) {o i j : ℕ} (ho : o < Norb) (hi : i < Nx * Ny)
    (hj : j < Nx * Ny) (f : UneqF) (hf : f ∈ upairFields) (hb : f = .b1g → (Nx = 1 ↔ Ny = 1))
    (nb : ℕ → NbrsN) (hnb : ∀ c < Nx * Ny, nb c = ⟨moveCell Nx Ny 0 c 1 0, moveCell Nx Ny 0 c (-1) 0,
      moveCell Nx Ny 0 c 0 1, moveCell Nx Ny 0 c 0 (-1)⟩) :
    upairVal (u.base (Nx * Ny) l o) (d.base (Nx * Ny) l o) l i j (nb i) (nb j)
        ⟨(nb (nb i).px).py, (nb (nb i).px).my, (nb (nb i).mx).py, (nb (nb i).mx).my⟩
        ⟨(nb (nb j).px).py, (nb (nb j).px).my, (nb (nb j).mx).py, (nb (nb j).mx).my⟩ f
      = upairSpec Nx Ny 0 (unequalTime u d l) o i j f := by
  have h4 : (0.25 : ℝ) = 1 / 4 := by norm_num
  have h16 : (0.0625 : ℝ) = 1 / 16 := by norm_num
  have ni := hnb i hi
  have nj := hnb j hj
  have hm : ∀ c a b, nb (moveCell Nx Ny 0 c a b) = _ := fun c a b =>
    hnb _ (moveCell_lt hx hy 0 c a b)
  fin_cases hf
  · simp [upairVal, upairSpec, onsitePair, Pairs.pairCorr, unequalTime, spinG, TimeG.base]
  · simp [upairVal, upairSpec, pairOp, dWave, Pairs.pairCorr, unequalTime, spinG, TimeG.base,
      nbrSum, dwTerms, NbrsN.toNbrs, h4, ni, nj]
    ring
  · simp [upairVal, upairSpec, pairOp, extS, Pairs.pairCorr, unequalTime, spinG, TimeG.base,
      nbrSum, sxTerms, NbrsN.toNbrs, h4, ni, nj]
    ring
  · simp only [upairVal, upairSpec, ni, nj]
    exact current_eq hx hy hN u d l ho hi hj 1 0
  · simp only [upairVal, upairSpec, ni, nj]
    exact current_eq hx hy hN u d l ho hi hj 0 1
  · have hb := hb rfl
    have hz : ∀ c < Nx * Ny, formSelf Nx Ny dWave c = 0 := by
      intro c hc
      rw [formSelf_b1g hx hy hc]
      by_cases h : Nx = 1 <;> simp [h, hb.symm]
    simp only [upairVal, upairSpec]
    rw [raman_eq hx hy hN u d l ho hi hj dWave (hz i hi) (hz j hj), ni, nj]
    simp only [ramanSum, dWave, nbrSum, b1gTerms, NbrsN.toNbrs, h16, List.map_cons, List.map_nil,
      List.sum_cons, List.sum_nil, Int.toNat_natCast]
    ring
  · simp only [upairVal, upairSpec]
    rw [raman_eq hx hy hN u d l ho hi hj b2gForm (formSelf_b2g hx hy hi) (formSelf_b2g hx hy hj),
      ni, nj]
    simp only [hm, moveCell_add hx hy, add_zero, zero_add]
    simp only [ramanSum, b2gForm, nbrSum, b2gTerms, DiagN.toDiag, h16, List.map_cons, List.map_nil,
      List.sum_cons, List.sum_nil, Int.toNat_natCast]
    ring

/-- **C65.** One call of `AccumulateUnequalTimeMeasurement` adds to every entry, for every time
difference, the sign times the average over all cells of the Wick contraction of the corresponding
operators.  The B1g Raman correlations are included if the lattice is not a chain. -/
theorem accumulateUneq_estimates (s : ℤ) (hs : 0 ≤ s) (junk : ℤ → ℤ) (L : ℕ)
    (u d : TimeG N) (hu : u.Start) (hd : d.Start) (sign : ℝ) (hsign : sign = 1 ∨ sign = -1) :
    ∃ e, UneqEstimates Nx Ny Norb L s 0 (Nx = 1 ↔ Ny = 1) u d e ∧
      ∀ m : UneqData, accumulateUneq Norb (Nx * Ny) L (Maps.construct Nx Ny s junk) sign (u.cur L)
          (d.cur L) m = some
        { arr := fun f z => m.arr f z + sign * e f z
          sign := m.sign + sign
          nsampl := m.nsampl + 1 } := by
  obtain ⟨c, hc, hm⟩ := accumulateUneq_contrib (L := L) hN (construct_good hx hy s hs junk) u d sign
  have hg2 : sign * sign = 1 := by rcases hsign with h | h <;> simp [h]
  have hgm : ∀ r : ℝ, sign * (sign * r) = r := fun r => by rw [← mul_assoc, hg2, one_mul]
  have cell : ∀ dx dy : ℤ, ∃ k : ℕ, k < Nx * Ny ∧ (k : ℤ) = cellOf Nx Ny s dx dy := by
    intro dx dy
    have h1 := cellOf_nonneg Nx Ny hx hy s dx dy
    have h2 := cellOf_lt Nx Ny hx hy s dx dy
    exact ⟨(cellOf Nx Ny s dx dy).toNat, by omega, by omega⟩
  refine ⟨fun f z => sign * c f z, ⟨?_, ?_⟩, fun m => ?_⟩
  · intro f hf l o p hl ho hp dx dy
    obtain ⟨k, hk, hk'⟩ := cell dx dy
    rw [← hk', hc.corr f hf l o p k hl ho hp hk, sgn_mul_avg, hgm]
    refine congrArg (· / _) (Finset.sum_congr rfl fun i hi => ?_)
    have hi := Finset.mem_range.1 hi
    beta_reduce
    rw [construct_add hx hy s hs junk k dx dy hk' hi]
    refine ucorrVal_eq u d hu hd l _ _ _ ?_ f hf
    rw [siteN_inj hN ho hi hp (moveCell_lt hx hy s i dx dy), eq_comm (a := i),
      moveCell_eq_self hx hy s hs k dx dy hk' hi]
    tauto
  · intro f hf hb l o hl ho dx dy
    obtain ⟨k, hk, hk'⟩ := cell dx dy
    have hz : (k : ℤ) + (Nx * Ny : ℕ) * (o + Norb * l)
        = k + (((Nx * Ny : ℕ) : ℤ) * o + (((Nx * Ny : ℕ) : ℤ) * Norb) * l) := by ring
    rw [← hk', hz, hc.pair f hf l o k hl ho hk, sgn_mul_avg, hgm]
    refine congrArg (· / _) (Finset.sum_congr rfl fun i hi => ?_)
    have hi := Finset.mem_range.1 hi
    beta_reduce
    rw [construct_add hx hy s hs junk k dx dy hk' hi]
    exact upairVal_eq hx hy hN u d l ho hi (moveCell_lt hx hy s i dx dy) f hf hb
      (Maps.construct Nx Ny s junk).nbrsN fun c hc => construct_nbrs hx hy s junk hc
  · rw [hm m]
    simp only [hgm]

end

/-- The exception for chains in C65 is needed: on a chain of two cells with all sites doubly
occupied (`G = 0`) the B1g Raman correlation is 1, but the code adds 0.  The anticommutator terms
`δ_{i,i+x}` for a direction of length 1 are missing in measurement.c:747-765. -/
theorem b1g_chain_wrong (junk : ℤ → ℤ) :
    let z : TimeG 2 := ⟨fun _ => 0, fun _ => 0, fun _ => 0⟩
    (∀ e, UneqEstimates 1 2 1 1 0 0 True z z e → e .b1g 0 = 1) ∧
    ∃ m, accumulateUneq 1 2 1 (Maps.construct 1 2 0 junk) 1 (z.cur 1) (z.cur 1) UneqData.allocate
      = some m ∧ m.arr .b1g 0 = 0 := by
  intro z
  have hb0 : z.base (1 * 2) 0 0 = ⟨fun _ _ => 0, fun _ _ => 0, fun _ _ => 0, fun _ _ => 0⟩ := by
    simp [TimeG.base, z]
  have m1 : ∀ c < 2, ∀ a : ℤ, moveCell 1 2 0 c a 0 = c := by
    intro c hc a
    rw [moveCell_fixed (by norm_num) (by norm_num) (by omega)]
    simp
  have m2 : ∀ c < 2, moveCell 1 2 0 c 0 1 ≠ c ∧ moveCell 1 2 0 c 0 (-1) ≠ c := by
    intro c hc
    constructor
    · rw [Ne, moveCell_fixed (by norm_num) (by norm_num) (by omega)]
      norm_num
    · rw [Ne, moveCell_fixed (by norm_num) (by norm_num) (by omega)]
      norm_num
  constructor
  · intro e he
    have h := he.pair .b1g (by decide) (fun _ => trivial) 0 0 (by norm_num) (by norm_num) 0 0
    have h0 : cellOf 1 2 0 0 0 + ((1 * 2 : ℕ) : ℤ) * (((0 : ℕ) : ℤ) + ((1 : ℕ) : ℤ) * ((0 : ℕ) : ℤ))
        = 0 := by
      decide
    rw [h0] at h
    rw [h]
    have : ∀ c < 1 * 2, upairSpec 1 2 0 (unequalTime z z 0) 0 c (moveCell 1 2 0 c 0 0) .b1g = 1 := by
      intro c hc
      rw [moveCell_zero (by norm_num) 0 hc]
      simp only [upairSpec]
      rw [raman_general (Norb := 1) (by norm_num) (by norm_num) (by norm_num) z z 0 (by norm_num)
        hc hc, formSelf_b1g (by norm_num) (by norm_num) hc, hb0]
      simp [ramanSum, ramanMean, ramanMean', ramanVal, dWave, m1 c hc, m2 c hc]
      norm_num
    rw [cellAvg_congr this]
    simp [cellAvg]
  · obtain ⟨c, hc, hm⟩ := accumulateUneq_contrib (N := 2) (Norb := 1) (Ncell := 1 * 2) (L := 1)
      (by norm_num) (construct_good (Nx := 1) (Ny := 2) (by norm_num) (by norm_num) 0 le_rfl junk)
      z z 1
    refine ⟨_, hm _, ?_⟩
    have h := hc.pair .b1g (by decide) 0 0 0 (by norm_num) (by norm_num) (by norm_num)
    have h0 : ((0 : ℕ) : ℤ) + (((1 * 2 : ℕ) : ℤ) * ((0 : ℕ) : ℤ)
        + (((1 * 2 : ℕ) : ℤ) * ((1 : ℕ) : ℤ)) * ((0 : ℕ) : ℤ)) = 0 := by norm_num
    rw [h0] at h
    simp only [UneqData.allocate, zero_add]
    rw [h, hb0]
    refine Finset.sum_eq_zero fun i _ => ?_
    simp [upairVal, nbrSum, b1gTerms, ramanVal]

/-! ## C46 -/

theorem unequalTime_zero (u d : TimeG N) (hu : u.Start) (hd : d.Start) :
    unequalTime u d 0 = equalTime (u.eq 0) (d.eq 0) := by
  unfold unequalTime equalTime
  simp [hu.t0, hu.zt, hd.t0, hd.zt]

/-- **C46.** For the same Green's functions the estimates at time difference 0 agree with the equal
time estimates; the density correlations are the sum of those of both spins. -/
theorem uneq_zero_eq [NeZero N] {Nx Ny Norb L : ℕ} (hL : 0 < L) {s t : ℤ} {b1 : Prop}
    {u d : TimeG N} (hu : u.Start) (hd : d.Start) {e : EqF → ℤ → ℝ} {e' : UneqF → ℤ → ℝ}
    (he : Estimates Nx Ny Norb s t (u.eq 0) (d.eq 0) e)
    (he' : UneqEstimates Nx Ny Norb L s t b1 u d e') :
    (∀ o p : ℕ, o < Norb → p < Norb → ∀ dx dy : ℤ,
      let z := cellOf Nx Ny s dx dy + (Nx * Ny : ℕ) * (o + Norb * p)
      e' .zz z = e .zz z ∧ e' .xx z = e .xx z ∧ e' .nn z = e .uu z + e .dd z + e .ud z) ∧
    ∀ o : ℕ, o < Norb → ∀ dx dy : ℤ,
      let z := cellOf Nx Ny s dx dy + (Nx * Ny : ℕ) * o
      e' .scSw z = e .scSw z ∧ e' .scDw z = e .scDw z ∧ e' .scSx z = e .scSx z := by
  have hP := unequalTime_zero u d hu hd
  constructor
  · intro o p ho hp dx dy z
    have hz : z = cellOf Nx Ny s dx dy + (Nx * Ny : ℕ) * (o + Norb * p + Norb * Norb * (0 : ℕ)) := by
      simp [z]
    have q : ∀ f ∈ [UneqF.nn, .zz, .xx], e' f z = cellAvg (Nx * Ny) fun c =>
        ucorrSpec u d 0 (siteN N (Nx * Ny) o c)
          (siteN N (Nx * Ny) p (moveCell Nx Ny s c dx dy)) f := by
      intro f hf
      rw [hz]
      exact he'.corr f (by fin_cases hf <;> decide) 0 o p hL ho hp dx dy
    rw [q .zz (by decide), q .xx (by decide), q .nn (by decide)]
    simp only [z]
    rw [he.corr .zz (by decide) o p ho hp dx dy, he.corr .xx (by decide) o p ho hp dx dy,
      he.corr .uu (by decide) o p ho hp dx dy, he.corr .dd (by decide) o p ho hp dx dy,
      he.corr .ud (by decide) o p ho hp dx dy, ← cellAvg_add, ← cellAvg_add]
    refine ⟨?_, ?_, ?_⟩
    · refine cellAvg_congr fun c _ => ?_
      simp only [ucorrSpec, corrSpec, hP]
    · refine cellAvg_congr fun c _ => ?_
      simp only [ucorrSpec, corrSpec, hP]
    · refine cellAvg_congr fun c _ => ?_
      simp only [ucorrSpec, corrSpec, hP]
      simp [Pairs.corr, nOp]
      ring
  · intro o ho dx dy z
    have hz : z = cellOf Nx Ny s dx dy + (Nx * Ny : ℕ) * (o + Norb * (0 : ℕ)) := by
      simp [z]
    have q : ∀ f ∈ [UneqF.scSw, .scDw, .scSx], e' f z = cellAvg (Nx * Ny) fun c =>
        upairSpec Nx Ny t (unequalTime u d 0) o c (moveCell Nx Ny s c dx dy) f := by
      intro f hf
      rw [hz]
      exact he'.pair f (by fin_cases hf <;> decide) (by rintro rfl; simp at hf) 0 o hL ho dx dy
    rw [q .scSw (by decide), q .scDw (by decide), q .scSx (by decide)]
    simp only [z]
    rw [he.pair .scSw (by decide) o ho dx dy, he.pair .scDw (by decide) o ho dx dy,
      he.pair .scSx (by decide) o ho dx dy, hP]
    exact ⟨rfl, rfl, rfl⟩

/-- the hypotheses can be met: two orbitals on a 2 × 2 lattice with shift, three time differences -/
example : ∃ e, UneqEstimates 2 2 2 3 1 0 True (⟨fun l => (l : ℝ) • 1, fun _ => 0, fun _ => 0⟩ : TimeG 8)
    ⟨fun l => (l : ℝ) • 1, fun _ => 0, fun _ => 0⟩ e := by
  have hs : (⟨fun l => (l : ℝ) • 1, fun _ => 0, fun _ => 0⟩ : TimeG 8).Start := by
    constructor <;> simp
  obtain ⟨e, h, -⟩ := accumulateUneq_estimates (N := 8) (Nx := 2) (Ny := 2) (Norb := 2) (by norm_num)
    (by norm_num) (by norm_num) 1 (by norm_num) (fun _ => 0) 3 _ _ hs hs (-1) (Or.inr rfl)
  exact ⟨e, by simpa using h⟩

end Verif.Measurement
