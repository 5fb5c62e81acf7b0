import Verif.Props.HalfFilling
import Verif.Props.SpinSymmetry

/-!
# Property C122: antiferromagnetism and charge at half filling

In a half filled system on two sublattices, the Green's functions of the two spins at different times are related as well.  So in
every run the correlations of the transverse spin components have the signs of antiferromagnetism, and the correlations of the
charges are those of pairs on single sites up to a staggered sign.  Since all directions of the spin are equivalent on average
(C98), the expected correlations of the z components have the same signs.
-/

set_option autoImplicit false

namespace Verif.Measurement

open Verif.Lattice Matrix Verif.TimeFlow Verif.Lapack Verif.MonteCarlo

variable {N : ℕ}

/-! ## Specification -/

/-- sign of the colour of orbital `p` in the cell at `(dx, dy)`, relative to orbital `o` in the cell at the origin -/
noncomputable def relSign (col : Coloring) (o p : ℕ) (dx dy : ℤ) : ℝ :=
  if (2 : ℤ) ∣ col.ax * dx + col.ay * dy + col.c p - col.c o then 1 else -1

/-- relations between the arrays of the equal time measurements with the sum of signs `w` -/
structure Staggered (col : Coloring) (Nx Ny Norb : ℕ) (s : ℤ) (w : ℝ) (a : EqF → ℤ → ℝ) : Prop where
  /-- not more doubly occupied sites than without interaction -/
  doubleocc : ∀ o : ℕ, o < Norb → a .doubleocc o ≤ w / 4
  /-- the square of the spin of a site, which is at least that without interaction -/
  moment : ∀ o : ℕ, o < Norb → ∀ f ∈ [EqF.zz, .xx],
    a f (cellOf Nx Ny s 0 0 + (Nx * Ny : ℕ) * (o + Norb * o)) = w - 2 * a .doubleocc o
  /-- neighbouring sites have opposite spins -/
  spin : ∀ o p : ℕ, o < Norb → p < Norb → ∀ dx dy : ℤ,
    0 ≤ relSign col o p dx dy * a .xx (cellOf Nx Ny s dx dy + (Nx * Ny : ℕ) * (o + Norb * p))
  /-- charges are correlated like pairs -/
  charge : ∀ o : ℕ, o < Norb → ∀ dx dy : ℤ,
    let z : ℤ := cellOf Nx Ny s dx dy + (Nx * Ny : ℕ) * (o + Norb * o)
    a .uu z + a .dd z + a .ud z - w
      = 2 * relSign col o o dx dy * a .scSw (cellOf Nx Ny s dx dy + (Nx * Ny : ℕ) * o)

/-- the same for the unequal time measurements -/
structure UneqStaggered (col : Coloring) (Nx Ny Norb L : ℕ) (s : ℤ) (w : ℝ) (a : UneqF → ℤ → ℝ) : Prop where
  /-- an electron of one spin moves like a hole of the other -/
  green : ∀ q ∈ [(UneqF.gtau0D, UneqF.g0tauU), (.g0tauD, .gtau0U), (.geqltD, .geqltU)],
    ∀ l o p : ℕ, l < L → o < Norb → p < Norb → ∀ dx dy : ℤ,
    a q.1 (cellOf Nx Ny s dx dy + (Nx * Ny : ℕ) * (o + Norb * p + Norb * Norb * l))
      = (if (l = 0 ∨ q.1 = .geqltD) ∧ cellOf Nx Ny s dx dy = 0 ∧ o = p then w else 0) - relSign col o p dx dy *
        a q.2 (cellOf Nx Ny s (-dx) (-dy) + (Nx * Ny : ℕ) * (p + Norb * o + Norb * Norb * l))
  spin : ∀ l o p : ℕ, l < L → o < Norb → p < Norb → ∀ dx dy : ℤ,
    0 ≤ relSign col o p dx dy * a .xx (cellOf Nx Ny s dx dy + (Nx * Ny : ℕ) * (o + Norb * p + Norb * Norb * l))
  charge : ∀ l o : ℕ, l < L → o < Norb → ∀ dx dy : ℤ,
    a .nn (cellOf Nx Ny s dx dy + (Nx * Ny : ℕ) * (o + Norb * o + Norb * Norb * l)) - w
      = 2 * relSign col o o dx dy * a .scSw (cellOf Nx Ny s dx dy + (Nx * Ny : ℕ) * (o + Norb * l))

/-! ## One sample -/

/-- the time dependent Green's functions of one spin are those of the holes of the other -/
structure Holes (η : Fin N → ℝ) (u d : TimeG N) (l : ℕ) : Prop where
  eq : ∀ i j, d.eq l i j = (if i = j then 1 else 0) - η i * η j * u.eq l j i
  t0 : ∀ i j, d.t0 l i j = (if l = 0 ∧ i = j then 1 else 0) - η i * η j * u.zt l j i
  zt : ∀ i j, d.zt l i j = (if l = 0 ∧ i = j then 1 else 0) - η i * η j * u.t0 l j i

/-- the signs of the sublattices depend on the distance only -/
structure Bicolored [NeZero N] (η : Fin N → ℝ) (col : Coloring) (Nx Ny Norb : ℕ) (s : ℤ) : Prop where
  sq : ∀ i, η i * η i = 1
  rel : ∀ o p c : ℕ, o < Norb → p < Norb → c < Nx * Ny → ∀ dx dy : ℤ,
    η (siteN N (Nx * Ny) o c) * η (siteN N (Nx * Ny) p (moveCell Nx Ny s c dx dy)) = relSign col o p dx dy

theorem relSign_sq (col : Coloring) (o p : ℕ) (dx dy : ℤ) : relSign col o p dx dy * relSign col o p dx dy = 1 := by
  unfold relSign
  split <;> norm_num

theorem holes_xx {η : Fin N → ℝ} (hη : ∀ i, η i * η i = 1) {u d : TimeG N} {l : ℕ} (h : Holes η u d l) (a b : Fin N) :
    0 ≤ η a * η b * ucorrSpec u d l a b .xx := by
  have e : ucorrSpec u d l a b .xx
      = ((if l = 0 ∧ a = b then 1 else 0) - u.zt l b a) * d.t0 l a b + ((if l = 0 ∧ a = b then 1 else 0) - d.zt l b a) * u.t0 l a b := by
    simp [ucorrSpec, unequalTime, Pairs.corr, Pairs.four, spinG, xOp]
    ring
  rw [e, h.t0 a b, h.zt b a]
  have ha := hη a
  have hb := hη b
  by_cases hc : l = 0 ∧ a = b
  · obtain ⟨hl, rfl⟩ := hc
    simp only [hl, and_true, if_true, ha]
    nlinarith [sq_nonneg (1 - u.zt 0 a a), sq_nonneg (u.t0 0 a a)]
  · have hc' : ¬ (l = 0 ∧ b = a) := fun h => hc ⟨h.1, h.2.symm⟩
    simp only [if_neg hc, if_neg hc']
    have : η a * η b * ((0 - u.zt l b a) * (0 - η a * η b * u.zt l b a) + (0 - (0 - η b * η a * u.t0 l a b)) * u.t0 l a b)
        = (η a * η a) * (η b * η b) * ((u.zt l b a) ^ 2 + (u.t0 l a b) ^ 2) := by ring
    simp only [zero_sub] at this ⊢
    rw [this, ha, hb]
    positivity

theorem holes_nn {η : Fin N → ℝ} (hη : ∀ i, η i * η i = 1) {u d : TimeG N} {l : ℕ} (h : Holes η u d l)
    (h0 : Holes η u d 0) (a b : Fin N) :
    ucorrSpec u d l a b .nn = 1 + 2 * (η a * η b) * (u.t0 l a b * d.t0 l a b) := by
  have e : ucorrSpec u d l a b .nn
      = (2 - u.eq l a a - d.eq l a a) * (2 - u.eq 0 b b - d.eq 0 b b)
        + ((if l = 0 ∧ a = b then 1 else 0) - u.zt l b a) * u.t0 l a b
        + ((if l = 0 ∧ a = b then 1 else 0) - d.zt l b a) * d.t0 l a b := by
    simp [ucorrSpec, unequalTime, Pairs.corr, Pairs.four, spinG, nOp]
    ring
  have ha := hη a
  have hb := hη b
  rw [e, h.eq a a, h0.eq b b, h.t0 a b, h.zt b a, if_pos rfl, if_pos rfl, ha, hb]
  by_cases hc : l = 0 ∧ a = b
  · obtain ⟨hl, rfl⟩ := hc
    simp only [hl, and_true, if_true, ha]
    ring
  · have hc' : ¬ (l = 0 ∧ b = a) := fun h => hc ⟨h.1, h.2.symm⟩
    simp only [if_neg hc, if_neg hc']
    linear_combination (-(u.zt l b a * u.t0 l a b) * (η b * η b)) * ha - (u.zt l b a * u.t0 l a b) * hb
      + (2 * u.zt l b a * u.t0 l a b * (η b * η b)) * ha + (2 * u.zt l b a * u.t0 l a b) * hb

/-- averages of nonnegative numbers -/
theorem cellAvg_nonneg {n : ℕ} {f : ℕ → ℝ} (h : ∀ c < n, 0 ≤ f c) : 0 ≤ cellAvg n f :=
  div_nonneg (Finset.sum_nonneg fun c hc => h c (Finset.mem_range.1 hc)) (Nat.cast_nonneg _)

section sample

variable [NeZero N] {η : Fin N → ℝ} {col : Coloring} {Nx Ny Norb : ℕ} {s : ℤ} (hx : 0 < Nx) (hy : 0 < Ny)
  (hN : N = Nx * Ny * Norb) (hs : 0 ≤ s) (hη : Bicolored η col Nx Ny Norb s)
include hx hy hη

include hN hs in
theorem avg_green {A B : Mat N} {δ : Prop} [Decidable δ] (h : ∀ i j, A i j = (if δ ∧ i = j then 1 else 0) - η i * η j * B j i)
    {o p : ℕ} (ho : o < Norb) (hp : p < Norb) (dx dy : ℤ) :
    (cellAvg (Nx * Ny) fun c => A (siteN N (Nx * Ny) o c) (siteN N (Nx * Ny) p (moveCell Nx Ny s c dx dy)))
      = (if δ ∧ cellOf Nx Ny s dx dy = 0 ∧ o = p then 1 else 0) - relSign col o p dx dy *
        cellAvg (Nx * Ny) fun c => B (siteN N (Nx * Ny) p c) (siteN N (Nx * Ny) o (moveCell Nx Ny s c (-dx) (-dy))) := by
  have hpos : 0 < Nx * Ny := Nat.mul_pos hx hy
  rw [← cellAvg_move hx hy s dx dy fun c => B (siteN N (Nx * Ny) p c) (siteN N (Nx * Ny) o (moveCell Nx Ny s c (-dx) (-dy))),
    ← cellAvg_mul]
  conv_rhs => rw [← cellAvg_one hpos (if δ ∧ cellOf Nx Ny s dx dy = 0 ∧ o = p then 1 else 0), ← cellAvg_sub]
  refine cellAvg_congr fun c hc => ?_
  have h0 := cellOf_nonneg Nx Ny hx hy s dx dy
  have hk : ((cellOf Nx Ny s dx dy).toNat : ℤ) = cellOf Nx Ny s dx dy := Int.toNat_of_nonneg h0
  have hm := moveCell_lt hx hy s c dx dy
  have e : moveCell Nx Ny s (moveCell Nx Ny s c dx dy) (-dx) (-dy) = c := by
    rw [moveCell_add hx hy, add_neg_cancel, add_neg_cancel, moveCell_zero hx s hc]
  have hsame : siteN N (Nx * Ny) o c = siteN N (Nx * Ny) p (moveCell Nx Ny s c dx dy) ↔ cellOf Nx Ny s dx dy = 0 ∧ o = p := by
    rw [siteN_inj hN ho hc hp hm, eq_comm, moveCell_eq_self hx hy s hs _ dx dy hk hc]
    have : (cellOf Nx Ny s dx dy).toNat = 0 ↔ cellOf Nx Ny s dx dy = 0 := by omega
    rw [this]
  rw [h, hη.rel o p c ho hp hc dx dy, e]
  simp only [hsame]

/-- the unequal time estimates of one sample -/
theorem UneqEstimates.staggered {L : ℕ} {t : ℤ} {b1 : Prop} {u d : TimeG N} {e : UneqF → ℤ → ℝ} (hN : N = Nx * Ny * Norb)
    (hs : 0 ≤ s) (h : UneqEstimates Nx Ny Norb L s t b1 u d e) (hh : ∀ l < L, Holes η u d l) :
    UneqStaggered col Nx Ny Norb L s 1 e := by
  have hpos : 0 < Nx * Ny := Nat.mul_pos hx hy
  constructor
  · intro q hq l o p hl ho hp dx dy
    simp only [List.mem_cons, List.not_mem_nil, or_false] at hq
    rcases hq with rfl | rfl | rfl
    · rw [h.corr _ (by simp) l o p hl ho hp, h.corr _ (by simp) l p o hl hp ho]
      simp only [ucorrSpec, reduceCtorEq, or_false]
      exact avg_green hx hy hN hs hη (δ := l = 0) (hh l hl).t0 ho hp dx dy
    · rw [h.corr _ (by simp) l o p hl ho hp, h.corr _ (by simp) l p o hl hp ho]
      simp only [ucorrSpec, reduceCtorEq, or_false]
      exact avg_green hx hy hN hs hη (δ := l = 0) (hh l hl).zt ho hp dx dy
    · rw [h.corr _ (by simp) l o p hl ho hp, h.corr _ (by simp) l p o hl hp ho]
      simp only [ucorrSpec, or_true, true_and]
      have := avg_green hx hy hN hs hη (A := d.eq l) (B := u.eq l) (δ := True) (by simpa using (hh l hl).eq) ho hp dx dy
      simpa using this
  · intro l o p hl ho hp dx dy
    rw [h.corr _ (by simp) l o p hl ho hp, ← cellAvg_mul]
    refine cellAvg_nonneg fun c hc => ?_
    rw [← hη.rel o p c ho hp hc dx dy]
    exact holes_xx hη.sq (hh l hl) _ _
  · intro l o hl ho dx dy
    rw [h.corr _ (by simp) l o o hl ho ho, h.pair _ (by simp) (by simp) l o hl ho, ← cellAvg_mul]
    conv_lhs => rw [← cellAvg_one hpos 1, ← cellAvg_sub]
    refine cellAvg_congr fun c hc => ?_
    rw [← hη.rel o o c ho ho hc dx dy, holes_nn hη.sq (hh l hl) (hh 0 (by omega))]
    simp [upairSpec, onsitePair, Pairs.pairCorr, unequalTime, spinG]

/-- the equal time estimates of one sample -/
theorem Estimates.staggered {t : ℤ} {U D : Mat N} {e : EqF → ℤ → ℝ} (h : Estimates Nx Ny Norb s t U D e)
    (hD : ∀ i j, D i j = (if i = j then 1 else 0) - η i * η j * U j i) : Staggered col Nx Ny Norb s 1 e := by
  have hpos : 0 < Nx * Ny := Nat.mul_pos hx hy
  set u : TimeG N := ⟨fun _ => U, fun _ => U, fun _ => U⟩ with hu
  set d : TimeG N := ⟨fun _ => D, fun _ => D, fun _ => D⟩ with hd
  have hh : Holes η u d 0 := ⟨hD, by simpa using hD, by simpa using hD⟩
  have hP : unequalTime u d 0 = equalTime U D := by
    simp [unequalTime, equalTime, hu, hd]
  have hdd : ∀ i, D i i = 1 - U i i := fun i => by rw [hD, if_pos rfl, hη.sq, one_mul]
  constructor
  · intro o ho
    rw [h.dens .doubleocc (by decide) o ho, ← sub_nonneg]
    conv_rhs => rw [← cellAvg_one hpos (1 / 4), ← cellAvg_sub]
    refine cellAvg_nonneg fun c _ => ?_
    simp only [densSpec, Pairs.corr, Pairs.four, equalTime, spinG, nOp, List.map_cons, List.map_nil, List.sum_cons, List.sum_nil,
      hdd]
    simp
    nlinarith [sq_nonneg (2 * U (siteN N (Nx * Ny) o c) (siteN N (Nx * Ny) o c) - 1)]
  · intro o ho f hf
    rw [h.dens .doubleocc (by decide) o ho, h.corr f (by fin_cases hf <;> simp) o o ho ho, ← cellAvg_mul]
    conv_rhs => rw [← cellAvg_one hpos 1, ← cellAvg_sub]
    refine cellAvg_congr fun c hc => ?_
    rw [moveCell_zero hx s hc]
    fin_cases hf <;> simp [densSpec, corrSpec, Pairs.corr, Pairs.four, equalTime, spinG, nOp, zOp, xOp, hdd] <;> ring
  · intro o p ho hp dx dy
    rw [h.corr _ (by simp) o p ho hp, ← cellAvg_mul]
    refine cellAvg_nonneg fun c hc => ?_
    rw [← hη.rel o p c ho hp hc dx dy]
    have := holes_xx hη.sq hh (siteN N (Nx * Ny) o c) (siteN N (Nx * Ny) p (moveCell Nx Ny s c dx dy))
    simp only [ucorrSpec, hP] at this
    exact this
  · intro o ho dx dy
    simp only
    rw [h.corr .uu (by simp) o o ho ho, h.corr .dd (by simp) o o ho ho, h.corr .ud (by simp) o o ho ho, h.pair _ (by simp) o ho,
      ← cellAvg_mul, ← cellAvg_add, ← cellAvg_add]
    conv_lhs => rw [← cellAvg_one hpos 1, ← cellAvg_sub]
    refine cellAvg_congr fun c hc => ?_
    rw [← hη.rel o o c ho ho hc dx dy]
    have := holes_nn hη.sq hh hh (siteN N (Nx * Ny) o c) (siteN N (Nx * Ny) o (moveCell Nx Ny s c dx dy))
    simp only [ucorrSpec, hP] at this
    simp [corrSpec, pairSpec, onsitePair, Pairs.pairCorr, Pairs.corr, equalTime, spinG, nOp, hu, hd] at this ⊢
    linarith

end sample

/-! ## Sums of samples -/

theorem Staggered.add {col : Coloring} {Nx Ny Norb : ℕ} {s : ℤ} {w w' : ℝ} {a a' : EqF → ℤ → ℝ}
    (h : Staggered col Nx Ny Norb s w a) (h' : Staggered col Nx Ny Norb s w' a') {r : ℝ} (hr : 0 ≤ r) :
    Staggered col Nx Ny Norb s (w + r * w') fun f z => a f z + r * a' f z := by
  constructor
  · intro o ho
    have := mul_le_mul_of_nonneg_left (h'.doubleocc o ho) hr
    linarith [h.doubleocc o ho]
  · intro o ho f hf
    linear_combination h.moment o ho f hf + r * h'.moment o ho f hf
  · intro o p ho hp dx dy
    have := mul_nonneg hr (h'.spin o p ho hp dx dy)
    linarith [h.spin o p ho hp dx dy]
  · intro o ho dx dy
    have h1 := h.charge o ho dx dy
    have h2 := h'.charge o ho dx dy
    simp only at h1 h2 ⊢
    linear_combination h1 + r * h2

theorem Staggered.zero (col : Coloring) (Nx Ny Norb : ℕ) (s : ℤ) : Staggered col Nx Ny Norb s 0 fun _ _ => 0 := by
  constructor <;> intros <;> simp

theorem Staggered.div {col : Coloring} {Nx Ny Norb : ℕ} {s : ℤ} {w : ℝ} {a : EqF → ℤ → ℝ} (h : Staggered col Nx Ny Norb s w a)
    {n : ℝ} (hn : 0 ≤ n) : Staggered col Nx Ny Norb s (w / n) fun f z => a f z / n := by
  have := (Staggered.zero col Nx Ny Norb s).add h (inv_nonneg.2 hn)
  simp only [zero_add] at this
  simpa only [div_eq_inv_mul] using this

theorem UneqStaggered.add {col : Coloring} {Nx Ny Norb L : ℕ} {s : ℤ} {w w' : ℝ} {a a' : UneqF → ℤ → ℝ}
    (h : UneqStaggered col Nx Ny Norb L s w a) (h' : UneqStaggered col Nx Ny Norb L s w' a') {r : ℝ} (hr : 0 ≤ r) :
    UneqStaggered col Nx Ny Norb L s (w + r * w') fun f z => a f z + r * a' f z := by
  constructor
  · intro q hq l o p hl ho hp dx dy
    have h1 := h.green q hq l o p hl ho hp dx dy
    have h2 := h'.green q hq l o p hl ho hp dx dy
    split at h1 <;> rename_i hc
    · rw [if_pos hc] at h2 ⊢
      linear_combination h1 + r * h2
    · rw [if_neg hc] at h2 ⊢
      linear_combination h1 + r * h2
  · intro l o p hl ho hp dx dy
    have := mul_nonneg hr (h'.spin l o p hl ho hp dx dy)
    linarith [h.spin l o p hl ho hp dx dy]
  · intro l o hl ho dx dy
    linear_combination h.charge l o hl ho dx dy + r * h'.charge l o hl ho dx dy

theorem UneqStaggered.zero (col : Coloring) (Nx Ny Norb L : ℕ) (s : ℤ) : UneqStaggered col Nx Ny Norb L s 0 fun _ _ => 0 := by
  constructor <;> intros <;> simp

theorem UneqStaggered.div {col : Coloring} {Nx Ny Norb L : ℕ} {s : ℤ} {w : ℝ} {a : UneqF → ℤ → ℝ}
    (h : UneqStaggered col Nx Ny Norb L s w a) {n : ℝ} (hn : 0 ≤ n) :
    UneqStaggered col Nx Ny Norb L s (w / n) fun f z => a f z / n := by
  have := (UneqStaggered.zero col Nx Ny Norb L s).add h (inv_nonneg.2 hn)
  simp only [zero_add] at this
  simpa only [div_eq_inv_mul] using this

end Verif.Measurement

namespace Verif.MonteCarlo

open Matrix Verif.Lapack Verif.TimeFlow Verif.Greens Verif.Stratonovich Verif.Measurement Verif.GreensUneq

variable {σ : Type} {N : ℕ} {M : Type} {sys : Sys σ N M}

theorem step_half_filling (η : Fin N → ℝ) (hph : ParticleHole sys η) (hc : ∀ i : Fin N, Consistent sys.hs (sys.orb i))
    (s : ℕ → Fin N → Fin 2) (k : ℕ) :
    (sys.fieldB sys.hs.expVu s (fun _ _ => 1) k)ᵀ * (diagonal η * sys.fieldB sys.hs.expVd s (fun _ _ => 1) k * diagonal η) = 1 := by
  have h := flow_half_filling η hph hc 1 0 fun _ => s k
  simpa [cyclicProd, prodSeq, Sys.fieldB] using h

theorem holes_prod {D : Mat N} (hD : D * D = 1) {B B' : ℕ → Mat N} (h : ∀ k, (B k)ᵀ * (D * B' k * D) = 1) (n : ℕ) :
    (prodSeq B n)ᵀ * (D * prodSeq B' n * D) = 1 := by
  induction n with
  | zero => simp [prodSeq, hD]
  | succ n ih =>
    calc (prodSeq B (n + 1))ᵀ * (D * prodSeq B' (n + 1) * D)
        = (prodSeq B n)ᵀ * (B n)ᵀ * (D * B' n * (D * D) * prodSeq B' n * D) := by
          rw [hD, Matrix.mul_one, prodSeq, prodSeq, transpose_mul]
          simp only [Matrix.mul_assoc]
      _ = (prodSeq B n)ᵀ * ((B n)ᵀ * (D * B' n * D)) * (D * prodSeq B' n * D) := by simp only [Matrix.mul_assoc]
      _ = 1 := by rw [h, Matrix.mul_one, ih]

theorem holes_swap {D P Q : Mat N} (hT : Dᵀ = D) (hD : D * D = 1) (h : Pᵀ * (D * Q * D) = 1) : Qᵀ * (D * P * D) = 1 := by
  have h1 : D * Qᵀ * D * P = 1 := by
    have := congrArg Matrix.transpose h
    rw [transpose_mul, transpose_mul, transpose_mul, hT, transpose_transpose, transpose_one, ← Matrix.mul_assoc] at this
    exact this
  calc Qᵀ * (D * P * D) = (D * D) * Qᵀ * (D * P * D) := by rw [hD, Matrix.one_mul]
    _ = D * (D * Qᵀ * D * P) * D := by simp only [Matrix.mul_assoc]
    _ = 1 := by rw [h1, Matrix.mul_one, hD]

/-- the Green's function at equal times -/
theorem holes_eq {D A B : Mat N} (hD : D * D = 1) (h : Aᵀ * (D * B * D) = 1) (hu : (1 + A).det ≠ 0) :
    (1 + B)⁻¹ = 1 - D * ((1 + A)⁻¹)ᵀ * D := by
  have iu : (1 + A)⁻¹ᵀ * (1 + Aᵀ) = 1 := by
    rw [← transpose_one, ← transpose_add, ← transpose_mul, transpose_one, mul_nonsing_inv _ (isUnit_iff_ne_zero.2 hu), transpose_one]
  have e1 : (1 + Aᵀ) * (D * B * D) = D * (1 + B) * D := by
    rw [Matrix.add_mul, h, Matrix.one_mul, Matrix.mul_add, Matrix.mul_one, Matrix.add_mul, hD, add_comm]
  have e2 : (1 - D * ((1 + A)⁻¹)ᵀ * D) * (1 + B) = 1 := by
    have : D * (1 + A)⁻¹ᵀ * D * (1 + B) = B := by
      calc D * (1 + A)⁻¹ᵀ * D * (1 + B) = D * ((1 + A)⁻¹ᵀ * (D * (1 + B) * D)) * D := by
            simp only [Matrix.mul_assoc, hD, Matrix.mul_one]
        _ = D * (((1 + A)⁻¹ᵀ * (1 + Aᵀ)) * (D * B * D)) * D := by rw [← e1, Matrix.mul_assoc (1 + A)⁻¹ᵀ]
        _ = (D * D) * B * (D * D) := by rw [iu, Matrix.one_mul]; simp only [Matrix.mul_assoc]
        _ = B := by rw [hD, Matrix.one_mul, Matrix.mul_one]
    rw [Matrix.sub_mul, this, Matrix.one_mul, add_sub_cancel_right]
  exact inv_eq_left_inv e2

/-- `G(τ,0)` of one spin and `G(0,τ)` of the other -/
theorem holes_tau {D P Q R S : Mat N} (hD : D * D = 1) (hP : Pᵀ * (D * Q * D) = 1) (hS : Sᵀ * (D * R * D) = 1)
    (hu : (1 + S * P).det ≠ 0) (hd : (1 + R * Q).det ≠ 0) : Q * (1 + R * Q)⁻¹ = D * ((1 + S * P)⁻¹ * S)ᵀ * D := by
  have iu : (1 + S * P)⁻¹ᵀ * (1 + Pᵀ * Sᵀ) = 1 := by
    rw [← transpose_mul, ← transpose_one, ← transpose_add, ← transpose_mul, transpose_one,
      mul_nonsing_inv _ (isUnit_iff_ne_zero.2 hu), transpose_one]
  set X := (1 + S * P)⁻¹ᵀ with hX
  have e1 : D * (1 + R * Q) * D = (1 + Pᵀ * Sᵀ) * ((D * R * D) * (D * Q * D)) := by
    have h1 : (D * R * D) * (D * Q * D) = D * (R * Q) * D := by
      calc (D * R * D) * (D * Q * D) = D * R * (D * D) * Q * D := by simp only [Matrix.mul_assoc]
        _ = _ := by rw [hD, Matrix.mul_one]; simp only [Matrix.mul_assoc]
    have h2 : Pᵀ * Sᵀ * ((D * R * D) * (D * Q * D)) = 1 := by
      calc Pᵀ * Sᵀ * ((D * R * D) * (D * Q * D)) = Pᵀ * (Sᵀ * (D * R * D)) * (D * Q * D) := by simp only [Matrix.mul_assoc]
        _ = 1 := by rw [hS, Matrix.mul_one, hP]
    rw [Matrix.add_mul, h2, Matrix.one_mul, h1, Matrix.mul_add, Matrix.add_mul, Matrix.mul_one, hD, add_comm]
  have e2 : D * ((1 + S * P)⁻¹ * S)ᵀ * D * (1 + R * Q) = Q := by
    rw [transpose_mul, ← hX]
    calc D * (Sᵀ * X) * D * (1 + R * Q) = D * (Sᵀ * (X * (D * (1 + R * Q) * D))) * D := by
          simp only [Matrix.mul_assoc, hD, Matrix.mul_one]
      _ = D * (Sᵀ * ((X * (1 + Pᵀ * Sᵀ)) * ((D * R * D) * (D * Q * D)))) * D := by rw [e1, Matrix.mul_assoc X]
      _ = D * ((Sᵀ * (D * R * D)) * (D * Q * D)) * D := by rw [iu, Matrix.one_mul, Matrix.mul_assoc Sᵀ]
      _ = (D * D) * Q * (D * D) := by rw [hS, Matrix.one_mul]; simp only [Matrix.mul_assoc]
      _ = Q := by rw [hD, Matrix.one_mul, Matrix.mul_one]
  calc Q * (1 + R * Q)⁻¹ = D * ((1 + S * P)⁻¹ * S)ᵀ * D * (1 + R * Q) * (1 + R * Q)⁻¹ := by rw [e2]
    _ = _ := by rw [Matrix.mul_assoc, mul_nonsing_inv _ (isUnit_iff_ne_zero.2 hd), Matrix.mul_one]

/-- C122 for the Green's functions of one configuration -/
theorem holes_timeGreen (η : Fin N → ℝ) (hph : ParticleHole sys η) (hc : ∀ i : Fin N, Consistent sys.hs (sys.orb i)) {L l : ℕ}
    (hl : l ≤ L) (s : ℕ → Fin N → Fin 2) (hu : (1 + prodSeq (sys.fieldB sys.hs.expVu s fun _ _ => 1) L).det ≠ 0)
    (hd : (1 + prodSeq (sys.fieldB sys.hs.expVd s fun _ _ => 1) L).det ≠ 0) :
    Holes η (timeGreen sys L sys.hs.expVu s) (timeGreen sys L sys.hs.expVd s) l := by
  have hDD := hph.diag_sq
  have hB := step_half_filling η hph hc s
  set D : Mat N := diagonal η with hD
  set Bu := sys.fieldB sys.hs.expVu s fun _ _ => 1 with hBu
  set Bd := sys.fieldB sys.hs.expVd s fun _ _ => 1 with hBd
  have split : ∀ B : ℕ → Mat N, prodSeq B L = prodSeq (fun k => B (l + k)) (L - l) * prodSeq B l := by
    intro B
    have := seg_mul B (Nat.zero_le l) hl
    rw [seg_zero, seg_zero] at this
    exact this.symm
  have hP := holes_prod hDD hB l
  have hS := holes_prod hDD (fun k => hB (l + k)) (L - l)
  have hT : Dᵀ = D := by rw [hD, diagonal_transpose]
  have hsu := split Bu
  have hsd := split Bd
  rw [hsu] at hu
  rw [hsd] at hd
  set P := prodSeq Bu l with hPdef
  set Q := prodSeq Bd l with hQdef
  set S := prodSeq (fun k => Bu (l + k)) (L - l) with hSdef
  set R := prodSeq (fun k => Bd (l + k)) (L - l) with hRdef
  have entry : ∀ (A : Mat N) (i j : Fin N), (D * Aᵀ * D) i j = η i * η j * A j i := by
    intro A i j
    rw [hD, mul_diagonal, diagonal_mul, transpose_apply]
    ring
  have eq : ∀ i j, (timeGreen sys L sys.hs.expVd s).eq l i j
      = (if i = j then 1 else 0) - η i * η j * (timeGreen sys L sys.hs.expVu s).eq l j i := by
    intro i j
    have h1 : (P * S)ᵀ * (D * (Q * R) * D) = 1 := by
      calc (P * S)ᵀ * (D * (Q * R) * D) = Sᵀ * (Pᵀ * (D * Q * (D * D) * R * D)) := by
            rw [hDD, Matrix.mul_one, transpose_mul]
            simp only [Matrix.mul_assoc]
        _ = Sᵀ * ((Pᵀ * (D * Q * D)) * (D * R * D)) := by simp only [Matrix.mul_assoc]
        _ = 1 := by rw [hP, Matrix.one_mul, hS]
    have h2 : (1 + P * S).det ≠ 0 := by rwa [det_one_add_mul_comm]
    have h3 := congrFun (congrFun (holes_eq hDD h1 h2) i) j
    rw [Matrix.sub_apply, one_apply, entry] at h3
    exact h3
  rcases Nat.eq_zero_or_pos l with h0 | h0
  · subst h0
    have su : ∀ s' expV, (timeGreen sys L expV s').Start := fun s' expV => exactG_start _ L
    refine ⟨eq, fun i j => ?_, fun i j => ?_⟩
    · simpa only [(su s _).t0, (su s _).zt, true_and] using eq i j
    · simpa only [(su s _).t0, (su s _).zt, true_and] using eq i j
  · have hne : l ≠ 0 := by omega
    refine ⟨eq, fun i j => ?_, fun i j => ?_⟩
    · have h1 := congrFun (congrFun (holes_tau hDD hP hS hu hd) i) j
      rw [entry] at h1
      simp only [timeGreen, exactG, ← hBu, ← hBd, hsu, hsd, ← hQdef, ← hSdef, hne, false_and, if_false, Matrix.neg_apply]
      rw [h1]
      ring
    · have h1 := congrFun (congrFun (holes_tau hDD (holes_swap hT hDD hP) (holes_swap hT hDD hS) hd hu) j) i
      rw [entry] at h1
      simp only [timeGreen, exactG, ← hBu, ← hBd, hsu, hsd, ← hPdef, ← hRdef, hne, false_and, if_false, Matrix.neg_apply]
      rw [h1]
      have h2 := hph.sq i
      have h3 := hph.sq j
      linear_combination (-((1 + R * Q)⁻¹ * R) i j * (η j * η j)) * h2 * (-1) + (((1 + R * Q)⁻¹ * R) i j) * h3

end Verif.MonteCarlo

namespace Verif.Main

open Verif.Random Verif.Measurement Verif.MonteCarlo Verif.Files Verif.Params Verif.Lattice Verif.TimeFlow Verif.GreensUneq

/-! ## Runs -/

/-- specification: the relations for all data, together with the fact that all samples have sign +1 -/
structure StaggeredData (col : Coloring) (Nx Ny Norb L : ℕ) (s : ℤ) (m : MeasData) : Prop where
  eq : Staggered col Nx Ny Norb s m.eq.sign m.eq.arr
  uneq : UneqStaggered col Nx Ny Norb L s m.uneq.sign m.uneq.arr
  eqSign : m.eq.sign = m.eq.nsampl
  uneqSign : m.uneq.sign = m.uneq.nsampl

section samples

variable {σ : Type} {N : ℕ} [NeZero N] {sys : Sys σ N MeasData} {ph : Phonon} {cfg : Cfg} {Nx Ny Norb : ℕ} {shift : ℤ}
  {junk : ℤ → ℤ} {dt : ℝ} {omega : ℕ → ℝ} {alg : BlockCyclic.QRs N} {tau : BlockCyclic.Buf} {old : GreensUneq.Arrays}
  {η : Fin N → ℝ} {col : Coloring}

theorem staggered_inv (hx : 0 < Nx) (hy : 0 < Ny) (hN : N = Nx * Ny * Norb) (hs : 0 ≤ shift)
    (hm : sys.meas = realMeas Norb (Nx * Ny) cfg.L (Maps.construct Nx Ny shift junk) dt omega alg tau old)
    (hp : cfg.usePhonons = false) (hph : ParticleHole sys η) (hc : ∀ i : Fin N, Stratonovich.Consistent sys.hs (sys.orb i))
    (hη : Bicolored η col Nx Ny Norb shift) :
    MeasInv sys ph cfg (StaggeredData col Nx Ny Norb cfg.L shift) := by
  refine ⟨fun _ neqlt s l gu gd m m' hl _ _ hE hq e => ?_, fun h => absurd h (by rw [hp]; simp),
    fun st m hi hq e => ?_⟩
  · rw [hm] at e
    simp only [realMeas, Option.map_eq_some_iff] at e
    obtain ⟨d, e, rfl⟩ := e
    obtain ⟨est, h1, h2⟩ := accumulateEq_estimates hx hy hN shift hs junk gu gd hE.up.sgn hE.down.sgn
    rw [h2] at e
    obtain rfl := Option.some.inj e
    have hsg := sign_half_filling _ hph hc hE
    have hf := h1.staggered hx hy hη (green_half_filling _ hph hc hE)
    refine ⟨?_, hq.uneq, ?_, hq.uneqSign⟩
    · have := hq.eq.add hf zero_le_one
      simpa [hsg] using this
    · simp [hsg, hq.eqSign]
  · unfold AtRest at hi
    rw [if_neg (by rw [hp]; simp)] at hi
    rw [hm] at e
    simp only [realMeas, Option.bind_eq_bind] at e
    obtain ⟨a, ea, e⟩ := Option.bind_eq_some_iff.1 e
    obtain ⟨b, eb, e⟩ := Option.bind_eq_some_iff.1 e
    obtain ⟨c, ec, e⟩ := Option.bind_eq_some_iff.1 e
    obtain rfl := Option.some.inj e
    have hsg : (st.Gu.sgndet * st.Gd.sgndet : ℤ) = 1 := sign_half_filling _ hph hc ⟨hi.up.good, hi.down.good⟩
    obtain ⟨est, h1, h2⟩ := accumulateUneq_estimates hx hy hN shift hs junk cfg.L
      (timeGreen sys cfg.L sys.hs.expVu (Fock.extend (fieldOf cfg.L st.s)))
      (timeGreen sys cfg.L sys.hs.expVd (Fock.extend (fieldOf cfg.L st.s))) (exactG_start _ _) (exactG_start _ _)
      (((st.Gu.sgndet * st.Gd.sgndet : ℤ) : ℝ)) (by rw [hsg]; simp)
    rw [compute_exact hi.up ea, compute_exact hi.down eb, h2] at ec
    obtain rfl := Option.some.inj ec
    have hdet : ∀ expV : Fin 2 → ℕ → ℝ, (1 + cyclicProd (sys.fieldB expV st.s fun _ _ => 1) cfg.L 0).det ≠ 0 →
        (1 + prodSeq (sys.fieldB expV (Fock.extend (fieldOf cfg.L st.s)) fun _ _ => 1) cfg.L).det ≠ 0 := by
      intro expV h
      have : prodSeq (sys.fieldB expV (Fock.extend (fieldOf cfg.L st.s)) fun _ _ => 1) cfg.L
          = cyclicProd (sys.fieldB expV st.s fun _ _ => 1) cfg.L 0 := by
        refine prodSeq_congr fun k hk => ?_
        simp only [Nat.zero_add, Nat.mod_eq_of_lt hk]
        unfold Sys.fieldB
        rw [extend_fieldOf st.s k hk]
      rwa [this]
    have hf := h1.staggered hx hy hη hN hs fun l hl =>
      holes_timeGreen η hph hc hl.le _ (hdet _ hi.up.good.det_ne) (hdet _ hi.down.good.det_ne)
    refine ⟨hq.eq, ?_, hq.eqSign, ?_⟩
    · have := hq.uneq.add hf zero_le_one
      simpa [hsg] using this
    · simp [hsg, hq.uneqSign]

end samples

/-- the colours of the sites -/
theorem bicolored {Nx Ny Norb N : ℕ} [NeZero N] (hx : 0 < Nx) (hy : 0 < Ny) (hN : N = Nx * Ny * Norb) {shift : ℤ}
    {t : Hoppings ℝ} {col : Coloring} (h : col.Fits Norb Nx Ny shift t) :
    Bicolored (fun i : Fin N => col.sign Nx Ny i.val) col Nx Ny Norb shift := by
  refine ⟨fun i => col.sign_sq _ _ _, fun o p c ho hp hc dx dy => ?_⟩
  have hm := moveCell_lt hx hy shift c dx dy
  have e1 : ((siteN N (Nx * Ny) o c).val : ℤ) = Kinetic.site Nx Ny shift (c % Nx : ℕ) (c / Nx : ℕ) o := by
    rw [siteN_val hN ho hc]
    unfold Kinetic.site
    rw [← cell_coords hx shift hc]
    push_cast
    ring
  have e2 : ((siteN N (Nx * Ny) p (moveCell Nx Ny shift c dx dy)).val : ℤ)
      = Kinetic.site Nx Ny shift ((c % Nx : ℕ) + dx) ((c / Nx : ℕ) + dy) p := by
    rw [siteN_val hN hp hm]
    unfold Kinetic.site
    rw [← moveCell_cast hx hy shift c dx dy]
    push_cast
    ring
  have h1 := col.site_eq hx hy h ((c % Nx : ℕ) : ℤ) ((c / Nx : ℕ) : ℤ) o
  have h2 := col.site_eq hx hy h (((c % Nx : ℕ) : ℤ) + dx) (((c / Nx : ℕ) : ℤ) + dy) p
  rw [← e1] at h1
  rw [← e2] at h2
  simp only [Coloring.sign, relSign]
  generalize col.site Nx Ny ((siteN N (Nx * Ny) o c).val : ℤ) = r1 at *
  generalize col.site Nx Ny ((siteN N (Nx * Ny) p (moveCell Nx Ny shift c dx dy)).val : ℤ) = r2 at *
  unfold Coloring.num at h1 h2
  have hd : (2 : ℤ) ∣ (r2 - r1) - (col.ax * dx + col.ay * dy + col.c p - col.c o) := by
    obtain ⟨a, ha⟩ := h1
    obtain ⟨b, hb⟩ := h2
    exact ⟨b - a, by linear_combination hb - ha⟩
  have hiff : (2 : ℤ) ∣ col.ax * dx + col.ay * dy + col.c p - col.c o ↔ ((2 : ℤ) ∣ r1 ↔ (2 : ℤ) ∣ r2) := by
    generalize col.ax * dx + col.ay * dy + col.c p - col.c o = q at *
    omega
  by_cases a : (2 : ℤ) ∣ r1 <;> by_cases b : (2 : ℤ) ∣ r2 <;> simp [hiff, a, b]

variable {mc : Machine} {p : SimParams ℝ} {col : Coloring}

/-- the relations for the data of a simulation -/
def StaggeredRun (p : SimParams ℝ) (col : Coloring) (m : MeasData) : Prop :=
  StaggeredData col p.Nx.toNat p.Ny.toNat p.Norb.toNat p.L.toNat p.pbcShift m

theorem StaggeredRun.zero (n : ℕ) : StaggeredRun p col (MeasData.allocate n) :=
  ⟨Staggered.zero _ _ _ _ _, UneqStaggered.zero _ _ _ _ _ _, Nat.cast_zero.symm, Nat.cast_zero.symm⟩

/-- C122: the relations hold at the end of every run of a half filled system if they hold at its start -/
theorem run_staggered [NeZero (sites p)] (hmc : mc.Rounds) (hv : Admissible p) (hg : Guards p) (hN : sites p < 2 ^ 31)
    (hh : HalfFilling p col) (fnbase : String) (stop : ℤ → Bool) (it : ℤ) (seed : Seed) (s : ℕ → Fin (sites p) → Fin 2)
    (meas : MeasData) (h0 : StaggeredRun p col meas) (r : LoopResult (State Seed (sites p) MeasData))
    (h : perform (mkSetup mc p fnbase) stop it seed s meas = some r) : StaggeredRun p col r.state.meas := by
  obtain ⟨sys, hsys, hok⟩ := mkSetup_ok hmc hv hg hN hh.phonons fnbase
  obtain ⟨sys', hsys', -, -, hmeas⟩ := sys_defined hmc hv hg.U hg.shift hN fnbase
  obtain rfl : sys' = sys := Option.some.inj (hsys'.symm.trans hsys)
  have h1 := hv.nx
  have h2 := hv.ny
  have hx : 0 < p.Nx.toNat := by omega
  have hy : 0 < p.Ny.toNat := by omega
  have hph := program_particleHole hv hg hh sys' hsys
  rw [perform_eq hok] at h
  have hNN : sites p = p.Nx.toNat * p.Ny.toNat * p.Norb.toNat := by unfold sites; ring
  have hL : (mkSetup mc p fnbase).cfg.L = p.L.toNat := rfl
  unfold StaggeredRun at h0 ⊢
  rw [← hL] at hmeas h0 ⊢
  generalize mkSetup mc p fnbase = su at *
  have hM : MeasInv sys' su.ph su.cfg _ := staggered_inv hx hy hNN hg.shift hmeas hok.phonons hph hok.ok.hs
    (bicolored hx hy hNN hh.fits)
  have hX : su.cfg.usePhonons = true → ∀ l < su.cfg.L, ∀ i,
      su.expX0 l i = sys'.expOf su.ph (unflat fun _ => 0) l i :=
    fun hu => absurd hu (by rw [hok.phonons]; simp)
  exact (simulate_inv hok.ok hok.L hok.dvd _ hM stop it seed s _ _ _ meas hX h0 r h).2

/-- C122 for the files of the equal time measurements, after a fresh start with any seed and with any interruption -/
theorem files_staggered [NeZero (sites p)] (hmc : mc.Rounds) (hv : Admissible p) (hg : Guards p) (hN : sites p < 2 ^ 31)
    (hh : HalfFilling p col) (fnbase : String) (inp : RunInput) (hc : inp.Clean) (fs fs1 : FS) (code : ℤ)
    (hfs : searchCheckpoint fs fnbase ≠ 0) (h : process (mkSetup mc p fnbase) inp fs = some (fs1, code)) :
    ∃ (w : ℝ) (a : EqF → ℤ → ℝ), fs1 (fnbase ++ "_eqlt_sign.dat") = some (encDouble w) ∧
      (∀ f ∈ eqSaveFiles, fs1 (fnbase ++ f.2) = some (encArray encDouble
        (EqF.size p.Norb.toNat (p.Nx.toNat * p.Ny.toNat) f.1).toNat fun i => a f.1 i)) ∧
      Staggered col p.Nx.toNat p.Ny.toNat p.Norb.toNat p.pbcShift w a := by
  obtain ⟨r, h1, -, h3, h4⟩ := results_eq hc (startup_fresh (mkSetup mc p fnbase) fs hfs) h
  have k := (run_staggered hmc hv hg hN hh fnbase inp.stop _ _ _ _ (StaggeredRun.zero _) r h1).eq
  refine ⟨_, fun f z => avg (r.iteration = (mkSetup mc p fnbase).total) r.state.meas.eq.nsampl
    (r.state.meas.eq.arr f z), h3, h4, ?_⟩
  unfold avg
  split
  · exact k.div (Nat.cast_nonneg _)
  · exact k

/-- C122 for the files of the unequal time measurements -/
theorem uneq_files_staggered [NeZero (sites p)] (hmc : mc.Rounds) (hv : Admissible p) (hg : Guards p) (hN : sites p < 2 ^ 31)
    (hh : HalfFilling p col) (hn : p.nuneqlt > 0) (fnbase : String) (inp : RunInput) (hc : inp.Clean) (fs fs1 : FS) (code : ℤ)
    (hfs : searchCheckpoint fs fnbase ≠ 0) (h : process (mkSetup mc p fnbase) inp fs = some (fs1, code)) :
    ∃ (w : ℝ) (a : UneqF → ℤ → ℝ), fs1 (fnbase ++ "_uneqlt_sign.dat") = some (encDouble w) ∧
      (∀ f ∈ uneqSaveFiles, fs1 (fnbase ++ f.2) = some (encArray encDouble
        (UneqF.size p.Norb.toNat (p.Nx.toNat * p.Ny.toNat) p.L.toNat f.1).toNat fun i => a f.1 i)) ∧
      UneqStaggered col p.Nx.toNat p.Ny.toNat p.Norb.toNat p.L.toNat p.pbcShift w a := by
  obtain ⟨r, h1, -, h3, h4⟩ := results_uneq hc hn (startup_fresh (mkSetup mc p fnbase) fs hfs) h
  have k := (run_staggered hmc hv hg hN hh fnbase inp.stop _ _ _ _ (StaggeredRun.zero _) r h1).uneq
  refine ⟨_, fun f z => avg (r.iteration = (mkSetup mc p fnbase).total) r.state.meas.uneq.nsampl
    (r.state.meas.uneq.arr f z), h3, h4, ?_⟩
  unfold avg
  split
  · exact k.div (Nat.cast_nonneg _)
  · exact k

/-- non-vacuity: the runs of the system of two by two sites end, and the spins of neighbouring sites in their files are
antiparallel -/
example (mc : Machine) (hmc : mc.Rounds) (inp : RunInput) (hc : inp.Clean) (fs : FS)
    (hfs : searchCheckpoint fs "x" ≠ 0) : ∃ fs1 code, process (mkSetup mc exHalf "x") inp fs = some (fs1, code) ∧
      ∃ a : ℕ → ℝ, fs1 "x_eqlt_xx_corr.dat" = some (encArray encDouble 4 a) ∧ a 1 ≤ 0 ∧ 0 ≤ a 3 := by
  obtain ⟨⟨fs1, code⟩, h⟩ := fresh_defined_partial hmc exHalf_admissible exHalf_guards (by decide) rfl "x" inp fs hfs
    fun sys h s => weight_one_slice hmc exHalf_admissible exHalf_guards (by decide) sys h s
  obtain ⟨w, a, -, h3, h4⟩ := files_staggered hmc exHalf_admissible exHalf_guards (by decide) exHalf_half "x"
    inp hc fs fs1 code hfs h
  have e1 := h4.spin 0 0 (by decide) (by decide) 1 0
  have e3 := h4.spin 0 0 (by decide) (by decide) 1 1
  have r1 : relSign checkerboard 0 0 1 0 = -1 := by simp [relSign, checkerboard]
  have r3 : relSign checkerboard 0 0 1 1 = 1 := by simp [relSign, checkerboard]
  rw [r1] at e1
  rw [r3] at e3
  refine ⟨fs1, code, h, fun i => a .xx i, h3 (.xx, "_eqlt_xx_corr.dat") (by decide), ?_, ?_⟩
  · have : a .xx 1 = a .xx (cellOf exHalf.Nx.toNat exHalf.Ny.toNat exHalf.pbcShift 1 0
        + (exHalf.Nx.toNat * exHalf.Ny.toNat : ℕ) * ((0 : ℕ) + exHalf.Norb.toNat * (0 : ℕ))) := rfl
    simp only [Nat.cast_one]
    linarith
  · have : a .xx 3 = a .xx (cellOf exHalf.Nx.toNat exHalf.Ny.toNat exHalf.pbcShift 1 1
        + (exHalf.Nx.toNat * exHalf.Ny.toNat : ℕ) * ((0 : ℕ) + exHalf.Norb.toNat * (0 : ℕ))) := rfl
    show 0 ≤ a .xx 3
    linarith

end Verif.Main
