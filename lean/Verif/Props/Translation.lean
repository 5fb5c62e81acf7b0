import Verif.Lemmas.SitePerm
import Verif.Props.SpinSymmetry
import Verif.Props.LongRunsPhProgram

/-!
# Property C109: the expected results are the expectation values at every single cell

The measurements average over all cells, since the fields of a sample are different everywhere.  The expectation values do not
depend on the cell, on the lattice with its twisted boundary condition: the results are the expectation values at any cell,
and an entry of the Green's function depends on the offset of the cells only.  For extended pairs, currents and Raman operators
this needs that the twist is a multiple of the number of columns, because the neighbours in these operators ignore the twist.
-/

set_option autoImplicit false

namespace Verif.MonteCarlo

open Matrix MeasureTheory Verif.Lapack Verif.TimeFlow Verif.Fock Verif.Measurement Verif.Lattice Verif.Trotter
open Verif.Main Verif.Progress Verif.Params Verif.Random

variable {N : ℕ}

/-! ## Specification -/

/-- the results of the equal time measurements are the expectation values at any cell `c` -/
structure EqLocal [NeZero N] (Nx Ny Norb : ℕ) (s t : ℤ) (T : Op (Mode N) → ℝ) (R : EqF → ℤ → ℝ → Prop) : Prop where
  dens : ∀ f ∈ [EqF.densityU, .densityD, .doubleocc], ∀ o : ℕ, o < Norb → ∀ c < Nx * Ny,
    R f o (T (densOp (siteN N (Nx * Ny) o c) f))
  corr : ∀ f ∈ [EqF.uu, .dd, .zz, .xx, .ud], ∀ o p : ℕ, o < Norb → p < Norb → ∀ dx dy : ℤ, ∀ c < Nx * Ny,
    R f (cellOf Nx Ny s dx dy + (Nx * Ny : ℕ) * (o + Norb * p))
      (T (corrOp (siteN N (Nx * Ny) o c) (siteN N (Nx * Ny) p (moveCell Nx Ny s c dx dy)) f))
  pair : ∀ f ∈ [EqF.scSw, .scDw, .scSx], (f = .scSw ∨ (Nx : ℤ) ∣ s) → ∀ o : ℕ, o < Norb → ∀ dx dy : ℤ, ∀ c < Nx * Ny,
    R f (cellOf Nx Ny s dx dy + (Nx * Ny : ℕ) * o) (T (pairsOp Nx Ny t o c (moveCell Nx Ny s c dx dy) f))
  green : ∀ g ∈ [(EqF.grfunU, true), (EqF.grfunD, false)], ∀ o p : ℕ, o < Norb → p < Norb → ∀ dx dy : ℤ, ∃ v,
    ∀ c < Nx * Ny, R g.1 (((c + Nx * Ny * o : ℕ) : ℤ) + N * (moveCell Nx Ny s c dx dy + Nx * Ny * p : ℕ)) v ∧
      v = T (ann (siteN N (Nx * Ny) o c, g.2) * cre (siteN N (Nx * Ny) p (moveCell Nx Ny s c dx dy), g.2))

/-- the same for the unequal time measurements -/
structure UneqLocal [NeZero N] (Nx Ny Norb L : ℕ) (s t : ℤ) (b1 : Prop) (T : ℕ → Op (Mode N) → Op (Mode N) → ℝ)
    (R : UneqF → ℤ → ℝ → Prop) : Prop where
  corr : ∀ f ∈ [UneqF.geqltU, .geqltD, .gtau0U, .gtau0D, .g0tauU, .g0tauD, .nn, .zz, .xx],
    ∀ l o p : ℕ, l < L → o < Norb → p < Norb → ∀ dx dy : ℤ, ∀ c < Nx * Ny,
    R f (cellOf Nx Ny s dx dy + (Nx * Ny : ℕ) * (o + Norb * p + Norb * Norb * l))
      (uvalue T l (siteN N (Nx * Ny) o c) (siteN N (Nx * Ny) p (moveCell Nx Ny s c dx dy)) f)
  pair : ∀ f ∈ [UneqF.scSw, .scDw, .scSx, .jx, .jy, .b1g, .b2g], (f = .b1g → b1) → (f = .scSw ∨ (Nx : ℤ) ∣ s) →
    ∀ l o : ℕ, l < L → o < Norb → ∀ dx dy : ℤ, ∀ c < Nx * Ny,
    R f (cellOf Nx Ny s dx dy + (Nx * Ny : ℕ) * (o + Norb * l)) (upairValue Nx Ny t T l o c (moveCell Nx Ny s c dx dy) f)

/-! ## Translations -/

section shift

variable {Nx Ny Norb : ℕ} (hx : 0 < Nx) (hy : 0 < Ny) (hN : N = Nx * Ny * Norb) (s : ℤ)
include hx hy hN

theorem shift_lt (dx dy : ℤ) (i : Fin N) :
    moveCell Nx Ny s (i.val % (Nx * Ny)) dx dy + Nx * Ny * (i.val / (Nx * Ny)) < N := by
  have h : i.val < Nx * Ny * Norb := hN ▸ i.isLt
  exact (site_lt (Nat.div_lt_of_lt_mul h) (moveCell_lt hx hy s _ dx dy)).trans_eq hN.symm

/-- translation of all sites on the lattice with twist `s` -/
def shiftSite (dx dy : ℤ) : Equiv.Perm (Fin N) where
  toFun i := ⟨_, shift_lt hx hy hN s dx dy i⟩
  invFun i := ⟨_, shift_lt hx hy hN s (-dx) (-dy) i⟩
  left_inv i := by
    apply Fin.ext
    have h := moveCell_lt hx hy s (i.val % (Nx * Ny)) dx dy
    have hn : 0 < Nx * Ny := Nat.mul_pos hx hy
    simp only
    rw [Nat.add_mul_mod_self_left, Nat.mod_eq_of_lt h, Nat.add_mul_div_left _ _ hn, Nat.div_eq_of_lt h, zero_add,
      moveCell_add hx hy, add_neg_cancel, add_neg_cancel, moveCell_zero hx s (Nat.mod_lt _ hn), Nat.mod_add_div]
  right_inv i := by
    apply Fin.ext
    have h := moveCell_lt hx hy s (i.val % (Nx * Ny)) (-dx) (-dy)
    have hn : 0 < Nx * Ny := Nat.mul_pos hx hy
    simp only
    rw [Nat.add_mul_mod_self_left, Nat.mod_eq_of_lt h, Nat.add_mul_div_left _ _ hn, Nat.div_eq_of_lt h, zero_add,
      moveCell_add hx hy, neg_add_cancel, neg_add_cancel, moveCell_zero hx s (Nat.mod_lt _ hn), Nat.mod_add_div]

theorem shiftSite_div (dx dy : ℤ) (i : Fin N) : (shiftSite hx hy hN s dx dy i).val / (Nx * Ny) = i.val / (Nx * Ny) := by
  have h := moveCell_lt hx hy s (i.val % (Nx * Ny)) dx dy
  have hn : 0 < Nx * Ny := Nat.mul_pos hx hy
  show (moveCell Nx Ny s (i.val % (Nx * Ny)) dx dy + Nx * Ny * (i.val / (Nx * Ny))) / (Nx * Ny) = _
  rw [Nat.add_mul_div_left _ _ hn, Nat.div_eq_of_lt h, zero_add]

theorem shiftSite_siteN [NeZero N] (dx dy : ℤ) {o c : ℕ} (ho : o < Norb) (hc : c < Nx * Ny) :
    shiftSite hx hy hN s dx dy (siteN N (Nx * Ny) o c) = siteN N (Nx * Ny) o (moveCell Nx Ny s c dx dy) := by
  have hn : 0 < Nx * Ny := Nat.mul_pos hx hy
  apply Fin.ext
  show moveCell Nx Ny s ((siteN N (Nx * Ny) o c).val % (Nx * Ny)) dx dy
    + Nx * Ny * ((siteN N (Nx * Ny) o c).val / (Nx * Ny)) = _
  rw [siteN_val hN ho hc, siteN_val hN ho (moveCell_lt hx hy s c dx dy), Nat.add_mul_mod_self_left, Nat.mod_eq_of_lt hc,
    Nat.add_mul_div_left _ _ hn, Nat.div_eq_of_lt hc, zero_add]

omit hN hy in
/-- every cell is a translate of every other one -/
theorem exists_shift (c : ℕ) {c' : ℕ} (hc' : c' < Nx * Ny) : ∃ dx dy : ℤ, moveCell Nx Ny s c dx dy = c' := by
  refine ⟨(c' % Nx : ℕ) - (c % Nx : ℕ), (c' / Nx : ℕ) - (c / Nx : ℕ), ?_⟩
  unfold moveCell
  rw [add_sub_cancel, add_sub_cancel, ← cell_coords hx s hc', Int.toNat_natCast]

theorem shiftSite_site (dx dy : ℤ) (i : Fin N) : ((shiftSite hx hy hN s dx dy i).val : ℤ)
    = Kinetic.site Nx Ny s ((i.val % (Nx * Ny) % Nx : ℕ) + dx) ((i.val % (Nx * Ny) / Nx : ℕ) + dy) (i.val / (Nx * Ny) : ℕ) := by
  unfold Kinetic.site
  rw [← moveCell_cast hx hy]
  show ((moveCell Nx Ny s (i.val % (Nx * Ny)) dx dy + Nx * Ny * (i.val / (Nx * Ny)) : ℕ) : ℤ) = _
  push_cast
  ring

omit hN in
theorem site_val (i : Fin N) : (i.val : ℤ)
    = Kinetic.site Nx Ny s (i.val % (Nx * Ny) % Nx : ℕ) (i.val % (Nx * Ny) / Nx : ℕ) (i.val / (Nx * Ny) : ℕ) := by
  have hn : 0 < Nx * Ny := Nat.mul_pos hx hy
  unfold Kinetic.site
  rw [← cell_coords hx s (Nat.mod_lt _ hn)]
  have := Nat.mod_add_div i.val (Nx * Ny)
  rw [mul_comm (Nx * Ny) (i.val / (Nx * Ny))] at this
  exact_mod_cast this.symm

end shift

theorem shift_bondMatrix {p : SimParams ℝ} (hx : 0 < p.Nx.toNat) (hy : 0 < p.Ny.toNat)
    (hN : sites p = p.Nx.toNat * p.Ny.toNat * p.Norb.toNat) (dx dy : ℤ) (i j : Fin (sites p)) :
    bondMatrix p (shiftSite hx hy hN p.pbcShift dx dy i) (shiftSite hx hy hN p.pbcShift dx dy j) = bondMatrix p i j := by
  unfold bondMatrix
  rw [Matrix.of_apply, Matrix.of_apply]
  simp only [EmbeddingLike.apply_eq_iff_eq, shiftSite_div]
  refine if_congr Iff.rfl rfl (congrArg _ ?_)
  rw [shiftSite_site, shiftSite_site, Kinetic.bondSum_translate _ _ _ hx hy, ← site_val hx hy, ← site_val hx hy]

/-! ## Expectation values -/

/-- expectation values which do not change if the sites are permuted by `e` -/
def Translates (e : Equiv.Perm (Fin N)) (T : Op (Mode N) → Op (Mode N) → ℝ) : Prop :=
  ∀ X Y, T (relabel e X) (relabel e Y) = T X Y

theorem Translates.mean {e : Equiv.Perm (Fin N)} {T : Op (Mode N) → Op (Mode N) → ℝ} (h : Translates e T) (X : Op (Mode N)) :
    T (relabel e X) 1 = T X 1 := by
  have := h X 1
  rwa [relabel_one] at this

theorem thermalPair_translates {e : Equiv.Perm (Fin N)} {S : Op (Mode N)} (h : relabel e S = S) (L l : ℕ) :
    Translates e (thermalPair S L l) := by
  intro X Y
  have h1 : (S ^ (L - l) * relabel e X * S ^ l * relabel e Y).trace = (S ^ (L - l) * X * S ^ l * Y).trace := by
    rw [← trace_relabel e (S ^ (L - l) * X * S ^ l * Y), relabel_mul, relabel_mul, relabel_mul, relabel_pow, relabel_pow, h]
  unfold thermalPair
  rw [h1]

theorem gibbsPair_translates {e : Equiv.Perm (Fin N)} {H : Op (Mode N)} (h : relabel e H = H) (β τ : ℝ) :
    Translates e (gibbsPair H β τ) := by
  intro X Y
  unfold gibbsPair
  have h1 : ∀ A B : Op (Mode N), relabel e A = A → relabel e B = B →
      (A * relabel e X * B * relabel e Y).trace = (A * X * B * Y).trace := fun A B hA hB => by
    rw [← trace_relabel e (A * X * B * Y), relabel_mul, relabel_mul, relabel_mul, hA, hB]
  rw [h1]
  · rw [relabel_exp, relabel_smul, h]
  · rw [relabel_exp, relabel_smul, h]

/-- permutations of the sites which do not change the Hamiltonian -/
structure Symmetric (p : SimParams ℝ) (e : Equiv.Perm (Fin (sites p))) : Prop where
  bond : ∀ i j, bondMatrix p (e i) (e j) = bondMatrix p i j
  orb : ∀ i, orbitalOf p (e i) = orbitalOf p i

theorem shift_symmetric {p : SimParams ℝ} (hx : 0 < p.Nx.toNat) (hy : 0 < p.Ny.toNat)
    (hN : sites p = p.Nx.toNat * p.Ny.toNat * p.Norb.toNat) (dx dy : ℤ) : Symmetric p (shiftSite hx hy hN p.pbcShift dx dy) :=
  ⟨shift_bondMatrix hx hy hN dx dy, fun i => shiftSite_div hx hy hN p.pbcShift dx dy i⟩

section symmetric

variable {p : SimParams ℝ} {e : Equiv.Perm (Fin (sites p))} (he : Symmetric p e)
include he

theorem relabel_hubbardStep : relabel e (hubbardStep p) = hubbardStep p := by
  have h := relabel_stepOp e he.bond (U := fun i => p.U (orbitalOf p i)) (fun i => by rw [he.orb]) p.dt fun _ => 0
  exact h

theorem relabel_hubbardOp : relabel e (hubbardOp p) = hubbardOp p := by
  have h := relabel_repOp e (U := fun i => p.U (orbitalOf p i)) (fun i => by rw [he.orb])
  unfold hubbardOp
  rw [relabel_add, relabel_hopOp _ he.bond]
  exact congrArg _ h

theorem relabel_holsteinStep (y : Fin (sites p) → ℝ) : relabel e (holsteinStep p fun i => y (e i)) = holsteinStep p y := by
  have h := relabel_stepOp e he.bond (U := fun i => p.U (orbitalOf p i)) (fun i => by rw [he.orb]) p.dt
    fun i => p.phonon.g (orbitalOf p i) * y i
  simp only [he.orb] at h
  exact h

end symmetric

/-- the sites of a path permuted, with an arbitrary distribution for every class of sites -/
theorem measurePreserving_paths {L : ℕ} (e : Equiv.Perm (Fin N)) (μ : Fin N → Measure ℝ) [∀ i, SigmaFinite (μ i)]
    (he : ∀ i, μ (e i) = μ i) :
    MeasurePreserving (MeasurableEquiv.piCongrRight fun _ : Fin L => MeasurableEquiv.piCongrLeft (fun _ : Fin N => ℝ) e)
      (Measure.pi fun _ => Measure.pi μ) (Measure.pi fun _ => Measure.pi μ) := by
  have h := measurePreserving_piCongrLeft (α := fun _ : Fin N => ℝ) μ e
  simp only [he] at h
  exact measurePreserving_pi _ _ fun _ : Fin L => h

theorem holsteinMean_translates {p : SimParams ℝ} {e : Equiv.Perm (Fin (sites p))} (he : Symmetric p e) (rest : Measure ℝ)
    [SigmaFinite rest] (L l : ℕ) : Translates e (holsteinMean p rest L l fun _ => 1) := by
  intro X Y
  have hσ : ∀ i, SigmaFinite (if p.phonon.g (orbitalOf p i) = 0 then rest else volume) := fun i => by
    split <;> infer_instance
  have hm := measurePreserving_paths (L := L) e (fun i => if p.phonon.g (orbitalOf p i) = 0 then rest else volume)
    fun i => by rw [he.orb]
  generalize hQ : (MeasurableEquiv.piCongrRight fun _ : Fin L => MeasurableEquiv.piCongrLeft (fun _ : Fin (sites p) => ℝ) e) = Q at hm
  have hQe : ∀ (x : Paths L (sites p)) k i, extendX (Q x) k (e i) = extendX x k i := by
    intro x k i
    rw [← hQ]
    unfold extendX
    split
    · show (MeasurableEquiv.piCongrLeft (fun _ : Fin (sites p) => ℝ) e) (x _) (e i) = _
      rw [MeasurableEquiv.coe_piCongrLeft, Equiv.piCongrLeft_apply_apply]
    · rfl
  have hstep : ∀ (x : Paths L (sites p)) k, relabel e (holsteinStep p (extendX x k)) = holsteinStep p (extendX (Q x) k) := by
    intro x k
    rw [← relabel_holsteinStep he (extendX (Q x) k)]
    exact congrArg _ (congrArg _ (funext fun i => (hQe x k i).symm))
  have hact : ∀ x : Paths L (sites p), phononAction p (Q x) = phononAction p x := by
    intro x
    unfold phononAction
    rw [← Equiv.sum_comp e]
    simp only [hQe, he.orb]
  have htr : ∀ x : Paths L (sites p),
      (oprod (fun j => holsteinStep p (extendX (Q x) (l + j))) (L - l) * relabel e X
        * oprod (fun j => holsteinStep p (extendX (Q x) j)) l * relabel e Y).trace
      = (oprod (fun j => holsteinStep p (extendX x (l + j))) (L - l) * X * oprod (fun j => holsteinStep p (extendX x j)) l
        * Y).trace := by
    intro x
    rw [← trace_relabel e (oprod (fun j => holsteinStep p (extendX x (l + j))) (L - l) * X * _ * Y), relabel_mul, relabel_mul,
      relabel_mul, relabel_oprod, relabel_oprod]
    simp only [hstep]
  have hi : holsteinIntegral p rest L l (fun _ => 1) (relabel e X) (relabel e Y) = holsteinIntegral p rest L l (fun _ => 1) X Y := by
    unfold holsteinIntegral
    rw [← hm.integral_comp']
    simp only [hact, htr]
  rw [holsteinMean, hi, holsteinMean]

/-! ## The operators of the measurements -/

theorem relabel_nOp (e : Equiv.Perm (Fin N)) (sp : Bool) (a : Fin N) : relabel e (opOf (nOp sp a)) = opOf (nOp sp (e a)) := by
  rw [relabel_opOf]
  rfl

theorem relabel_zOp (e : Equiv.Perm (Fin N)) (a : Fin N) : relabel e (opOf (zOp a)) = opOf (zOp (e a)) := by
  rw [relabel_opOf]
  rfl

theorem relabel_xOp (e : Equiv.Perm (Fin N)) (a : Fin N) : relabel e (opOf (xOp a)) = opOf (xOp (e a)) := by
  rw [relabel_opOf]
  rfl

theorem relabel_densOp (e : Equiv.Perm (Fin N)) (a : Fin N) (f : EqF) : relabel e (densOp a f) = densOp (e a) f := by
  cases f <;> simp only [densOp, relabel_mul, relabel_nOp, relabel_zero]

theorem relabel_corrOp (e : Equiv.Perm (Fin N)) (a b : Fin N) (f : EqF) : relabel e (corrOp a b f) = corrOp (e a) (e b) f := by
  cases f <;> simp only [corrOp, relabel_mul, relabel_add, relabel_nOp, relabel_zOp, relabel_xOp, relabel_zero]

theorem uvalue_translates {e : Equiv.Perm (Fin N)} {T : ℕ → Op (Mode N) → Op (Mode N) → ℝ} (hT : ∀ l, Translates e (T l)) (l : ℕ)
    (a b : Fin N) (f : UneqF) : uvalue T l (e a) (e b) f = uvalue T l a b f := by
  have ha : ∀ (a : Fin N) sp, ann (e a, sp) = relabel e (ann (a, sp)) := fun a sp => (relabel_ann e (a, sp)).symm
  have hc : ∀ (a : Fin N) sp, cre (e a, sp) = relabel e (cre (a, sp)) := fun a sp => (relabel_cre e (a, sp)).symm
  have hn : ∀ a : Fin N, opOf (nOp true (e a) ++ nOp false (e a)) = relabel e (opOf (nOp true a ++ nOp false a)) := fun a => by
    rw [relabel_opOf]
    rfl
  cases f <;> simp only [uvalue, ha, hc, hn, ← relabel_mul, (hT _).mean, (hT _) _ _, ← relabel_zOp, ← relabel_xOp]

section pairs

variable {Nx Ny Norb : ℕ} (hx : 0 < Nx) (hy : 0 < Ny) (hN : N = Nx * Ny * Norb) (s t : ℤ) [NeZero N]
  (ht : ∀ c ex ey, moveCell Nx Ny t c ex ey = moveCell Nx Ny s c ex ey) (dx dy : ℤ) {o c : ℕ} (ho : o < Norb) (hc : c < Nx * Ny)
include ho hc

theorem move_onsitePair : movePair (shiftSite hx hy hN s dx dy) (onsitePair Nx Ny o c)
    = onsitePair Nx Ny o (moveCell Nx Ny s c dx dy) := by
  simp only [movePair, onsitePair, List.map_cons, List.map_nil, shiftSite_siteN hx hy hN s dx dy ho hc]

include ht

omit hc in
theorem shift_neighbour (ex ey : ℤ) : shiftSite hx hy hN s dx dy (siteN N (Nx * Ny) o (moveCell Nx Ny t c ex ey))
    = siteN N (Nx * Ny) o (moveCell Nx Ny t (moveCell Nx Ny s c dx dy) ex ey) := by
  rw [shiftSite_siteN hx hy hN s dx dy ho (moveCell_lt hx hy t c ex ey), ht, ht, moveCell_add hx hy, moveCell_add hx hy,
    add_comm ex, add_comm ey]

theorem move_pairOp (f : Form) : movePair (shiftSite hx hy hN s dx dy) (pairOp Nx Ny t f o c)
    = pairOp Nx Ny t f o (moveCell Nx Ny s c dx dy) := by
  simp only [movePair, pairOp, List.map_map]
  refine List.map_congr_left fun e _ => ?_
  simp only [Function.comp_apply, shiftSite_siteN hx hy hN s dx dy ho hc, shift_neighbour hx hy hN s t ht dx dy ho]

theorem move_currentOp (ex ey : ℤ) : moveOne (shiftSite hx hy hN s dx dy) (currentOp Nx Ny t ex ey o c)
    = currentOp Nx Ny t ex ey o (moveCell Nx Ny s c dx dy) := by
  simp only [moveOne, currentOp, List.flatMap_cons, List.flatMap_nil, List.map_append, List.map_cons, List.map_nil,
    shiftSite_siteN hx hy hN s dx dy ho hc, shift_neighbour hx hy hN s t ht dx dy ho]

theorem move_ramanOp (f : Form) : moveOne (shiftSite hx hy hN s dx dy) (ramanOp Nx Ny t f o c)
    = ramanOp Nx Ny t f o (moveCell Nx Ny s c dx dy) := by
  simp only [moveOne, ramanOp, List.flatMap_cons, List.flatMap_nil, List.map_append, List.map_map, List.map_nil,
    Function.comp_def, shiftSite_siteN hx hy hN s dx dy ho hc, shift_neighbour hx hy hN s t ht dx dy ho]

end pairs

theorem cellAvg_single {n c : ℕ} (hc : c < n) {f : ℕ → ℝ} (h : ∀ c' < n, f c' = f c) : cellAvg n f = f c := by
  unfold cellAvg
  rw [Finset.sum_congr rfl fun c' hc' => h c' (Finset.mem_range.1 hc'), Finset.sum_const, Finset.card_range, nsmul_eq_mul,
    mul_div_cancel_left₀ _ (Nat.cast_ne_zero.2 (by omega))]

/-! ## C109 -/

section main

variable {Nx Ny Norb : ℕ} (hx : 0 < Nx) (hy : 0 < Ny) (hN : N = Nx * Ny * Norb) (s : ℤ) [NeZero N]

/-- C109 for equal times -/
theorem EqHolds.local {T : Op (Mode N) → Op (Mode N) → ℝ} (hT : ∀ dx dy, Translates (shiftSite hx hy hN s dx dy) T)
    {R : EqF → ℤ → ℝ → Prop} (h : EqHolds Nx Ny Norb s 0 (fun X => T X 1) R) : EqLocal Nx Ny Norb s 0 (fun X => T X 1) R := by
  have hmove : ∀ c dx dy ex ey, moveCell Nx Ny s (moveCell Nx Ny s c dx dy) ex ey
      = moveCell Nx Ny s (moveCell Nx Ny s c ex ey) dx dy := fun c dx dy ex ey => by
    rw [moveCell_add hx hy, moveCell_add hx hy, add_comm ex, add_comm ey]
  constructor
  · intro f hf o ho c hc
    convert h.dens f hf o ho using 1
    refine (cellAvg_single (f := fun c => T (densOp (siteN N (Nx * Ny) o c) f) 1) hc fun c' hc' => ?_).symm
    obtain ⟨dx, dy, rfl⟩ := exists_shift (Ny := Ny) hx s c hc'
    rw [← shiftSite_siteN hx hy hN s dx dy ho hc, ← relabel_densOp, (hT dx dy).mean]
  · intro f hf o p ho hp dx dy c hc
    convert h.corr f hf o p ho hp dx dy using 1
    refine (cellAvg_single (f := fun c => T (corrOp (siteN N (Nx * Ny) o c) (siteN N (Nx * Ny) p (moveCell Nx Ny s c dx dy)) f) 1)
      hc fun c' hc' => ?_).symm
    obtain ⟨ex, ey, rfl⟩ := exists_shift (Ny := Ny) hx s c hc'
    rw [hmove, ← shiftSite_siteN hx hy hN s ex ey ho hc, ← shiftSite_siteN hx hy hN s ex ey hp (moveCell_lt hx hy s c dx dy),
      ← relabel_corrOp, (hT ex ey).mean]
  · intro f hf hs o ho dx dy c hc
    convert h.pair f hf o ho dx dy using 1
    refine (cellAvg_single (f := fun c => T (pairsOp Nx Ny 0 o c (moveCell Nx Ny s c dx dy) f) 1) hc fun c' hc' => ?_).symm
    obtain ⟨ex, ey, rfl⟩ := exists_shift (Ny := Ny) hx s c hc'
    have hd := moveCell_lt hx hy s c dx dy
    rw [hmove]
    have key : ∀ A B A' B' : PairOp N, movePair (shiftSite hx hy hN s ex ey) A = A' →
        movePair (shiftSite hx hy hN s ex ey) B = B' → T (pairOf A' * (pairOf B')ᵀ) 1 = T (pairOf A * (pairOf B)ᵀ) 1 := by
      intro A B A' B' hA hB
      rw [← hA, ← hB, ← relabel_pairOf, ← relabel_pairOf_transpose, ← relabel_mul, (hT ex ey).mean]
    by_cases hsw : f = .scSw
    · subst hsw
      simp only [pairsOp]
      exact key _ _ _ _ (move_onsitePair hx hy hN s ex ey ho hc) (move_onsitePair hx hy hN s ex ey ho hd)
    · have ht := moveCell_untwisted (Ny := Ny) hx s (hs.resolve_left hsw)
      have hf' : f = .scDw ∨ f = .scSx := by
        simp only [List.mem_cons, List.not_mem_nil, or_false] at hf
        exact hf.resolve_left hsw
      rcases hf' with rfl | rfl <;> simp only [pairsOp] <;>
      exact key _ _ _ _ (move_pairOp hx hy hN s 0 ht ex ey ho hc _) (move_pairOp hx hy hN s 0 ht ex ey ho hd _)
  · intro g hg o p ho hp dx dy
    have hn : 0 < Nx * Ny := Nat.mul_pos hx hy
    refine ⟨T (ann (siteN N (Nx * Ny) o 0, g.2) * cre (siteN N (Nx * Ny) p (moveCell Nx Ny s 0 dx dy), g.2)) 1, fun c hc => ?_⟩
    have hv : T (ann (siteN N (Nx * Ny) o 0, g.2) * cre (siteN N (Nx * Ny) p (moveCell Nx Ny s 0 dx dy), g.2)) 1
        = T (ann (siteN N (Nx * Ny) o c, g.2) * cre (siteN N (Nx * Ny) p (moveCell Nx Ny s c dx dy), g.2)) 1 := by
      obtain ⟨ex, ey, rfl⟩ := exists_shift (Ny := Ny) hx s 0 hc
      rw [hmove, ← shiftSite_siteN hx hy hN s ex ey ho hn, ← shiftSite_siteN hx hy hN s ex ey hp (moveCell_lt hx hy s 0 dx dy)]
      have := (hT ex ey).mean (ann (siteN N (Nx * Ny) o 0, g.2) * cre (siteN N (Nx * Ny) p (moveCell Nx Ny s 0 dx dy), g.2))
      rw [relabel_mul, relabel_ann, relabel_cre] at this
      exact this.symm
    refine ⟨?_, hv⟩
    rw [hv, ← siteN_val hN ho hc, ← siteN_val hN hp (moveCell_lt hx hy s c dx dy)]
    simp only [List.mem_cons, List.not_mem_nil, or_false] at hg
    rcases hg with rfl | rfl
    · exact h.grfunU _ _
    · exact h.grfunD _ _

/-- C109 for unequal times -/
theorem UneqHolds.local {L : ℕ} {b1 : Prop} {T : ℕ → Op (Mode N) → Op (Mode N) → ℝ}
    (hT : ∀ l dx dy, Translates (shiftSite hx hy hN s dx dy) (T l)) {R : UneqF → ℤ → ℝ → Prop}
    (h : UneqHolds Nx Ny Norb L s 0 b1 T R) : UneqLocal Nx Ny Norb L s 0 b1 T R := by
  have hmove : ∀ c dx dy ex ey, moveCell Nx Ny s (moveCell Nx Ny s c dx dy) ex ey
      = moveCell Nx Ny s (moveCell Nx Ny s c ex ey) dx dy := fun c dx dy ex ey => by
    rw [moveCell_add hx hy, moveCell_add hx hy, add_comm ex, add_comm ey]
  constructor
  · intro f hf l o p hl ho hp dx dy c hc
    convert h.corr f hf l o p hl ho hp dx dy using 1
    refine (cellAvg_single
      (f := fun c => uvalue T l (siteN N (Nx * Ny) o c) (siteN N (Nx * Ny) p (moveCell Nx Ny s c dx dy)) f) hc fun c' hc' => ?_).symm
    obtain ⟨ex, ey, rfl⟩ := exists_shift (Ny := Ny) hx s c hc'
    rw [hmove, ← shiftSite_siteN hx hy hN s ex ey ho hc, ← shiftSite_siteN hx hy hN s ex ey hp (moveCell_lt hx hy s c dx dy),
      uvalue_translates fun l => hT l ex ey]
  · intro f hf hb hs l o hl ho dx dy c hc
    convert h.pair f hf hb l o hl ho dx dy using 1
    refine (cellAvg_single (f := fun c => upairValue Nx Ny 0 T l o c (moveCell Nx Ny s c dx dy) f) hc fun c' hc' => ?_).symm
    obtain ⟨ex, ey, rfl⟩ := exists_shift (Ny := Ny) hx s c hc'
    have hd := moveCell_lt hx hy s c dx dy
    rw [hmove]
    have key : ∀ A B A' B' : PairOp N, movePair (shiftSite hx hy hN s ex ey) A = A' →
        movePair (shiftSite hx hy hN s ex ey) B = B' → T l (pairOf A') (pairOf B')ᵀ = T l (pairOf A) (pairOf B)ᵀ := by
      intro A B A' B' hA hB
      rw [← hA, ← hB, ← relabel_pairOf, ← relabel_pairOf_transpose, hT l ex ey]
    have key' : ∀ A B A' B' : OneBody N, moveOne (shiftSite hx hy hN s ex ey) A = A' →
        moveOne (shiftSite hx hy hN s ex ey) B = B' → T l (opOf A') (opOf B') = T l (opOf A) (opOf B) := by
      intro A B A' B' hA hB
      rw [← hA, ← hB, ← relabel_opOf, ← relabel_opOf, hT l ex ey]
    by_cases hsw : f = .scSw
    · subst hsw
      simp only [upairValue]
      exact key _ _ _ _ (move_onsitePair hx hy hN s ex ey ho hc) (move_onsitePair hx hy hN s ex ey ho hd)
    · have ht := moveCell_untwisted (Ny := Ny) hx s (hs.resolve_left hsw)
      simp only [List.mem_cons, List.not_mem_nil, or_false] at hf
      rcases hf.resolve_left hsw with rfl | rfl | rfl | rfl | rfl | rfl <;> simp only [upairValue]
      · exact key _ _ _ _ (move_pairOp hx hy hN s 0 ht ex ey ho hc _) (move_pairOp hx hy hN s 0 ht ex ey ho hd _)
      · exact key _ _ _ _ (move_pairOp hx hy hN s 0 ht ex ey ho hc _) (move_pairOp hx hy hN s 0 ht ex ey ho hd _)
      · exact congrArg _ (key' _ _ _ _ (move_currentOp hx hy hN s 0 ht ex ey ho hc _ _) (move_currentOp hx hy hN s 0 ht ex ey ho hd _ _))
      · exact congrArg _ (key' _ _ _ _ (move_currentOp hx hy hN s 0 ht ex ey ho hc _ _) (move_currentOp hx hy hN s 0 ht ex ey ho hd _ _))
      · exact key' _ _ _ _ (move_ramanOp hx hy hN s 0 ht ex ey ho hc _) (move_ramanOp hx hy hN s 0 ht ex ey ho hd _)
      · exact key' _ _ _ _ (move_ramanOp hx hy hN s 0 ht ex ey ho hc _) (move_ramanOp hx hy hN s 0 ht ex ey ho hd _)

end main

theorem sites_eq (p : SimParams ℝ) : sites p = p.Nx.toNat * p.Ny.toNat * p.Norb.toNat := mul_comm _ _

/-- C109 for the expectation values which the results without phonons stand for -/
theorem thermal_local (p : SimParams ℝ) [NeZero (sites p)] (hx : 0 < p.Nx.toNat) (hy : 0 < p.Ny.toNat) (L : ℕ) (b1 : Prop) :
    (∀ R, EqHolds p.Nx.toNat p.Ny.toNat p.Norb.toNat p.pbcShift 0 (thermalMean (hubbardStep p) L) R →
      EqLocal p.Nx.toNat p.Ny.toNat p.Norb.toNat p.pbcShift 0 (thermalMean (hubbardStep p) L) R) ∧
    ∀ R, UneqHolds p.Nx.toNat p.Ny.toNat p.Norb.toNat L p.pbcShift 0 b1 (thermalPair (hubbardStep p) L) R →
      UneqLocal p.Nx.toNat p.Ny.toNat p.Norb.toNat L p.pbcShift 0 b1 (thermalPair (hubbardStep p) L) R := by
  have hT : ∀ l dx dy, Translates (shiftSite hx hy (sites_eq p) p.pbcShift dx dy) (thermalPair (hubbardStep p) L l) :=
    fun l dx dy => thermalPair_translates (relabel_hubbardStep (shift_symmetric hx hy (sites_eq p) dx dy)) L l
  refine ⟨fun R h => ?_, fun R h => h.local hx hy (sites_eq p) _ hT⟩
  rw [show thermalMean (hubbardStep p) L = fun X => thermalPair (hubbardStep p) L 0 X 1 from
    funext fun X => thermalMean_eq_pair _ _ _] at h ⊢
  exact EqHolds.local hx hy (sites_eq p) _ (hT 0) h

/-- C109 in the limit of many time slices -/
theorem gibbs_local (p : SimParams ℝ) [NeZero (sites p)] (hx : 0 < p.Nx.toNat) (hy : 0 < p.Ny.toNat) (L : ℕ) (b1 : Prop)
    (β dt : ℝ) :
    (∀ R, EqHolds p.Nx.toNat p.Ny.toNat p.Norb.toNat p.pbcShift 0 (gibbsMean (hubbardOp p) β) R →
      EqLocal p.Nx.toNat p.Ny.toNat p.Norb.toNat p.pbcShift 0 (gibbsMean (hubbardOp p) β) R) ∧
    ∀ R, UneqHolds p.Nx.toNat p.Ny.toNat p.Norb.toNat L p.pbcShift 0 b1 (fun l => gibbsPair (hubbardOp p) β (l * dt)) R →
      UneqLocal p.Nx.toNat p.Ny.toNat p.Norb.toNat L p.pbcShift 0 b1 (fun l => gibbsPair (hubbardOp p) β (l * dt)) R := by
  have hT : ∀ τ dx dy, Translates (shiftSite hx hy (sites_eq p) p.pbcShift dx dy) (gibbsPair (hubbardOp p) β τ) :=
    fun τ dx dy => gibbsPair_translates (relabel_hubbardOp (shift_symmetric hx hy (sites_eq p) dx dy)) β τ
  refine ⟨fun R h => ?_, fun R h => h.local hx hy (sites_eq p) _ fun l => hT _⟩
  rw [show gibbsMean (hubbardOp p) β = fun X => gibbsPair (hubbardOp p) β 0 X 1 from
    funext fun X => gibbsMean_eq_pair _ _ _] at h ⊢
  exact EqHolds.local hx hy (sites_eq p) _ (hT 0) h

/-- C109 with phonons -/
theorem holstein_local (p : SimParams ℝ) [NeZero (sites p)] (hx : 0 < p.Nx.toNat) (hy : 0 < p.Ny.toNat) (rest : Measure ℝ)
    [SigmaFinite rest] (L : ℕ) (b1 : Prop) :
    (∀ R, EqHolds p.Nx.toNat p.Ny.toNat p.Norb.toNat p.pbcShift 0 (fun X => holsteinMean p rest L 0 (fun _ => 1) X 1) R →
      EqLocal p.Nx.toNat p.Ny.toNat p.Norb.toNat p.pbcShift 0 (fun X => holsteinMean p rest L 0 (fun _ => 1) X 1) R) ∧
    ∀ R, UneqHolds p.Nx.toNat p.Ny.toNat p.Norb.toNat L p.pbcShift 0 b1
        (fun l X Y => holsteinMean p rest L l (fun _ => 1) X Y) R →
      UneqLocal p.Nx.toNat p.Ny.toNat p.Norb.toNat L p.pbcShift 0 b1 (fun l X Y => holsteinMean p rest L l (fun _ => 1) X Y) R := by
  have hT : ∀ l dx dy, Translates (shiftSite hx hy (sites_eq p) p.pbcShift dx dy) (holsteinMean p rest L l fun _ => 1) :=
    fun l dx dy => holsteinMean_translates (shift_symmetric hx hy (sites_eq p) dx dy) rest L l
  exact ⟨fun R h => EqHolds.local hx hy (sites_eq p) _ (T := holsteinMean p rest L 0 fun _ => 1) (hT 0) h,
    fun R h => UneqHolds.local hx hy (sites_eq p) _ (T := fun l => holsteinMean p rest L l fun _ => 1) hT h⟩

section program

variable {σ : Type} [MeasurableSpace σ] {P : Measure σ} {mc : Machine} {p : SimParams ℝ}

/-- C109 for runs from scratch: under the hypotheses of C90 the results converge to the expectation values at any cell -/
theorem program_local [NeZero (sites p)] (hmc : mc.Rounds) (hv : Admissible p) (hg : Guards p)
    (hN : sites p < 2 ^ 31) (hp : p.usePhonons = false) (fnbase : String) (rng : Rng σ) (hlaw : rng.Lawful (sites p))
    (hP : rng.Ideal (sites p) P) (sys : Sys Seed (sites p) MeasData) (hsys : sysOf mc p = some sys)
    (hw : ∀ s, sys.weight p.L.toNat s (fun _ _ => 1) ≠ 0)
    (hr : ∀ i : Fin (sites p), p.U ((i.val / (p.Nx.toNat * p.Ny.toNat) : ℕ) : ℤ) = 0 ∨
      ∀ l < p.L.toNat, ∀ x : Field p.L.toNat (sites p),
        sys.weight p.L.toNat (Fock.extend (flipAt l i x)) (fun _ _ => 1)
          ≠ sys.weight p.L.toNat (Fock.extend x) (fun _ _ => 1))
    (hnq : 0 ≤ p.nequil) (X expX : ℕ → Fin (sites p) → ℝ) (cnt : Counters) (maxNsampl : ℕ) :
    let L := p.L.toNat
    let cfg := (mkSetup mc p fnbase).cfg
    let sys' := sys.withRng rng
    ∃ R : ℕ → σ → LoopResult (State σ (sites p) MeasData),
      (∀ (n : ℕ) r, simulate sys' (mkSetup mc p fnbase).ph { cfg with nsampl := n } (fun _ => false) 0
        (freshField rng L (sites p) r).2 (Fock.extend (freshField rng L (sites p) r).1) X expX cnt
        (MeasData.allocate maxNsampl) = some (R n r)) ∧
      (0 < p.neqlt → p.neqlt ≤ p.L →
        EqLocal p.Nx.toNat p.Ny.toNat p.Norb.toNat p.pbcShift 0 (thermalMean (hubbardStep p) L) fun f z v =>
          Converges P (fun n (_ : Unit) r => (R n r).state.meas.eq.arr f z / (R n r).state.meas.eq.sign) v) ∧
      (0 < p.nuneqlt →
        UneqLocal p.Nx.toNat p.Ny.toNat p.Norb.toNat L p.pbcShift 0 (p.Nx.toNat = 1 ↔ p.Ny.toNat = 1)
          (thermalPair (hubbardStep p) L) fun f z v =>
          Converges P (fun n (_ : Unit) r => (R n r).state.meas.uneq.arr f z / (R n r).state.meas.uneq.sign) v) := by
  intro L cfg sys'
  have h2 := hv.nx
  have h3 := hv.ny
  obtain ⟨R, h1, h4, h5⟩ := program_fresh_converges hmc hv hg hN hp fnbase rng hlaw hP sys hsys hw hr hnq X expX cnt maxNsampl
  exact ⟨R, h1, fun hc hcL => (thermal_local p (by omega) (by omega) _ True).1 _ (h4 hc hcL),
    fun hc => (thermal_local p (by omega) (by omega) _ _).2 _ (h5 hc)⟩

/-- C109 for runs with phonons which start in equilibrium: under the hypotheses of C78 the expected results are the expectation
values at any cell -/
theorem program_local_ph {rest : Measure ℝ} [SigmaFinite rest] [NeZero (sites p)] (hmc : mc.Rounds)
    (hv : Admissible p) (hg : Guards p)
    (hN : sites p < 2 ^ 31) (hp : p.usePhonons = true) (hL : 2 ≤ p.L) (hdt : 0 < p.dt)
    (hcoupled : ∀ o : ℕ, o < p.Norb.toNat → p.phonon.g o ≠ 0) (homega : ∀ o : ℕ, o < p.Norb.toNat → p.phonon.omega o ≠ 0)
    (hrest : Light rest) (fnbase : String) (rng : Rng σ) (hlaw : rng.Lawful (sites p)) (hP : rng.Ideal (sites p) P)
    (sys : Sys Seed (sites p) MeasData) (hsys : sysOf mc p = some sys) (stop : ℤ → Bool) (it : ℤ) (cnt : Counters) :
    let L := p.L.toNat
    let cfg := (mkSetup mc p fnbase).cfg
    let sys' := sys.withRng rng
    let E := fun f => expectedPh sys' (phOf p) rest L P f
    ∃ R : Conf L (sites p) × σ → LoopResult (State σ (sites p) MeasData),
      (∀ᵐ y ∂(confDist sys' (phOf p) rest L).prod P, simulate sys' (phOf p) cfg stop it y.2 (Fock.extend y.1.1)
        (extendX y.1.2) (sys'.expOf (phOf p) (extendX y.1.2)) cnt (MeasData.allocate (mkSetup mc p fnbase).maxNsampl)
          = some (R y)) ∧
      (0 < eqCount cfg stop it → EqLocal p.Nx.toNat p.Ny.toNat p.Norb.toNat p.pbcShift 0
        (fun X => holsteinMean p rest L 0 (fun _ => 1) X 1)
        fun f z v => E (fun y => (R y).state.meas.eq.arr f z) / E (fun y => (R y).state.meas.eq.sign) = v) ∧
      (0 < uneqCount cfg stop it → UneqLocal p.Nx.toNat p.Ny.toNat p.Norb.toNat L p.pbcShift 0
        (p.Nx.toNat = 1 ↔ p.Ny.toNat = 1) (fun l X Y => holsteinMean p rest L l (fun _ => 1) X Y)
        fun f z v => E (fun y => (R y).state.meas.uneq.arr f z) / E (fun y => (R y).state.meas.uneq.sign) = v) := by
  intro L cfg sys' E
  have h2 := hv.nx
  have h3 := hv.ny
  obtain ⟨R, h1, h4, h5⟩ := program_expected_ph hmc hv hg hN hp hL hdt hcoupled homega hrest fnbase rng hlaw hP sys hsys stop
    it cnt
  exact ⟨R, h1, fun hc => (holstein_local p (by omega) (by omega) rest _ True).1 _ ((eqThermal_iff _ _ _ _ _ _ _).1 (h4 hc).1),
    fun hc => (holstein_local p (by omega) (by omega) rest _ _).2 _ ((uneqThermal_iff _ _ _ _ _ _ _ _ _).1 (h5 hc))⟩

/-- C109 for long runs with phonons: under the hypotheses of C105 the results converge to the expectation values at any cell -/
theorem program_local_long [NeZero (sites p)] (hmc : mc.Rounds) (hv : Admissible p) (hg : Guards p)
    (hN : sites p < 2 ^ 31) (hmv : Movable p) (fnbase : String) (rng : Rng σ) (hlaw : rng.Lawful (sites p))
    (hP : rng.Ideal (sites p) P) (sys : Sys Seed (sites p) MeasData) (hsys : sysOf mc p = some sys) (cnt : Counters)
    {Ω : Type} [MeasurableSpace Ω] {ν : Measure Ω} [IsFiniteMeasure ν] {ρ : Ω → Conf p.L.toNat (sites p) × σ}
    {s : Ω → ℕ → Fin (sites p) → Fin 2} {X expX : Ω → ℕ → Fin (sites p) → ℝ}
    (hst : Start (sys.withRng rng) (phOf p) (Measure.dirac 0) p.L.toNat P ν ρ s X expX) :
    let su := fun n : ℕ => mkSetup mc { p with nsampl := n } fnbase
    ∃ R : ℕ → Ω → LoopResult (State σ (sites p) MeasData),
      (∀ n : ℕ, ∀ᵐ ω ∂ν, simulate (sys.withRng rng) (su n).ph (su n).cfg (fun _ => false) 0 (ρ ω).2 (s ω) (X ω) (expX ω)
        cnt (MeasData.allocate (su n).maxNsampl) = some (R n ω)) ∧
      (0 < p.neqlt → p.neqlt ≤ p.L → EqLocal p.Nx.toNat p.Ny.toNat p.Norb.toNat p.pbcShift 0
        (fun X => holsteinMean p (Measure.dirac 0) p.L.toNat 0 (fun _ => 1) X 1) fun f z v =>
        TendstoInMeasure ν (fun n ω => (R n ω).state.meas.eq.arr f z / (R n ω).state.meas.eq.sign) Filter.atTop fun _ => v) ∧
      (0 < p.nuneqlt → UneqLocal p.Nx.toNat p.Ny.toNat p.Norb.toNat p.L.toNat p.pbcShift 0
        (p.Nx.toNat = 1 ↔ p.Ny.toNat = 1) (fun l X Y => holsteinMean p (Measure.dirac 0) p.L.toNat l (fun _ => 1) X Y)
        fun f z v => TendstoInMeasure ν (fun n ω => (R n ω).state.meas.uneq.arr f z / (R n ω).state.meas.uneq.sign)
          Filter.atTop fun _ => v) := by
  intro su
  have h2 := hv.nx
  have h3 := hv.ny
  obtain ⟨R, h1, h4, h5⟩ := program_converges_ph hmc hv hg hN hmv fnbase rng hlaw hP sys hsys cnt hst
  exact ⟨R, h1, fun hc hcL => (holstein_local p (by omega) (by omega) _ _ True).1 _ (h4 hc hcL).1,
    fun hc => (holstein_local p (by omega) (by omega) _ _ _).2 _ (h5 hc)⟩

end program

/-- non-vacuity: on the 4×3 lattice with twist 1 and two orbitals a translation by one row takes site 9 to site 2 and site 21
to site 14: the top row is mapped to the bottom row with a shift by one column -/
example : shiftSite (N := 24) (Nx := 4) (Ny := 3) (Norb := 2) (by norm_num) (by norm_num) (by norm_num) 1 0 1 9 = 2 ∧
    shiftSite (N := 24) (Nx := 4) (Ny := 3) (Norb := 2) (by norm_num) (by norm_num) (by norm_num) 1 0 1 21 = 14 := by
  decide

end Verif.MonteCarlo
