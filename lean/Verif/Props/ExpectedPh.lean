import Verif.Props.Holstein
import Verif.Props.ExpectedUneq
import Verif.Props.MeasurementPh

/-! # Property C78: the expected results of a run with phonons are path integrals -/

set_option autoImplicit false

namespace Verif.MonteCarlo

open Matrix MeasureTheory Verif.Lapack Verif.TimeFlow Verif.Fock Verif.Greens Verif.GreensUneq Verif.Measurement
open Verif.Main Verif.Progress Verif.Lattice

variable {σ : Type} {N : ℕ}

/-! ## Specification -/

/-- the accumulated phonon quantities (except `X_avg_sq`, which does not contain the sign) -/
def phFields : List PhF := [.xAvg, .xSqAvg, .vAvg, .vSqAvg, .pe, .ke, .nX]

/-- expectation values which belong to the phonon measurements for orbital `o`; `T F X` stands for the expectation value
of the function `F` of the path and the operator `X` at slice 0.  The term `Norb/(2 dt)` of the kinetic energy goes to the
first orbital (see C60). -/
noncomputable def phValue [NeZero N] (Norb Ncell L : ℕ) (dt : ℝ) (omega : ℕ → ℝ) (T : (Paths L N → ℝ) → Op (Mode N) → ℝ)
    (o : ℕ) : PhF → ℝ
  | .xAvg => cellAvg Ncell fun c => T (fun x => extendX x 0 (siteN N Ncell o c)) 1
  | .xSqAvg => cellAvg Ncell fun c => T (fun x => extendX x 0 (siteN N Ncell o c) ^ 2) 1
  | .vSqAvg => cellAvg Ncell fun c =>
      T (fun x => ((extendX x 1 (siteN N Ncell o c) - extendX x 0 (siteN N Ncell o c)) / dt) ^ 2) 1
  | .pe => cellAvg Ncell fun c => T (fun x => omega o ^ 2 / 2 * extendX x 0 (siteN N Ncell o c) ^ 2) 1
  | .ke => cellAvg Ncell fun c => T (fun x => (if o = 0 then Norb / (2 * dt) else 0)
      - ((extendX x 1 (siteN N Ncell o c) - extendX x 0 (siteN N Ncell o c)) / dt) ^ 2 / 2) 1
  | .nX => cellAvg Ncell fun c => T (fun x => extendX x (L - 1) (siteN N Ncell o c))
      (opOf (nOp true (siteN N Ncell o c)) + opOf (nOp false (siteN N Ncell o c)))
  | _ => 0

/-! ## The exact Green's functions of a configuration -/

section exact

variable {M : Type} {sys : Sys σ N M} {ph : Phonon} {L : ℕ}

/-- the Green's functions of a configuration -/
noncomputable def greenPh (sys : Sys σ N M) (ph : Phonon) (L l : ℕ) (expV : Fin 2 → ℕ → ℝ) (x : Conf L N) : Mat N :=
  (1 + cyclicProd (sys.fieldB expV (Fock.extend x.1) (sys.expOf ph (extendX x.2))) L l)⁻¹

/-- the time dependent Green's functions of a configuration -/
noncomputable def timeGreenPh (sys : Sys σ N M) (ph : Phonon) (L : ℕ) (expV : Fin 2 → ℕ → ℝ) (x : Conf L N) : TimeG N :=
  exactG (sys.fieldB expV (Fock.extend x.1) (sys.expOf ph (extendX x.2))) L

theorem fieldB_restrict (expV : Fin 2 → ℕ → ℝ) (s : ℕ → Fin N → Fin 2) (X : ℕ → Fin N → ℝ) {k : ℕ} (hk : k < L) :
    sys.fieldB expV (Fock.extend (fieldOf L s)) (sys.expOf ph (extendX (pathsOf L X))) k
      = sys.fieldB expV s (sys.expOf ph X) k := by
  unfold Sys.fieldB Sys.expOf
  simp only [extend_fieldOf s k hk, extendX_pathsOf X k hk]

theorem cyclic_restrict_ph (expV : Fin 2 → ℕ → ℝ) (s : ℕ → Fin N → Fin 2) (X : ℕ → Fin N → ℝ) (l : ℕ) :
    cyclicProd (sys.fieldB expV (Fock.extend (fieldOf L s)) (sys.expOf ph (extendX (pathsOf L X)))) L l
      = cyclicProd (sys.fieldB expV s (sys.expOf ph X)) L l :=
  prodSeq_congr fun _ _ => fieldB_restrict expV s X (Nat.mod_lt _ (by omega))

theorem exact_sign_ph {s : ℕ → Fin N → Fin 2} {X : ℕ → Fin N → ℝ} {l : ℕ} (hl : l ≤ L) {Gu Gd : GreensFn N}
    (h : Exact sys L (sys.expOf ph X) s l Gu Gd) :
    ((Gu.sgndet * Gd.sgndet : ℤ) : ℝ) = sgnPh sys ph L (fieldOf L s, pathsOf L X) := by
  have key : ∀ (expV : Fin 2 → ℕ → ℝ) (G : GreensFn N), GoodG (sys.fieldB expV s (sys.expOf ph X)) L l G →
      (G.sgndet : ℝ) = SignType.sign (1 + sys.flow expV L (Fock.extend (fieldOf L s))
        (sys.expOf ph (extendX (pathsOf L X)))).det := by
    intro expV G hG
    rw [(det_record_unique hG.det hG.sgn).2, det_nonsing_inv, Ring.inverse_eq_inv', det_cyclic _ hl]
    unfold Sys.flow
    rw [cyclic_restrict_ph]
    generalize (1 + cyclicProd (sys.fieldB expV s (sys.expOf ph X)) L 0).det = d
    rcases lt_trichotomy d 0 with h | h | h
    · rw [sign_neg h, sign_neg (inv_lt_zero.2 h)]
    · rw [h, _root_.inv_zero]
    · rw [sign_pos h, sign_pos (inv_pos.2 h)]
  unfold sgnPh signed
  rw [sign_mul, SignType.coe_mul, Int.cast_mul, key _ _ h.up, key _ _ h.down]

theorem exact_mats_ph {s : ℕ → Fin N → Fin 2} {X : ℕ → Fin N → ℝ} {l : ℕ} {Gu Gd : GreensFn N}
    (h : Exact sys L (sys.expOf ph X) s l Gu Gd) :
    Gu.mat = greenPh sys ph L l sys.hs.expVu (fieldOf L s, pathsOf L X) ∧
      Gd.mat = greenPh sys ph L l sys.hs.expVd (fieldOf L s, pathsOf L X) := by
  unfold greenPh
  rw [cyclic_restrict_ph, cyclic_restrict_ph]
  exact ⟨h.up.mat, h.down.mat⟩

theorem compute_exact_ph [NeZero N] {len : ℕ} {alg : BlockCyclic.QRs N} {tau : BlockCyclic.Buf} {old : GreensUneq.Arrays}
    {expV : Fin 2 → ℕ → ℝ} {s : ℕ → Fin N → Fin 2} {X : ℕ → Fin N → ℝ} {tsm : TSM N}
    {G : GreensFn N} (hi : SpinInv (sys.fieldB expV s (sys.expOf ph X)) L len 0 tsm G) {A : GreensUneq.Arrays}
    (h : compute alg tsm L tau old = some A) :
    A.toCur N L = (timeGreenPh sys ph L expV (fieldOf L s, pathsOf L X)).cur L := by
  have e : tsm.L = L := hi.td.hL
  have hf : TimeFlow.Fresh tsm := fun k hk => hi.fresh k hk (by
    rintro ⟨-, h0⟩
    exact h0 (Nat.zero_mod _))
  have hnum : 2 ≤ tsm.numBprod := by
    by_contra hc
    have hnum := hi.td.dims.num
    have h1 : tsm.numBprod = 1 := by omega
    rw [compute_one alg (Nat.pos_of_ne_zero (NeZero.ne N)) _ h1] at h
    cases h
  have hdet : (1 + TimeFlow.cyclicProd tsm.B tsm.L 0).det ≠ 0 := by
    have : TimeFlow.cyclicProd tsm.B tsm.L 0 = TimeFlow.cyclicProd (sys.fieldB expV s (sys.expOf ph X)) L 0 := by
      rw [hi.td.hL]
      exact TimeFlow.prodSeq_congr fun k hk => (hi.mats _ (Nat.mod_lt _ (by omega))).1
    rw [this]
    exact hi.good.det_ne
  obtain ⟨A', a1, a2⟩ := GreensUneq.compute_toCur alg tsm hi.td.dims hf hnum
    (fun l hl => (hi.mats l (hi.td.hL ▸ hl)).2) hdet tau old
  rw [e] at a1 a2
  obtain rfl := Option.some.inj (a1.symm.trans h)
  rw [a2]
  refine exactG_cur fun l hl => ?_
  rw [(hi.mats l hl).1, fieldB_restrict expV s X hl]

end exact

/-! ## Values of the estimators -/

/-- the estimates of a phonon measurement at slice `l`, where `U`, `D` are the Green's functions -/
noncomputable def phSpec [NeZero N] (Norb Ncell L : ℕ) (dt : ℝ) (omega : ℕ → ℝ) (o l : ℕ) (U D : Mat N) (X : ℕ → Fin N → ℝ) :
    PhF → ℝ
  | .xAvg => fieldMean Ncell L o X
  | .xSqAvg => fieldMean Ncell L o fun l i => X l i ^ 2
  | .vSqAvg => fieldMean Ncell L o fun l i => velocity L dt X l i ^ 2
  | .pe => fieldMean Ncell L o fun l i => omega o ^ 2 / 2 * X l i ^ 2
  | .ke => fieldMean Ncell L o fun l i => (if o = 0 then Norb / (2 * dt) else 0) - velocity L dt X l i ^ 2 / 2
  | .nX => cellAvg Ncell fun c => ((equalTime U D).mean (nOp true (siteN N Ncell o c))
      + (equalTime U D).mean (nOp false (siteN N Ncell o c))) * X l (siteN N Ncell o c)
  | _ => 0

section values

variable {M : Type} {sys : Sys σ N M} {ph : Phonon} {rest : Measure ℝ} [SigmaFinite rest] {L l : ℕ} {Norb : ℕ} {K : Mat N}
  {U : ℕ → ℝ}

/-- an estimator which is an expectation value for every configuration -/
theorem HasVal.of_expect (h : Sound sys ph rest L) (hD : Describes sys Norb K U ph.dt) (hl : l ≤ L) {X Y : Op (Mode N)}
    {F : Paths L N → ℝ} (hF : Tame F) {O : Conf L N → ℝ}
    (hO : ∀ s x, signed sys L (Fock.extend s) (sys.expOf ph (extendX x)) ≠ 0 →
      O (s, x) = (let Bu := sys.fieldB sys.hs.expVu (Fock.extend s) (sys.expOf ph (extendX x))
        let Bd := sys.fieldB sys.hs.expVd (Fock.extend s) (sys.expOf ph (extendX x))
        expect (gamma (both (seg Bu L l) (seg Bd L l))) (gamma (both (prodSeq Bu l) (prodSeq Bd l))) X Y) * F x) :
    HasVal sys ph rest U L O (holstein sys ph rest K U L l F X Y) := by
  refine HasVal.of_trace h hD hl hF fun s x hne => ?_
  rw [hO s x hne, ← mul_assoc]
  exact congrArg (· * F x) (expect_signed sys _ hl _ hne X Y)

theorem expect_one (E : ℕ → Fin N → ℝ) (hl : l ≤ L) (s : ℕ → Fin N → Fin 2) (hne : signed sys L s E ≠ 0) :
    expect (gamma (both (seg (sys.fieldB sys.hs.expVu s E) L l) (seg (sys.fieldB sys.hs.expVd s E) L l)))
      (gamma (both (prodSeq (sys.fieldB sys.hs.expVu s E) l) (prodSeq (sys.fieldB sys.hs.expVd s E) l))) 1 1 = 1 := by
  have e : (gamma (both (seg (sys.fieldB sys.hs.expVu s E) L l) (seg (sys.fieldB sys.hs.expVd s E) L l)) *
      gamma (both (prodSeq (sys.fieldB sys.hs.expVu s E) l) (prodSeq (sys.fieldB sys.hs.expVd s E) l))).trace
      = signed sys L s E := by
    rw [total_trace, both_mul, ← seg_zero, ← seg_zero, seg_mul _ (Nat.zero_le _) hl,
      seg_mul _ (Nat.zero_le _) hl, seg_zero, seg_zero, one_add_both, both_det, ← flow_eq, ← flow_eq]
    rfl
  unfold expect
  rw [mul_one, mul_one, e]
  exact div_self hne

/-- functions of the path alone -/
theorem HasVal.path (h : Sound sys ph rest L) (hD : Describes sys Norb K U ph.dt) {F : Paths L N → ℝ} (hF : Tame F) :
    HasVal sys ph rest U L (fun x => F x.2) (holstein sys ph rest K U L 0 F 1 1) := by
  refine HasVal.of_expect h hD (Nat.zero_le _) hF fun s x hne => ?_
  simp only
  rw [expect_one _ (Nat.zero_le _) _ hne, one_mul]

/-- estimators at equal times, times a function of the path -/
theorem eq_vals (h : Sound sys ph rest L) (hD : Describes sys Norb K U ph.dt) (hl : l ≤ L) {F : Paths L N → ℝ} (hF : Tame F) :
    let P := fun x : Conf L N => equalTime (greenPh sys ph L l sys.hs.expVu x) (greenPh sys ph L l sys.hs.expVd x)
    (∀ X Y : OneBody N, HasVal sys ph rest U L (fun x => (P x).corr X Y * F x.2)
      (holstein sys ph rest K U L l F (opOf X * opOf Y) 1)) ∧
    (∀ X : OneBody N, HasVal sys ph rest U L (fun x => (P x).mean X * F x.2) (holstein sys ph rest K U L l F (opOf X) 1)) ∧
    (∀ X Y : PairOp N, HasVal sys ph rest U L (fun x => (P x).pairCorr X Y * F x.2)
      (holstein sys ph rest K U L l F (pairOf X * (pairOf Y)ᵀ) 1)) := by
  intro P
  refine ⟨fun X Y => ?_, fun X => ?_, fun X Y => ?_⟩
  · exact HasVal.of_expect h hD hl hF fun s x hne => congrArg (· * F x) ((equal_expect sys _ hl _ hne).1 X Y)
  · exact HasVal.of_expect h hD hl hF fun s x hne => congrArg (· * F x) ((equal_expect sys _ hl _ hne).2.1 X)
  · exact HasVal.of_expect h hD hl hF fun s x hne => congrArg (· * F x) ((equal_expect sys _ hl _ hne).2.2 X Y)

variable [NeZero L]

/-- an equal time expectation value does not depend on the slice -/
theorem holstein_slice (hl : l ≤ L) (X : Op (Mode N)) :
    holstein sys ph rest K U L l (fun _ => 1) X 1 = holstein sys ph rest K U L 0 (fun _ => 1) X 1 :=
  holstein_rot hl (fun _ => 1) X

theorem eq_vals_one (h : Sound sys ph rest L) (hD : Describes sys Norb K U ph.dt) (hl : l ≤ L) :
    let T := fun X => holstein sys ph rest K U L 0 (fun _ => 1) X 1
    let P := fun x : Conf L N => equalTime (greenPh sys ph L l sys.hs.expVu x) (greenPh sys ph L l sys.hs.expVd x)
    (∀ X Y : OneBody N, HasVal sys ph rest U L (fun x => (P x).corr X Y) (T (opOf X * opOf Y))) ∧
    (∀ X : OneBody N, HasVal sys ph rest U L (fun x => (P x).mean X) (T (opOf X))) ∧
    (∀ X Y : PairOp N, HasVal sys ph rest U L (fun x => (P x).pairCorr X Y) (T (pairOf X * (pairOf Y)ᵀ))) := by
  have := eq_vals (rest := rest) h hD hl (Tame.const (L := L) (N := N) 1)
  simp only [mul_one, holstein_slice hl] at this
  exact this

theorem dens_val (h : Sound sys ph rest L) (hD : Describes sys Norb K U ph.dt) (hl : l ≤ L) (a : Fin N) (f : EqF)
    (hf : f ∈ [EqF.densityU, .densityD, .doubleocc]) :
    HasVal sys ph rest U L (fun x => densSpec (equalTime (greenPh sys ph L l sys.hs.expVu x)
      (greenPh sys ph L l sys.hs.expVd x)) a f) (holstein sys ph rest K U L 0 (fun _ => 1) (densOp a f) 1) := by
  obtain ⟨h1, h2, -⟩ := eq_vals_one (rest := rest) h hD hl
  fin_cases hf
  · exact h2 _
  · exact h2 _
  · exact h1 _ _

theorem corr_val (h : Sound sys ph rest L) (hD : Describes sys Norb K U ph.dt) (hl : l ≤ L) (a b : Fin N) (f : EqF)
    (hf : f ∈ [EqF.uu, .dd, .zz, .xx, .ud]) :
    HasVal sys ph rest U L (fun x => corrSpec (equalTime (greenPh sys ph L l sys.hs.expVu x)
      (greenPh sys ph L l sys.hs.expVd x)) a b f) (holstein sys ph rest K U L 0 (fun _ => 1) (corrOp a b f) 1) := by
  obtain ⟨h1, -, -⟩ := eq_vals_one (rest := rest) h hD hl
  fin_cases hf
  · exact h1 _ _
  · exact h1 _ _
  · exact h1 _ _
  · exact h1 _ _
  · unfold corrOp corrSpec
    rw [holstein_add h hD (Nat.zero_le _) (Tame.const 1)]
    exact (h1 _ _).add (h1 _ _)

theorem pair_val [NeZero N] (h : Sound sys ph rest L) (hD : Describes sys Norb K U ph.dt) (hl : l ≤ L) (Nx Ny : ℕ) (t : ℤ)
    (o c c' : ℕ) (f : EqF) (hf : f ∈ [EqF.scSw, .scDw, .scSx]) :
    HasVal sys ph rest U L (fun x => pairSpec (equalTime (greenPh sys ph L l sys.hs.expVu x)
      (greenPh sys ph L l sys.hs.expVd x)) Nx Ny t o c c' f)
      (holstein sys ph rest K U L 0 (fun _ => 1) (pairsOp Nx Ny t o c c' f) 1) := by
  obtain ⟨-, -, h3⟩ := eq_vals_one (rest := rest) h hD hl
  fin_cases hf
  · exact h3 _ _
  · exact h3 _ _
  · exact h3 _ _

omit [NeZero L] in
/-- the Green's function at slice `l` -/
theorem green_val_at (h : Sound sys ph rest L) (hD : Describes sys Norb K U ph.dt) (hl : l ≤ L) (a b : Fin N) (sp : Bool) :
    HasVal sys ph rest U L (fun x => spinG (greenPh sys ph L l sys.hs.expVu x) (greenPh sys ph L l sys.hs.expVd x)
      (a, sp) (b, sp)) (holstein sys ph rest K U L l (fun _ => 1) (ann (a, sp) * cre (b, sp)) 1) := by
  refine HasVal.of_expect h hD hl (Tame.const 1) fun s x hne => ?_
  simp only [mul_one]
  have e := eq_sub_of_add_eq (ann_cre ((a, sp) : Mode N) (b, sp))
  have e3 : ann ((a, sp) : Mode N) * cre (b, sp)
      = (if a = b then (1 : ℝ) else 0) • (1 : Op (Mode N)) + (-1 : ℝ) • (cre (b, sp) * ann (a, sp)) := by
    rw [e]
    by_cases hab : a = b
    · simp [hab, sub_eq_add_neg]
    · simp [hab, sub_eq_add_neg]
  have e1 : opOf [((1 : ℝ), ((b, sp) : Mode N), ((a, sp) : Mode N))] = cre (b, sp) * ann (a, sp) := by
    simp [opOf]
  have h2 := (equal_expect sys (sys.expOf ph (extendX x)) hl (Fock.extend s) hne).2.1 [(1, (b, sp), (a, sp))]
  rw [e1] at h2
  have hsm : ∀ (W₂ W₁ : Op (Mode N)) (c : ℝ) (X : Op (Mode N)), expect W₂ W₁ (c • X) 1 = c * expect W₂ W₁ X 1 := by
    intro W₂ W₁ c X
    have := expect_smul W₂ W₁ X 1 c 1
    rwa [one_smul, mul_one] at this
  rw [e3, expect_add_left, hsm, hsm, expect_one _ hl _ hne, ← h2]
  simp only [Pairs.mean, equalTime, List.map_cons, List.map_nil, List.sum_cons, List.sum_nil, one_mul, add_zero,
    Prod.mk.injEq, and_true, eq_comm (a := b)]
  unfold greenPh
  ring

theorem green_val (h : Sound sys ph rest L) (hD : Describes sys Norb K U ph.dt) (hl : l ≤ L) (a b : Fin N) (sp : Bool) :
    HasVal sys ph rest U L (fun x => spinG (greenPh sys ph L l sys.hs.expVu x) (greenPh sys ph L l sys.hs.expVd x)
      (a, sp) (b, sp)) (holstein sys ph rest K U L 0 (fun _ => 1) (ann (a, sp) * cre (b, sp)) 1) := by
  rw [← holstein_slice hl]
  exact green_val_at h hD hl a b sp

/-! ### Unequal times -/

omit [NeZero L] in
theorem uneq_vals (h : Sound sys ph rest L) (hD : Describes sys Norb K U ph.dt) (hl : l ≤ L) :
    let T := holstein sys ph rest K U L l (fun _ => 1)
    let P := fun x : Conf L N => unequalTime (timeGreenPh sys ph L sys.hs.expVu x) (timeGreenPh sys ph L sys.hs.expVd x) l
    (∀ X Y : OneBody N, HasVal sys ph rest U L (fun x => (P x).corr X Y) (T (opOf X) (opOf Y))) ∧
    (∀ X Y : PairOp N, HasVal sys ph rest U L (fun x => (P x).pairCorr X Y) (T (pairOf X) (pairOf Y)ᵀ)) ∧
    (∀ a b, HasVal sys ph rest U L (fun x => (P x).greater a b) (T (ann a) (cre b))) ∧
    (∀ a b, HasVal sys ph rest U L (fun x => (P x).lesser a b) (T (cre a) (ann b))) := by
  intro T P
  have hu : ∀ (s : Field L N) (x : Paths L N), signed sys L (Fock.extend s) (sys.expOf ph (extendX x)) ≠ 0 →
      (1 + prodSeq (sys.fieldB sys.hs.expVu (Fock.extend s) (sys.expOf ph (extendX x))) L).det ≠ 0 := fun s x hne => by
    rw [← flow_eq]; exact left_ne_zero_of_mul hne
  have hd : ∀ (s : Field L N) (x : Paths L N), signed sys L (Fock.extend s) (sys.expOf ph (extendX x)) ≠ 0 →
      (1 + prodSeq (sys.fieldB sys.hs.expVd (Fock.extend s) (sys.expOf ph (extendX x))) L).det ≠ 0 := fun s x hne => by
    rw [← flow_eq]; exact right_ne_zero_of_mul hne
  refine ⟨fun X Y => ?_, fun X Y => ?_, fun a b => ?_, fun a b => ?_⟩
  · refine HasVal.of_expect h hD hl (Tame.const 1) fun s x hne => ?_
    rw [mul_one]
    exact (estimators_are_traces _ _ L (hu s x hne) (hd s x hne) l hl).1 X Y
  · refine HasVal.of_expect h hD hl (Tame.const 1) fun s x hne => ?_
    rw [mul_one]
    exact (estimators_are_traces _ _ L (hu s x hne) (hd s x hne) l hl).2.2 X Y
  · refine HasVal.of_expect h hD hl (Tame.const 1) fun s x hne => ?_
    rw [mul_one]
    exact congrArg (fun P : Pairs N => P.greater a b) (unequalTime_is_trace _ _ L (hu s x hne) (hd s x hne) l hl)
  · refine HasVal.of_expect h hD hl (Tame.const 1) fun s x hne => ?_
    rw [mul_one]
    exact congrArg (fun P : Pairs N => P.lesser a b) (unequalTime_is_trace _ _ L (hu s x hne) (hd s x hne) l hl)

omit [NeZero L] in
theorem ucorr_val (h : Sound sys ph rest L) (hD : Describes sys Norb K U ph.dt) (hl : l ≤ L) (a b : Fin N) (f : UneqF)
    (hf : f ∈ [UneqF.geqltU, .geqltD, .gtau0U, .gtau0D, .g0tauU, .g0tauD, .nn, .zz, .xx]) :
    HasVal sys ph rest U L (fun x => ucorrSpec (timeGreenPh sys ph L sys.hs.expVu x)
      (timeGreenPh sys ph L sys.hs.expVd x) l a b f)
      (uvalue (fun l => holstein sys ph rest K U L l fun _ => 1) l a b f) := by
  obtain ⟨h1, -, h4, h5⟩ := uneq_vals (rest := rest) h hD hl
  have hst : ∀ (expV : Fin 2 → ℕ → ℝ) (x : Conf L N),
      (timeGreenPh sys ph L expV x).zt 0 = (timeGreenPh sys ph L expV x).t0 0 := fun expV s =>
    (exactG_start _ L).zt.trans (exactG_start _ L).t0.symm
  have heq : ∀ (expV : Fin 2 → ℕ → ℝ) (x : Conf L N), (timeGreenPh sys ph L expV x).eq l = greenPh sys ph L l expV x := by
    intro expV s
    unfold timeGreenPh greenPh exactG
    simp only
    rw [cyclic_seg _ hl, seg_zero]
    rfl
  fin_cases hf
  · have := green_val_at (rest := rest) h hD hl a b true
    simp only [← heq] at this
    exact this
  · have := green_val_at (rest := rest) h hD hl a b false
    simp only [← heq] at this
    exact this
  · exact h4 (a, true) (b, true)
  · exact h4 (a, false) (b, false)
  · show HasVal sys ph rest U L _ (if l = 0 then _ else _)
    split
    · rename_i h0
      subst h0
      have := h4 (a, true) (b, true)
      have e : (fun x : Conf L N => ucorrSpec (timeGreenPh sys ph L sys.hs.expVu x)
          (timeGreenPh sys ph L sys.hs.expVd x) 0 a b .g0tauU)
          = fun x => (timeGreenPh sys ph L sys.hs.expVu x).t0 0 a b := funext fun x => by
        show (timeGreenPh sys ph L sys.hs.expVu x).zt 0 a b = _
        rw [hst]
      rw [e]
      exact this
    · rename_i h0
      have := (h5 (b, true) (a, true)).neg
      have e : (fun x : Conf L N => ucorrSpec (timeGreenPh sys ph L sys.hs.expVu x)
          (timeGreenPh sys ph L sys.hs.expVd x) l a b .g0tauU)
          = fun x => -(unequalTime (timeGreenPh sys ph L sys.hs.expVu x) (timeGreenPh sys ph L sys.hs.expVd x) l).lesser
            (b, true) (a, true) := funext fun x => by
        simp [unequalTime, h0, ucorrSpec, spinG]
      rw [e]
      exact this
  · show HasVal sys ph rest U L _ (if l = 0 then _ else _)
    split
    · rename_i h0
      subst h0
      have := h4 (a, false) (b, false)
      have e : (fun x : Conf L N => ucorrSpec (timeGreenPh sys ph L sys.hs.expVu x)
          (timeGreenPh sys ph L sys.hs.expVd x) 0 a b .g0tauD)
          = fun x => (timeGreenPh sys ph L sys.hs.expVd x).t0 0 a b := funext fun x => by
        show (timeGreenPh sys ph L sys.hs.expVd x).zt 0 a b = _
        rw [hst]
      rw [e]
      exact this
    · rename_i h0
      have := (h5 (b, false) (a, false)).neg
      have e : (fun x : Conf L N => ucorrSpec (timeGreenPh sys ph L sys.hs.expVu x)
          (timeGreenPh sys ph L sys.hs.expVd x) l a b .g0tauD)
          = fun x => -(unequalTime (timeGreenPh sys ph L sys.hs.expVu x) (timeGreenPh sys ph L sys.hs.expVd x) l).lesser
            (b, false) (a, false) := funext fun x => by
        simp [unequalTime, h0, ucorrSpec, spinG]
      rw [e]
      exact this
  · exact h1 _ _
  · exact h1 _ _
  · exact h1 _ _

omit [NeZero L] in
theorem upair_val [NeZero N] (h : Sound sys ph rest L) (hD : Describes sys Norb K U ph.dt) (hl : l ≤ L) (Nx Ny : ℕ) (t : ℤ)
    (o c c' : ℕ) (f : UneqF) (hf : f ∈ [UneqF.scSw, .scDw, .scSx, .jx, .jy, .b1g, .b2g]) :
    HasVal sys ph rest U L (fun x => upairSpec Nx Ny t (unequalTime (timeGreenPh sys ph L sys.hs.expVu x)
      (timeGreenPh sys ph L sys.hs.expVd x) l) o c c' f)
      (upairValue Nx Ny t (fun l => holstein sys ph rest K U L l fun _ => 1) l o c c' f) := by
  obtain ⟨h1, h3, -, -⟩ := uneq_vals (rest := rest) h hD hl
  fin_cases hf
  · exact h3 _ _
  · exact h3 _ _
  · exact h3 _ _
  · exact (h1 _ _).neg
  · exact (h1 _ _).neg
  · exact h1 _ _
  · exact h1 _ _

/-! ### Phonons -/

/-- a function of the path which starts at slice `l` -/
theorem HasVal.rotated (h : Sound sys ph rest L) (hD : Describes sys Norb K U ph.dt) (hl : l ≤ L) {F : Paths L N → ℝ}
    (hF : Tame fun x => F (rot l x)) :
    HasVal sys ph rest U L (fun x => F (rot l x.2)) (holstein sys ph rest K U L 0 F 1 1) := by
  rw [← holstein_rot hl]
  refine HasVal.of_expect h hD hl hF fun s x hne => ?_
  simp only
  rw [expect_one _ hl _ hne, one_mul]

/-- averages over the slices and cells -/
theorem HasVal.fieldMean [NeZero N] (h : Sound sys ph rest L) (hD : Describes sys Norb K U ph.dt) {n o : ℕ}
    {q : ℕ → Fin N → Paths L N → ℝ} {F : Fin N → Paths L N → ℝ} (hq : ∀ l < L, ∀ i, Tame (q l i))
    (he : ∀ l < L, ∀ i x, q l i x = F i (rot l x)) :
    HasVal sys ph rest U L (fun x => fieldMean n L o fun l i => q l i x.2)
      (Measurement.cellAvg n fun c => holstein sys ph rest K U L 0 (F (siteN N n o c)) 1 1) := by
  have hL : (L : ℝ) ≠ 0 := Nat.cast_ne_zero.2 (NeZero.ne L)
  have hv : ∀ l ∈ Finset.range L, HasVal sys ph rest U L (fun x => ∑ c ∈ Finset.range n, q l (siteN N n o c) x.2)
      (∑ c ∈ Finset.range n, holstein sys ph rest K U L 0 (F (siteN N n o c)) 1 1) := by
    intro l hl
    have hl' := Finset.mem_range.1 hl
    refine HasVal.sum _ fun c _ => ?_
    have e : (fun x : Conf L N => q l (siteN N n o c) x.2) = fun x => F (siteN N n o c) (rot l x.2) :=
      funext fun x => he l hl' _ _
    rw [e]
    refine HasVal.rotated h hD hl'.le ?_
    rw [← show q l (siteN N n o c) = fun x => F (siteN N n o c) (rot l x) from funext (he l hl' _)]
    exact hq l hl' _
  have := (HasVal.sum _ hv).smul ((n * L : ℝ)⁻¹)
  rw [Finset.sum_const, Finset.card_range, nsmul_eq_mul] at this
  unfold Measurement.cellAvg
  rw [show (∑ c ∈ Finset.range n, holstein sys ph rest K U L 0 (F (siteN N n o c)) 1 1) / n
    = (n * L : ℝ)⁻¹ * (L * ∑ c ∈ Finset.range n, holstein sys ph rest K U L 0 (F (siteN N n o c)) 1 1) by
      rw [mul_inv]; field_simp]
  have e : (fun x : Conf L N => Measurement.fieldMean n L o fun l i => q l i x.2)
      = fun x => (n * L : ℝ)⁻¹ * ∑ l ∈ Finset.range L, ∑ c ∈ Finset.range n, q l (siteN N n o c) x.2 := by
    funext x
    unfold Measurement.fieldMean
    rw [div_eq_inv_mul]
  rw [e]
  exact this

/-- the phonon measurements -/
theorem ph_val [NeZero N] (h : Sound sys ph rest L) (hD : Describes sys Norb K U ph.dt) (hL : 2 ≤ L) (hl : l < L) (n m : ℕ)
    (dt : ℝ) (omega : ℕ → ℝ) (o : ℕ) (f : PhF) (hf : f ∈ phFields) :
    HasVal sys ph rest U L (fun x => phSpec m n L dt omega o l
        (greenPh sys ph L (l + 1) sys.hs.expVu x) (greenPh sys ph L (l + 1) sys.hs.expVd x) (extendX x.2) f)
      (phValue m n L dt omega (fun F X => holstein sys ph rest K U L 0 F X 1) o f) := by
  have r0 : ∀ l < L, ∀ (i : Fin N) (x : Paths L N), extendX x l i = extendX (rot l x) 0 i := fun l hl i x => by
    rw [extendX_rot l x (by omega), Nat.add_zero, Nat.mod_eq_of_lt hl]
  have r1 : ∀ l < L, ∀ (i : Fin N) (x : Paths L N), extendX x ((l + 1) % L) i = extendX (rot l x) 1 i :=
    fun l hl i x => by rw [extendX_rot l x (by omega)]
  have tv : ∀ l, ∀ i : Fin N, Tame fun x : Paths L N => velocity L dt (extendX x) l i := fun l i => by
    unfold velocity
    have := ((Tame.coord (L := L) ((l + 1) % L) i).add ((Tame.coord l i).smul (-1))).smul dt⁻¹
    refine (congrArg Tame (funext fun x => ?_)).mp this
    rw [div_eq_inv_mul]
    ring
  fin_cases hf <;> simp only [phSpec, phValue]
  · exact HasVal.fieldMean (q := fun l i x => extendX x l i) (F := fun i x => extendX x 0 i) h hD
      (fun l _ i => Tame.coord l i) r0
  · exact HasVal.fieldMean (q := fun l i x => extendX x l i ^ 2) (F := fun i x => extendX x 0 i ^ 2) h hD
      (fun l _ i => (Tame.coord l i).pow 2) fun l hl i x => by rw [r0 l hl]
  · exact HasVal.zero
  · exact HasVal.fieldMean (q := fun l i x => velocity L dt (extendX x) l i ^ 2)
      (F := fun i x => ((extendX x 1 i - extendX x 0 i) / dt) ^ 2) h hD (fun l _ i => (tv l i).pow 2)
      fun l hl i x => by unfold velocity; rw [r0 l hl, r1 l hl]
  · exact HasVal.fieldMean (q := fun l i x => omega o ^ 2 / 2 * extendX x l i ^ 2)
      (F := fun i x => omega o ^ 2 / 2 * extendX x 0 i ^ 2) h hD
      (fun l _ i => ((Tame.coord l i).pow 2).smul _) fun l hl i x => by rw [r0 l hl]
  · refine HasVal.fieldMean (q := fun l i x => (if o = 0 then m / (2 * dt) else 0) - velocity L dt (extendX x) l i ^ 2 / 2)
      (F := fun i x => (if o = 0 then m / (2 * dt) else 0)
      - ((extendX x 1 i - extendX x 0 i) / dt) ^ 2 / 2) h hD (fun l _ i => ?_)
      fun l hl i x => by unfold velocity; rw [r0 l hl, r1 l hl]
    have := (Tame.const (L := L) (N := N) (if o = 0 then m / (2 * dt) else 0)).add (((tv l i).pow 2).smul (-(1 / 2)))
    refine (congrArg Tame (funext fun x => ?_)).mp this
    ring
  · refine HasVal.cellAvg fun c => ?_
    have e : (fun x : Paths L N => extendX x l (siteN N n o c))
        = fun x => (fun y => extendX y (L - 1) (siteN N n o c)) (rot (l + 1) x) := funext fun x => by
      simp only
      rw [extendX_rot _ x (by omega), show l + 1 + (L - 1) = l + L by omega, Nat.add_mod_right,
        Nat.mod_eq_of_lt hl]
    obtain ⟨-, h2, -⟩ := eq_vals (rest := rest) (l := l + 1) h hD hl (Tame.coord (L := L) l (siteN N n o c))
    have h3 := (h2 (nOp true (siteN N n o c))).add (h2 (nOp false (siteN N n o c)))
    rw [← holstein_add h hD (l := l + 1) hl (Tame.coord l _), e,
      holstein_rot (l := l + 1) hl fun y => extendX y (L - 1) (siteN N n o c)] at h3
    simp only [← add_mul] at h3
    exact h3

end values

/-! ## What the measurements add -/

theorem fieldMean_congr [NeZero N] {n L o : ℕ} {q q' : ℕ → Fin N → ℝ} (h : ∀ l < L, ∀ i, q l i = q' l i) :
    fieldMean n L o q = fieldMean n L o q' := by
  unfold fieldMean
  congr 1
  refine Finset.sum_congr rfl fun l hl => Finset.sum_congr rfl fun c _ => ?_
  exact h l (Finset.mem_range.1 hl) _

theorem phSpec_congr [NeZero N] {Norb Ncell L : ℕ} {dt : ℝ} {omega : ℕ → ℝ} {o l : ℕ} (hl : l < L) {U D : Mat N}
    {X Y : ℕ → Fin N → ℝ} (h : ∀ l < L, X l = Y l) (f : PhF) :
    phSpec Norb Ncell L dt omega o l U D X f = phSpec Norb Ncell L dt omega o l U D Y f := by
  have hv : ∀ l < L, ∀ i, velocity L dt X l i = velocity L dt Y l i := by
    intro l hl i
    unfold velocity
    rw [h l hl, h _ (Nat.mod_lt _ (by omega))]
  cases f <;> simp only [phSpec] <;> first
    | exact fieldMean_congr fun l hl i => by rw [h l hl]
    | exact fieldMean_congr fun l hl i => by rw [hv l hl i]
    | rw [h l hl]

theorem fieldMean_sub_const [NeZero N] {n L o : ℕ} (hn : 0 < n) (hL : 0 < L) (a : ℝ) (q : ℕ → Fin N → ℝ) :
    fieldMean n L o (fun l i => a - q l i) = a - fieldMean n L o q := by
  have h1 : (n : ℝ) ≠ 0 := Nat.cast_ne_zero.2 hn.ne'
  have h2 : (L : ℝ) ≠ 0 := Nat.cast_ne_zero.2 hL.ne'
  unfold fieldMean
  simp only [Finset.sum_sub_distrib, Finset.sum_const, Finset.card_range, nsmul_eq_mul]
  rw [sub_div]
  congr 1
  field_simp

theorem accumulatePh_spec [NeZero N] {Norb Ncell L : ℕ} (hN : N = Ncell * Norb) (Gu Gd : GreensFn N)
    (X : ℕ → Fin N → ℝ) (dt : ℝ) (omega : ℕ → ℝ) {lG : ℕ} (hl : lG < L) (m m' : PhData)
    (h : accumulatePh Norb Ncell L dt omega Gu Gd lG X m = some m') :
    m'.sign = m.sign + ((Gu.sgndet * Gd.sgndet : ℤ) : ℝ) ∧
    ∀ f ∈ phFields, ∀ o < Norb, m'.arr f o = m.arr f o +
      ((Gu.sgndet * Gd.sgndet : ℤ) : ℝ) * phSpec Norb Ncell L dt omega o lG Gu.mat Gd.mat X f := by
  have h0 : 0 < Norb := by
    rcases Nat.eq_zero_or_pos Norb with h | h
    · exact absurd hN (by rw [h, mul_zero]; exact NeZero.ne N)
    · exact h
  have hc : 0 < Ncell := by
    rcases Nat.eq_zero_or_pos Ncell with h | h
    · exact absurd hN (by rw [h, zero_mul]; exact NeZero.ne N)
    · exact h
  have hm : m.nsampl < m.maxNsampl := by
    by_contra hc
    rw [accumulatePh_overflow hN h0 Gu Gd X dt omega hl m (not_lt.1 hc)] at h
    cases h
  obtain ⟨m1, e1, -, -, es, he⟩ := accumulatePh_estimates hN Gu Gd X dt omega hl m hm
  obtain rfl := Option.some.inj (e1.symm.trans h)
  obtain ⟨m2, e2, hpe, -⟩ := phonon_energy_partial hN Gu Gd X dt omega hl m hm
  obtain rfl := Option.some.inj (e2.symm.trans h)
  obtain ⟨hk0, hk⟩ := kinetic_energy_wrong hN Gu Gd X dt omega hl m m2 hm h
  refine ⟨es, fun f hf o ho => ?_⟩
  obtain ⟨a1, a2, a3, a4, a5, -⟩ := he o ho
  fin_cases hf
  · exact a1
  · exact a2
  · simp only [phSpec, mul_zero, add_zero]
    exact a3
  · exact a4
  · refine (hpe o ho).trans ?_
    simp only [phSpec]
    rw [fieldMean_mul]
    rfl
  · simp only [phSpec]
    rw [fieldMean_sub_const hc (by omega)]
    have e3 : (fieldMean Ncell L o fun l i => velocity L dt X l i ^ 2 / 2)
        = (fieldMean Ncell L o fun l i => velocity L dt X l i ^ 2) / 2 := by
      rw [div_eq_inv_mul, ← fieldMean_mul]
      exact fieldMean_congr fun l _ i => div_eq_inv_mul _ _
    rw [e3]
    by_cases ho0 : o = 0
    · subst ho0
      have := hk0 h0
      simp only [Nat.cast_zero] at this ⊢
      rw [this, if_pos trivial]
      unfold kineticEnergy
      ring
    · rw [hk o ho ho0, if_neg ho0]
      unfold kineticEnergy
      ring
  · refine a5.trans ?_
    simp only [phSpec, cellAvg, Pairs.mean, nOp, equalTime, spinG, List.map_cons, List.map_nil, List.sum_cons, List.sum_nil,
      one_mul, add_zero, if_true, Bool.false_eq_true, if_false]

section adds

variable [NeZero N] {sys : Sys σ N MeasData} {ph : Phonon} {rest : Measure ℝ} {L len : ℕ}
  {Nx Ny Norb : ℕ} {shift : ℤ} {junk : ℤ → ℤ} {dt : ℝ} {omega : ℕ → ℝ}
  {alg : BlockCyclic.QRs N} {tau : BlockCyclic.Buf} {old : GreensUneq.Arrays}

/-- what a measurement after slice `l` does -/
theorem measure_eq (hx : 0 < Nx) (hy : 0 < Ny) (hN : N = Nx * Ny * Norb) (hs : 0 ≤ shift)
    (hm : sys.meas = realMeas Norb (Nx * Ny) L (Maps.construct Nx Ny shift junk) dt omega alg tau old)
    {s : ℕ → Fin N → Fin 2} {X : ℕ → Fin N → ℝ} {l : ℕ} {Gu Gd : GreensFn N} {m m1 m2 : MeasData} (hl : l < L)
    (he : Exact sys L (sys.expOf ph X) s (l + 1) Gu Gd) (e1 : sys.meas.eq Gu Gd m = some m1)
    (e2 : sys.meas.phonon Gu Gd l X m1 = some m2) :
    let x : Conf L N := (fieldOf L s, pathsOf L X)
    let u := greenPh sys ph L (l + 1) sys.hs.expVu x
    let d := greenPh sys ph L (l + 1) sys.hs.expVd x
    m2.uneq = m.uneq ∧ m2.eq.sign = m.eq.sign + sgnPh sys ph L x ∧ m2.ph.sign = m.ph.sign + sgnPh sys ph L x ∧
    (∃ e, Estimates Nx Ny Norb shift 0 u d e ∧ ∀ f z, m2.eq.arr f z = m.eq.arr f z + sgnPh sys ph L x * e f z) ∧
    ∀ f ∈ phFields, ∀ o < Norb, m2.ph.arr f o = m.ph.arr f o +
      sgnPh sys ph L x * phSpec Norb (Nx * Ny) L dt omega o l u d (extendX x.2) f := by
  intro x u d
  have hsg := exact_sign_ph (by omega) he
  obtain ⟨hu, hd⟩ := exact_mats_ph he
  rw [hm] at e1 e2
  simp only [realMeas, Option.map_eq_some_iff] at e1 e2
  obtain ⟨a, e1, rfl⟩ := e1
  obtain ⟨b, e2, rfl⟩ := e2
  obtain ⟨est, h1, h2⟩ := accumulateEq_estimates hx hy hN shift hs junk Gu Gd he.up.sgn he.down.sgn
  rw [h2] at e1
  obtain rfl := Option.some.inj e1
  obtain ⟨h3, h4⟩ := accumulatePh_spec hN Gu Gd X dt omega hl _ _ e2
  rw [hu, hd] at h1
  rw [hsg] at h3
  simp only [hsg]
  refine ⟨trivial, rfl, h3, ⟨est, h1, fun f z => rfl⟩, fun f hf o ho => ?_⟩
  rw [h4 f hf o ho, hsg, hu, hd, phSpec_congr hl fun k hk => (extendX_pathsOf X k hk).symm]

/-- what an unequal time measurement does -/
theorem measure_uneq (hx : 0 < Nx) (hy : 0 < Ny) (hN : N = Nx * Ny * Norb) (hs : 0 ≤ shift)
    (hm : sys.meas = realMeas Norb (Nx * Ny) L (Maps.construct Nx Ny shift junk) dt omega alg tau old)
    {st : State σ N MeasData} {m' : MeasData} (hi : PhInv sys ph L len 0 st)
    (e : sys.meas.uneq (st.Gu.sgndet * st.Gd.sgndet) st.tsmU st.tsmD st.meas = some m') :
    let x : Conf L N := (fieldOf L st.s, pathsOf L st.X)
    m'.eq = st.meas.eq ∧ m'.ph = st.meas.ph ∧ m'.uneq.sign = st.meas.uneq.sign + sgnPh sys ph L x ∧
    ∃ e, UneqEstimates Nx Ny Norb L shift 0 (Nx = 1 ↔ Ny = 1) (timeGreenPh sys ph L sys.hs.expVu x)
      (timeGreenPh sys ph L sys.hs.expVd x) e ∧
      ∀ f z, m'.uneq.arr f z = st.meas.uneq.arr f z + sgnPh sys ph L x * e f z := by
  intro x
  have hi := hi.inv
  rw [hm] at e
  simp only [realMeas, Option.bind_eq_bind] at e
  obtain ⟨a, ea, e⟩ := Option.bind_eq_some_iff.1 e
  obtain ⟨b, eb, e⟩ := Option.bind_eq_some_iff.1 e
  obtain ⟨c, ec, e⟩ := Option.bind_eq_some_iff.1 e
  obtain rfl := Option.some.inj e
  have hsg : (((st.Gu.sgndet * st.Gd.sgndet : ℤ) : ℝ)) = 1 ∨ (((st.Gu.sgndet * st.Gd.sgndet : ℤ) : ℝ)) = -1 := by
    rcases hi.up.good.sgn with h | h <;> rcases hi.down.good.sgn with h' | h' <;> simp [h, h']
  obtain ⟨est, h1, h2⟩ := accumulateUneq_estimates hx hy hN shift hs junk L (timeGreenPh sys ph L sys.hs.expVu x)
    (timeGreenPh sys ph L sys.hs.expVd x) (exactG_start _ _) (exactG_start _ _) _ hsg
  rw [compute_exact_ph hi.up ea, compute_exact_ph hi.down eb, h2] at ec
  obtain rfl := Option.some.inj ec
  have := exact_sign_ph (Nat.zero_le L) ⟨hi.up.good, hi.down.good⟩
  rw [this]
  exact ⟨rfl, rfl, rfl, est, h1, fun f z => rfl⟩

end adds

/-! ## The result -/

section result

variable [MeasurableSpace σ] {P : Measure σ} [NeZero N] {sys : Sys σ N MeasData} {ph : Phonon} {rest : Measure ℝ}
  [SigmaFinite rest] {cfg : Cfg}
  {Nx Ny Norb : ℕ} {shift : ℤ} {junk : ℤ → ℤ} {dt : ℝ} {omega : ℕ → ℝ}
  {alg : BlockCyclic.QRs N} {tau : BlockCyclic.Buf} {old : GreensUneq.Arrays} {K : Mat N} {U : ℕ → ℝ}

/-- expected value of a quantity at the end of a run whose initial configuration is distributed according to the
weights (not normalised) -/
noncomputable def expectedPh (sys : Sys σ N MeasData) (ph : Phonon) (rest : Measure ℝ) (L : ℕ) (P : Measure σ)
    (f : Conf L N × σ → ℝ) : ℝ := ∫ y, f y ∂(confDist sys ph rest L).prod P

omit [MeasurableSpace σ] [NeZero N] [SigmaFinite rest] in
theorem HasVal.integral {L : ℕ} {O : Conf L N → ℝ} {v : ℝ} (h : HasVal sys ph rest U L O v) :
    ∫ x, sgnPh sys ph L x * O x ∂confDist sys ph rest L = (stepConst (fun i => U (sys.orb i)) ph.dt ^ L)⁻¹ * v := by
  have := (pow_pos (stepConst_pos (fun i => U (sys.orb i)) ph.dt) L).ne'
  rw [← h.2, inv_mul_cancel_left₀ this]

omit [MeasurableSpace σ] [NeZero N] [SigmaFinite rest] in
theorem gain_eq_ph {q : ℕ → Conf cfg.L N → ℝ} {g : ℝ} (hq : ∀ l < cfg.L, ∫ x, q l x ∂confDist sys ph rest cfg.L = g)
    (stop : ℤ → Bool) (it : ℤ) :
    ∑ j ∈ Finset.range (iterations stop (cfg.nequil + cfg.nsampl - it).toNat it),
      iterGainPh sys ph rest cfg q (fun _ => 0) (it + j) = eqCount cfg stop it * g := by
  unfold eqCount
  rw [Nat.cast_sum, Finset.sum_mul]
  refine Finset.sum_congr rfl fun j _ => ?_
  unfold iterGainPh
  rw [integral_zero, ite_self, add_zero, Finset.card_filter, Nat.cast_sum, Finset.sum_mul]
  refine Finset.sum_congr rfl fun l hl => ?_
  unfold sliceGainPh
  split <;> rename_i hc
  · rw [hq l (Finset.mem_range.1 hl), Nat.cast_one, one_mul]
  · rw [Nat.cast_zero, zero_mul]

omit [MeasurableSpace σ] [NeZero N] [SigmaFinite rest] in
theorem gain_uneq_ph {qu : Conf cfg.L N → ℝ} (stop : ℤ → Bool) (it : ℤ) :
    ∑ j ∈ Finset.range (iterations stop (cfg.nequil + cfg.nsampl - it).toNat it),
      iterGainPh sys ph rest cfg (fun _ _ => 0) qu (it + j)
      = uneqCount cfg stop it * ∫ x, qu x ∂confDist sys ph rest cfg.L := by
  unfold uneqCount
  rw [Finset.card_filter, Nat.cast_sum, Finset.sum_mul]
  refine Finset.sum_congr rfl fun j _ => ?_
  unfold iterGainPh
  have h1 : ∀ n l, sliceGainPh sys ph rest cfg.L n (fun _ _ => 0) l = 0 := fun n l => by
    unfold sliceGainPh; rw [integral_zero, ite_self]
  simp only [h1, Finset.sum_const_zero, zero_add]
  split
  · rw [Nat.cast_one, one_mul]
  · rw [Nat.cast_zero, zero_mul]

/-- a quantity to which every measurement after a slice adds an estimate, starting at 0 -/
theorem expected_eq_ph (hP : sys.rng.Ideal N P) (hok : sys.Ok cfg.prodBlen) (hL : 2 ≤ cfg.L)
    (hd : cfg.prodBlen ∣ cfg.L) (hp : cfg.usePhonons = true) (stop : ℤ → Bool) (it : ℤ) (cnt : Counters) (meas : MeasData)
    (R : Conf cfg.L N × σ → LoopResult (State σ N MeasData))
    (hR : ∀ᵐ y ∂(confDist sys ph rest cfg.L).prod P, simulate sys ph cfg stop it y.2 (Fock.extend y.1.1) (extendX y.1.2)
      (sys.expOf ph (extendX y.1.2)) cnt meas = some (R y))
    {φ : MeasData → ℝ} (hφ : φ meas = 0) {O : ℕ → Conf cfg.L N → ℝ} {v : ℝ}
    (hO : ∀ l < cfg.L, HasVal sys ph rest U cfg.L (O l) v)
    (heq : ∀ (s : ℕ → Fin N → Fin 2) (X : ℕ → Fin N → ℝ) (l : ℕ) (Gu Gd : GreensFn N) (m m1 m2 : MeasData), l < cfg.L →
      Exact sys cfg.L (sys.expOf ph X) s (l + 1) Gu Gd → sys.meas.eq Gu Gd m = some m1 →
      sys.meas.phonon Gu Gd l X m1 = some m2 →
      φ m2 = φ m + sgnPh sys ph cfg.L (fieldOf cfg.L s, pathsOf cfg.L X) * O l (fieldOf cfg.L s, pathsOf cfg.L X))
    (hun : ∀ (st : State σ N MeasData) (m' : MeasData), PhInv sys ph cfg.L cfg.prodBlen 0 st →
      sys.meas.uneq (st.Gu.sgndet * st.Gd.sgndet) st.tsmU st.tsmD st.meas = some m' → φ m' = φ st.meas) :
    expectedPh sys ph rest cfg.L P (fun y => φ (R y).state.meas)
      = eqCount cfg stop it * ((stepConst (fun i => U (sys.orb i)) ph.dt ^ cfg.L)⁻¹ * v) := by
  have h := simulate_expected_ph (rest := rest) hP hok hL hd hp (φ := φ)
    (q := fun l x => sgnPh sys ph cfg.L x * O l x) (qu := fun _ => 0)
    ⟨heq, fun st m' hi e => by rw [hun st m' hi e, add_zero], fun l hl => (hO l hl).1, integrable_zero _ _ _⟩
    stop it cnt meas (by rw [hφ]; exact integrable_zero _ _ _) R hR
  unfold expectedPh
  rw [h, hφ, integral_zero, zero_add, gain_eq_ph fun l hl => (hO l hl).integral]

/-- a quantity to which every unequal time measurement adds an estimate, starting at 0 -/
theorem expected_uneq_ph (hP : sys.rng.Ideal N P) (hok : sys.Ok cfg.prodBlen) (hL : 2 ≤ cfg.L)
    (hd : cfg.prodBlen ∣ cfg.L) (hp : cfg.usePhonons = true) (stop : ℤ → Bool) (it : ℤ) (cnt : Counters) (meas : MeasData)
    (R : Conf cfg.L N × σ → LoopResult (State σ N MeasData))
    (hR : ∀ᵐ y ∂(confDist sys ph rest cfg.L).prod P, simulate sys ph cfg stop it y.2 (Fock.extend y.1.1) (extendX y.1.2)
      (sys.expOf ph (extendX y.1.2)) cnt meas = some (R y))
    {φ : MeasData → ℝ} (hφ : φ meas = 0) {O : Conf cfg.L N → ℝ} {v : ℝ} (hO : HasVal sys ph rest U cfg.L O v)
    (heq : ∀ (s : ℕ → Fin N → Fin 2) (X : ℕ → Fin N → ℝ) (l : ℕ) (Gu Gd : GreensFn N) (m m1 m2 : MeasData), l < cfg.L →
      Exact sys cfg.L (sys.expOf ph X) s (l + 1) Gu Gd → sys.meas.eq Gu Gd m = some m1 →
      sys.meas.phonon Gu Gd l X m1 = some m2 → φ m2 = φ m)
    (hun : ∀ (st : State σ N MeasData) (m' : MeasData), PhInv sys ph cfg.L cfg.prodBlen 0 st →
      sys.meas.uneq (st.Gu.sgndet * st.Gd.sgndet) st.tsmU st.tsmD st.meas = some m' → φ m' = φ st.meas +
        sgnPh sys ph cfg.L (fieldOf cfg.L st.s, pathsOf cfg.L st.X) * O (fieldOf cfg.L st.s, pathsOf cfg.L st.X)) :
    expectedPh sys ph rest cfg.L P (fun y => φ (R y).state.meas)
      = uneqCount cfg stop it * ((stepConst (fun i => U (sys.orb i)) ph.dt ^ cfg.L)⁻¹ * v) := by
  have h := simulate_expected_ph (rest := rest) hP hok hL hd hp (φ := φ)
    (q := fun _ _ => 0) (qu := fun x => sgnPh sys ph cfg.L x * O x)
    ⟨fun s X l Gu Gd m m1 m2 hl he e1 e2 => by rw [heq s X l Gu Gd m m1 m2 hl he e1 e2, add_zero], hun,
      fun _ _ => integrable_zero _ _ _, hO.1⟩
    stop it cnt meas (by rw [hφ]; exact integrable_zero _ _ _) R hR
  unfold expectedPh
  rw [h, hφ, integral_zero, zero_add, gain_uneq_ph, hO.integral]

theorem cellAvg_div (n : ℕ) (f : ℕ → ℝ) (z : ℝ) : cellAvg n f / z = cellAvg n fun c => f c / z := by
  unfold cellAvg
  rw [div_right_comm, Finset.sum_div]

set_option maxHeartbeats 400000 in
/-- C78, equal times and phonons: for a run with phonons with ideal random numbers, whose initial configuration is
distributed according to the weights, the quotient of the expected values of an entry of the arrays and of the sum of the
signs is the expectation value in the Hubbard-Holstein model (as a path integral over the phonon coordinates) of the
operator and the function of the phonon coordinates for which the entry stands -/
theorem expected_equal_times_ph (hP : sys.rng.Ideal N P) (hok : sys.Ok cfg.prodBlen) (hL : 2 ≤ cfg.L)
    (hd : cfg.prodBlen ∣ cfg.L) (hp : cfg.usePhonons = true) (hx : 0 < Nx) (hy : 0 < Ny) (hN : N = Nx * Ny * Norb)
    (hs : 0 ≤ shift)
    (hm : sys.meas = realMeas Norb (Nx * Ny) cfg.L (Maps.construct Nx Ny shift junk) dt omega alg tau old)
    (hD : Describes sys Norb K U ph.dt) (hS : Sound sys ph rest cfg.L)
    (stop : ℤ → Bool) (it : ℤ) (hcount : 0 < eqCount cfg stop it) (cnt : Counters) (meas : MeasData)
    (h0 : meas.eq = EqData.allocate) (h1 : ∃ n, meas.ph = PhData.allocate n)
    (R : Conf cfg.L N × σ → LoopResult (State σ N MeasData))
    (hR : ∀ᵐ y ∂(confDist sys ph rest cfg.L).prod P, simulate sys ph cfg stop it y.2 (Fock.extend y.1.1) (extendX y.1.2)
      (sys.expOf ph (extendX y.1.2)) cnt meas = some (R y)) :
    (EqThermal Nx Ny Norb shift 0 (fun X => holsteinPair sys ph rest K U cfg.L 0 (fun _ => 1) X 1) fun f z =>
      expectedPh sys ph rest cfg.L P (fun y => (R y).state.meas.eq.arr f z) /
        expectedPh sys ph rest cfg.L P (fun y => (R y).state.meas.eq.sign)) ∧
    ∀ f ∈ phFields, ∀ o < Norb,
      expectedPh sys ph rest cfg.L P (fun y => (R y).state.meas.ph.arr f o) /
        expectedPh sys ph rest cfg.L P (fun y => (R y).state.meas.ph.sign)
      = phValue Norb (Nx * Ny) cfg.L dt omega (fun F X => holsteinPair sys ph rest K U cfg.L 0 F X 1) o f := by
  have : NeZero cfg.L := ⟨by omega⟩
  obtain ⟨n1, h1⟩ := h1
  have hc : (eqCount cfg stop it : ℝ) ≠ 0 := by exact_mod_cast hcount.ne'
  have hk := (inv_pos.2 (pow_pos (stepConst_pos (fun i => U (sys.orb i)) ph.dt) cfg.L)).ne'
  have hq : ∀ a z : ℝ, (eqCount cfg stop it : ℝ) * ((stepConst (fun i => U (sys.orb i)) ph.dt ^ cfg.L)⁻¹ * a) /
      (eqCount cfg stop it * ((stepConst (fun i => U (sys.orb i)) ph.dt ^ cfg.L)⁻¹ * z)) = a / z := fun a z => by
    rw [mul_div_mul_left _ _ hc, mul_div_mul_left _ _ hk]
  have hone : ∀ l < cfg.L, HasVal sys ph rest U cfg.L (fun _ => (1 : ℝ)) (holsteinZ sys ph rest K U cfg.L) := fun l _ =>
    HasVal.path hS hD (Tame.const 1)
  have s1 : expectedPh sys ph rest cfg.L P (fun y => (R y).state.meas.eq.sign)
      = eqCount cfg stop it * ((stepConst (fun i => U (sys.orb i)) ph.dt ^ cfg.L)⁻¹ * holsteinZ sys ph rest K U cfg.L) := by
    refine expected_eq_ph (φ := fun m => m.eq.sign) hP hok hL hd hp stop it cnt meas R hR (by rw [h0]; rfl) hone
      (fun s X l Gu Gd m m1 m2 hl he e1 e2 => ?_) fun st m' hi e => ?_
    · rw [mul_one]
      exact (measure_eq hx hy hN hs hm hl he e1 e2).2.1
    · rw [(measure_uneq hx hy hN hs hm hi e).1]
  have s2 : expectedPh sys ph rest cfg.L P (fun y => (R y).state.meas.ph.sign)
      = eqCount cfg stop it * ((stepConst (fun i => U (sys.orb i)) ph.dt ^ cfg.L)⁻¹ * holsteinZ sys ph rest K U cfg.L) := by
    refine expected_eq_ph (φ := fun m => m.ph.sign) hP hok hL hd hp stop it cnt meas R hR (by rw [h1]; rfl) hone
      (fun s X l Gu Gd m m1 m2 hl he e1 e2 => ?_) fun st m' hi e => ?_
    · rw [mul_one]
      exact (measure_eq hx hy hN hs hm hl he e1 e2).2.2.1
    · rw [(measure_uneq hx hy hN hs hm hi e).2.1]
  have key : ∀ (f : EqF) (z : ℤ) (V : Mat N → Mat N → ℝ) (v : ℝ),
      (∀ U D e, Estimates Nx Ny Norb shift 0 U D e → e f z = V U D) →
      (∀ l < cfg.L, HasVal sys ph rest U cfg.L (fun x => V (greenPh sys ph cfg.L (l + 1) sys.hs.expVu x)
        (greenPh sys ph cfg.L (l + 1) sys.hs.expVd x)) v) →
      expectedPh sys ph rest cfg.L P (fun y => (R y).state.meas.eq.arr f z) /
        expectedPh sys ph rest cfg.L P (fun y => (R y).state.meas.eq.sign) = v / holsteinZ sys ph rest K U cfg.L := by
    intro f z V v hV hv
    rw [s1, expected_eq_ph (φ := fun m => m.eq.arr f z) hP hok hL hd hp stop it cnt meas R hR (by rw [h0]; rfl) hv
      (fun s X l Gu Gd m m1 m2 hl he e1 e2 => ?_) fun st m' hi e => ?_]
    · exact hq _ _
    · obtain ⟨est, h2, h3⟩ := (measure_eq hx hy hN hs hm hl he e1 e2).2.2.2.1
      rw [h3, hV _ _ _ h2]
    · rw [(measure_uneq hx hy hN hs hm hi e).1]
  have keyPh : ∀ f ∈ phFields, ∀ o < Norb, ∀ v : ℝ,
      (∀ l < cfg.L, HasVal sys ph rest U cfg.L (fun x => phSpec Norb (Nx * Ny) cfg.L dt omega o l
        (greenPh sys ph cfg.L (l + 1) sys.hs.expVu x) (greenPh sys ph cfg.L (l + 1) sys.hs.expVd x) (extendX x.2) f) v) →
      expectedPh sys ph rest cfg.L P (fun y => (R y).state.meas.ph.arr f o) /
        expectedPh sys ph rest cfg.L P (fun y => (R y).state.meas.ph.sign) = v / holsteinZ sys ph rest K U cfg.L := by
    intro f hf o ho v hv
    rw [s2, expected_eq_ph (φ := fun m => m.ph.arr f o) hP hok hL hd hp stop it cnt meas R hR (by rw [h1]; rfl) hv
      (fun s X l Gu Gd m m1 m2 hl he e1 e2 => ?_) fun st m' hi e => ?_]
    · exact hq _ _
    · exact (measure_eq hx hy hN hs hm hl he e1 e2).2.2.2.2 f hf o ho
    · rw [(measure_uneq hx hy hN hs hm hi e).2.1]
  refine ⟨⟨fun f hf o ho => ?_, fun f hf o p ho hp dx dy => ?_, fun f hf o ho dx dy => ?_, fun a b => ?_, fun a b => ?_⟩,
    fun f hf o ho => ?_⟩
  · refine (key f o (fun U D => cellAvg (Nx * Ny) fun c => densSpec (equalTime U D) (siteN N (Nx * Ny) o c) f) _
      (fun U D e he => he.dens f hf o ho) fun l hl => ?_).trans (cellAvg_div _ _ _)
    exact HasVal.cellAvg fun c => dens_val hS hD hl _ f hf
  · refine (key f _ (fun U D => cellAvg (Nx * Ny) fun c => corrSpec (equalTime U D) (siteN N (Nx * Ny) o c)
      (siteN N (Nx * Ny) p (moveCell Nx Ny shift c dx dy)) f) _
      (fun U D e he => he.corr f (by fin_cases hf <;> simp) o p ho hp dx dy) fun l hl => ?_).trans (cellAvg_div _ _ _)
    exact HasVal.cellAvg fun c => corr_val hS hD hl _ _ f hf
  · refine (key f _ (fun U D => cellAvg (Nx * Ny) fun c => pairSpec (equalTime U D) Nx Ny 0 o c
      (moveCell Nx Ny shift c dx dy) f) _ (fun U D e he => he.pair f hf o ho dx dy) fun l hl => ?_).trans (cellAvg_div _ _ _)
    exact HasVal.cellAvg fun c => pair_val hS hD hl _ _ _ _ _ _ f hf
  · exact key _ _ (fun U _ => U a b) _ (fun U D e he => he.grfunU a b) fun l hl => green_val hS hD hl a b true
  · exact key _ _ (fun _ D => D a b) _ (fun U D e he => he.grfunD a b) fun l hl => green_val hS hD hl a b false
  · refine (keyPh f hf o ho _ fun l hl => ph_val hS hD hL hl _ _ _ _ _ f hf).trans ?_
    cases f <;> simp only [phValue, holsteinPair, cellAvg_div, zero_div]

/-- C78, unequal times -/
theorem expected_unequal_times_ph (hP : sys.rng.Ideal N P) (hok : sys.Ok cfg.prodBlen) (hL : 2 ≤ cfg.L)
    (hd : cfg.prodBlen ∣ cfg.L) (hp : cfg.usePhonons = true) (hx : 0 < Nx) (hy : 0 < Ny) (hN : N = Nx * Ny * Norb)
    (hs : 0 ≤ shift)
    (hm : sys.meas = realMeas Norb (Nx * Ny) cfg.L (Maps.construct Nx Ny shift junk) dt omega alg tau old)
    (hD : Describes sys Norb K U ph.dt) (hS : Sound sys ph rest cfg.L)
    (stop : ℤ → Bool) (it : ℤ) (hcount : 0 < uneqCount cfg stop it) (cnt : Counters) (meas : MeasData)
    (h0 : meas.uneq = UneqData.allocate) (R : Conf cfg.L N × σ → LoopResult (State σ N MeasData))
    (hR : ∀ᵐ y ∂(confDist sys ph rest cfg.L).prod P, simulate sys ph cfg stop it y.2 (Fock.extend y.1.1) (extendX y.1.2)
      (sys.expOf ph (extendX y.1.2)) cnt meas = some (R y)) :
    UneqThermal Nx Ny Norb cfg.L shift 0 (Nx = 1 ↔ Ny = 1)
      (fun l X Y => holsteinPair sys ph rest K U cfg.L l (fun _ => 1) X Y) fun f z =>
      expectedPh sys ph rest cfg.L P (fun y => (R y).state.meas.uneq.arr f z) /
        expectedPh sys ph rest cfg.L P (fun y => (R y).state.meas.uneq.sign) := by
  have hc : (uneqCount cfg stop it : ℝ) ≠ 0 := by exact_mod_cast hcount.ne'
  have hk := (inv_pos.2 (pow_pos (stepConst_pos (fun i => U (sys.orb i)) ph.dt) cfg.L)).ne'
  have s1 : expectedPh sys ph rest cfg.L P (fun y => (R y).state.meas.uneq.sign)
      = uneqCount cfg stop it * ((stepConst (fun i => U (sys.orb i)) ph.dt ^ cfg.L)⁻¹ * holsteinZ sys ph rest K U cfg.L) := by
    refine expected_uneq_ph (φ := fun m => m.uneq.sign) hP hok hL hd hp stop it cnt meas R hR (by rw [h0]; rfl)
      (HasVal.path hS hD (Tame.const 1)) (fun s X l Gu Gd m m1 m2 hl he e1 e2 => ?_) fun st m' hi e => ?_
    · rw [(measure_eq hx hy hN hs hm hl he e1 e2).1]
    · rw [mul_one]
      exact (measure_uneq hx hy hN hs hm hi e).2.2.1
  have key : ∀ (f : UneqF) (z : ℤ) (V : TimeG N → TimeG N → ℝ) (v : ℝ),
      (∀ u d e, UneqEstimates Nx Ny Norb cfg.L shift 0 (Nx = 1 ↔ Ny = 1) u d e → e f z = V u d) →
      HasVal sys ph rest U cfg.L (fun x => V (timeGreenPh sys ph cfg.L sys.hs.expVu x)
        (timeGreenPh sys ph cfg.L sys.hs.expVd x)) v →
      expectedPh sys ph rest cfg.L P (fun y => (R y).state.meas.uneq.arr f z) /
        expectedPh sys ph rest cfg.L P (fun y => (R y).state.meas.uneq.sign) = v / holsteinZ sys ph rest K U cfg.L := by
    intro f z V v hV hv
    rw [s1, expected_uneq_ph (φ := fun m => m.uneq.arr f z) hP hok hL hd hp stop it cnt meas R hR (by rw [h0]; rfl) hv
      (fun s X l Gu Gd m m1 m2 hl he e1 e2 => ?_) fun st m' hi e => ?_]
    · rw [mul_div_mul_left _ _ hc, mul_div_mul_left _ _ hk]
    · rw [(measure_eq hx hy hN hs hm hl he e1 e2).1]
    · obtain ⟨est, h2, h3⟩ := (measure_uneq hx hy hN hs hm hi e).2.2.2
      rw [h3, hV _ _ _ h2]
  have ev : ∀ (l : ℕ) (a b : Fin N) (f : UneqF), uvalue (fun l => holstein sys ph rest K U cfg.L l fun _ => 1) l a b f /
      holsteinZ sys ph rest K U cfg.L
      = uvalue (fun l X Y => holsteinPair sys ph rest K U cfg.L l (fun _ => 1) X Y) l a b f := by
    intro l a b f
    cases f <;> simp only [uvalue, holsteinPair, zero_div]
    all_goals
      split
      · rfl
      · rw [neg_div]
  have ep : ∀ (l o c c' : ℕ) (f : UneqF), upairValue (N := N) Nx Ny 0 (fun l => holstein sys ph rest K U cfg.L l fun _ => 1)
      l o c c' f / holsteinZ sys ph rest K U cfg.L
      = upairValue Nx Ny 0 (fun l X Y => holsteinPair sys ph rest K U cfg.L l (fun _ => 1) X Y) l o c c' f := by
    intro l o c c' f
    cases f <;> simp only [upairValue, holsteinPair, zero_div, neg_div]
  constructor
  · intro f hf l o p hl ho hp dx dy
    refine (key f _ (fun u d => cellAvg (Nx * Ny) fun c => ucorrSpec u d l (siteN N (Nx * Ny) o c)
      (siteN N (Nx * Ny) p (moveCell Nx Ny shift c dx dy)) f) _
      (fun u d e he => he.corr f hf l o p hl ho hp dx dy)
      (HasVal.cellAvg fun c => ucorr_val hS hD hl.le _ _ f hf)).trans ?_
    rw [cellAvg_div]
    simp only [ev]
  · intro f hf hb l o hl ho dx dy
    refine (key f _ (fun u d => cellAvg (Nx * Ny) fun c => upairSpec Nx Ny 0 (unequalTime u d l) o c
      (moveCell Nx Ny shift c dx dy) f) _ (fun u d e he => he.pair f hf hb l o hl ho dx dy)
      (HasVal.cellAvg fun c => upair_val hS hD hl.le _ _ _ _ _ _ f hf)).trans ?_
    rw [cellAvg_div]
    simp only [ep]

end result

end Verif.MonteCarlo
