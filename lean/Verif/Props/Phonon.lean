import Verif.Props.MonteCarlo
import Mathlib.MeasureTheory.Measure.Haar.Unique

/-! # Sweeps with phonons: C30, C34, C35, C36, C37 -/

set_option autoImplicit false

namespace Verif.MonteCarlo

open Matrix Verif.Lapack Verif.TimeFlow Verif.Greens Verif.Stratonovich

variable {σ : Type} {N : ℕ} {M : Type}

/-! ## Specification -/

/-- specification: `exp(-dt g X)` -/
noncomputable def Sys.expOf (sys : Sys σ N M) (ph : Phonon) (X : ℕ → Fin N → ℝ) : ℕ → Fin N → ℝ :=
  fun l i => Real.exp (-ph.dt * ph.g (sys.orb i) * X l i)

/-- specification: phonon energy of the periodic path `x` of one site: potential energy
`omega^2 x^2 / 2` plus kinetic energy `(dx/dt)^2 / 2` of every slice -/
noncomputable def pathEnergy (L : ℕ) (dt omega : ℝ) (x : ℕ → ℝ) : ℝ :=
  ∑ l ∈ Finset.range L, (omega ^ 2 * x l ^ 2 / 2 + ((x ((l + 1) % L) - x l) / dt) ^ 2 / 2)

/-- specification: phonon energy of a field -/
noncomputable def Sys.energy (sys : Sys σ N M) (ph : Phonon) (L : ℕ) (X : ℕ → Fin N → ℝ) : ℝ :=
  ∑ i : Fin N, pathEnergy L ph.dt (ph.omega (sys.orb i)) fun l => X l i

/-- specification: weight of a configuration with phonons -/
noncomputable def Sys.fullWeight (sys : Sys σ N M) (ph : Phonon) (L : ℕ) (s : ℕ → Fin N → Fin 2)
    (X : ℕ → Fin N → ℝ) : ℝ :=
  sys.weight L s (sys.expOf ph X) * Real.exp (-ph.dt * sys.energy ph L X)

/-- C36: `expX` belongs to `X` -/
def Coherent (sys : Sys σ N M) (ph : Phonon) (L : ℕ) (st : State σ N M) : Prop :=
  ∀ l < L, ∀ i, st.expX l i = sys.expOf ph st.X l i

/-- field with one entry of slice `l` moved -/
noncomputable def moveLocal (X : ℕ → Fin N → ℝ) (l : ℕ) (i : Fin N) (dx : ℝ) : ℕ → Fin N → ℝ :=
  Function.update X l (Function.update (X l) i (X l i + dx))

/-- field with the path of one site replaced -/
noncomputable def movePath (L : ℕ) (X : ℕ → Fin N → ℝ) (i : Fin N) (f : ℕ → ℝ) : ℕ → Fin N → ℝ :=
  fun l k => if l < L ∧ k = i then f l else X l k

/-- invariant with phonons before slice `l` -/
structure PhInv (sys : Sys σ N M) (ph : Phonon) (L len l : ℕ) (st : State σ N M) : Prop where
  inv : Inv sys (sys.expOf ph st.X) L len l st
  coh : Coherent sys ph L st

/-- invariant with phonons inside slice `l` -/
structure PhMid (sys : Sys σ N M) (ph : Phonon) (L len l : ℕ) (st : State σ N M) : Prop where
  mid : Mid sys (sys.expOf ph st.X) L len l st
  coh : Coherent sys ph L st

/-! ## The energy change of a local update -/

theorem one_lit : (1.0 : ℝ) = 1 := by norm_num

theorem half_lit : (0.5 : ℝ) = 1 / 2 := by norm_num

/-- change of the energy of a path with at least two slices -/
theorem pathEnergy_update (L : ℕ) (hL : 2 ≤ L) (dt omega : ℝ) (x : ℕ → ℝ) (l : ℕ) (hl : l < L)
    (d : ℝ) :
    pathEnergy L dt omega (Function.update x l (x l + d)) - pathEnergy L dt omega x
      = d * (0.5 * omega ^ 2 * (d + 2 * x l)
        + 1.0 / dt ^ 2 * (d - (x ((l + 1) % L) - 2 * x l + x ((l + L - 1) % L)))) := by
  unfold pathEnergy
  rw [← Finset.sum_sub_distrib]
  set p := (l + L - 1) % L with hp
  have hpL : p < L := Nat.mod_lt _ (by omega)
  have hpv : p = if l = 0 then L - 1 else l - 1 := by
    rw [hp]
    split
    · rename_i h0
      rw [h0, Nat.zero_add]
      exact Nat.mod_eq_of_lt (by omega)
    · rw [show l + L - 1 = (l - 1) + L by omega, Nat.add_mod_right]
      exact Nat.mod_eq_of_lt (by omega)
  have hpn : (p + 1) % L = l := by
    rw [hpv]
    split
    · rw [Nat.sub_add_cancel (by omega), Nat.mod_self]; omega
    · rw [Nat.sub_add_cancel (by omega)]; exact Nat.mod_eq_of_lt hl
  have hpl : l ≠ p := by
    rw [hpv]
    split <;> omega
  have hnl : (l + 1) % L ≠ l := by
    by_cases h0 : l + 1 = L
    · rw [h0, Nat.mod_self]; omega
    · rw [Nat.mod_eq_of_lt (by omega)]; omega
  rw [Finset.sum_eq_add (a := l) (b := p) hpl]
  · rw [Function.update_self, Function.update_of_ne hnl, Function.update_of_ne hpl.symm, hpn,
      Function.update_self]
    rw [one_lit, half_lit]
    by_cases hdt : dt = 0
    · subst hdt; simp; ring
    · field_simp; ring
  · intro c hc hcc
    rw [Finset.mem_range] at hc
    have h1 : (c + 1) % L ≠ l := by
      intro h
      apply hcc.2
      rw [hpv]
      by_cases hcL : c + 1 = L
      · rw [hcL, Nat.mod_self] at h
        rw [if_pos h.symm]; omega
      · rw [Nat.mod_eq_of_lt (show c + 1 < L by omega)] at h
        rw [if_neg (by omega)]; omega
    rw [Function.update_of_ne h1, Function.update_of_ne hcc.1, sub_self]
  · intro h; exact absurd (Finset.mem_range.2 hl) h
  · intro h; exact absurd (Finset.mem_range.2 hpL) h

variable (sys : Sys σ N M) (ph : Phonon)

/-- changing one site changes only the energy of its path -/
theorem energy_change (L : ℕ) (X X' : ℕ → Fin N → ℝ) (i : Fin N)
    (h : ∀ j ≠ i, ∀ l, X' l j = X l j) :
    sys.energy ph L X' - sys.energy ph L X
      = pathEnergy L ph.dt (ph.omega (sys.orb i)) (fun l => X' l i)
        - pathEnergy L ph.dt (ph.omega (sys.orb i)) (fun l => X l i) := by
  unfold Sys.energy
  rw [← Finset.sum_sub_distrib]
  apply Finset.sum_eq_single_of_mem i (Finset.mem_univ _)
  intro j _ hj
  rw [sub_eq_zero]
  congr 1
  funext l
  exact h j hj l

theorem moveLocal_other (X : ℕ → Fin N → ℝ) (l : ℕ) (i j : Fin N) (dx : ℝ) (hj : j ≠ i) (k : ℕ) :
    moveLocal X l i dx k j = X k j := by
  unfold moveLocal
  by_cases hk : k = l
  · subst hk; rw [Function.update_self, Function.update_of_ne hj]
  · rw [Function.update_of_ne hk]

theorem moveLocal_path (X : ℕ → Fin N → ℝ) (l : ℕ) (i : Fin N) (dx : ℝ) :
    (fun k => moveLocal X l i dx k i) = Function.update (fun k => X k i) l (X l i + dx) := by
  funext k
  unfold moveLocal
  by_cases hk : k = l
  · subst hk; simp
  · rw [Function.update_of_ne hk, Function.update_of_ne hk]

/-- C34 (energy): the local energy change is the change of the total phonon energy, if there are at
least two slices -/
theorem localEnergyChange_spec (L : ℕ) (hL : 2 ≤ L) (l : ℕ) (hl : l < L) (X : ℕ → Fin N → ℝ)
    (i : Fin N) (dx : ℝ) :
    localEnergyChange sys ph L l X i dx
      = sys.energy ph L (moveLocal X l i dx) - sys.energy ph L X := by
  rw [energy_change sys ph L X _ i (fun j hj k => moveLocal_other X l i j dx hj k), moveLocal_path,
    pathEnergy_update L hL _ _ _ l hl]
  rfl

/-- C34 (counterexample): with a single slice the energy change used by the acceptance test is wrong
by `dx^2/dt^2` -/
theorem localEnergyChange_one (X : ℕ → Fin N → ℝ) (i : Fin N) (dx : ℝ) :
    localEnergyChange sys ph 1 0 X i dx
      = sys.energy ph 1 (moveLocal X 0 i dx) - sys.energy ph 1 X + dx ^ 2 / ph.dt ^ 2 := by
  rw [energy_change sys ph 1 X _ i (fun j hj k => moveLocal_other X 0 i j dx hj k), moveLocal_path]
  unfold localEnergyChange pathEnergy
  simp only [Finset.range_one, Finset.sum_singleton, Nat.mod_one, Function.update_self, one_lit,
    half_lit]
  ring

/-- hence the energy change is wrong for every non-zero displacement -/
theorem not_localEnergyChange_one (X : ℕ → Fin N → ℝ) (i : Fin N) (dx : ℝ) (hdx : dx ≠ 0)
    (hdt : ph.dt ≠ 0) :
    localEnergyChange sys ph 1 0 X i dx
      ≠ sys.energy ph 1 (moveLocal X 0 i dx) - sys.energy ph 1 X := by
  rw [localEnergyChange_one]
  intro h
  have : dx ^ 2 / ph.dt ^ 2 = 0 := by linarith
  have h2 : dx ^ 2 / ph.dt ^ 2 ≠ 0 := by positivity
  exact h2 this

/-! ## Local updates -/

variable {sys ph} {L len l : ℕ} {st : State σ N M}

theorem fieldB_moveLocal (expV : Fin 2 → ℕ → ℝ) (s : ℕ → Fin N → Fin 2) (X : ℕ → Fin N → ℝ) (l : ℕ)
    (i : Fin N) (dx : ℝ) :
    sys.fieldB expV s (sys.expOf ph (moveLocal X l i dx))
      = Function.update (sys.fieldB expV s (sys.expOf ph X)) l
        (scaleRow i (Real.exp (-ph.dt * ph.g (sys.orb i) * dx) - 1)
          (sys.fieldB expV s (sys.expOf ph X) l)) := by
  have := rowB_update sys.expK (fun l i => expV (s l i) (sys.orb i) * sys.expOf ph X l i) l i
    (Real.exp (-ph.dt * ph.g (sys.orb i) * dx) - 1)
  unfold Sys.fieldB
  refine Eq.trans ?_ this
  funext k
  congr 2
  funext a
  unfold Sys.expOf moveLocal
  by_cases hk : k = l
  · subst hk
    simp only [Function.update_self]
    by_cases ha : a = i
    · subst ha
      simp only [Function.update_self]
      rw [mul_add, Real.exp_add]
      ring
    · simp only [Function.update_of_ne ha]
  · simp only [Function.update_of_ne hk]

theorem setX_coherent (h : Coherent sys ph L st) (l : ℕ) (i : Fin N) (x : ℝ) :
    Coherent sys ph L (setX sys ph l i x st) := by
  intro k hk j
  have := h k hk j
  unfold Sys.expOf at this ⊢
  simp only [setX]
  by_cases hkl : k = l
  · subst hkl
    simp only [Function.update_self]
    by_cases hj : j = i
    · subst hj; simp only [Function.update_self]
    · simp only [Function.update_of_ne hj, this]
  · simp only [Function.update_of_ne hkl, this]

theorem PhMid.localSite (h : PhMid sys ph L len l st) (hok : sys.Ok len) (hl : l < L) (i : Fin N) :
    PhMid sys ph L len l (localSite sys ph l st i) := by
  unfold MonteCarlo.localSite
  simp only
  split
  · exact h
  · split
    · rename_i hg hacc
      have hpos := lt_trans (hok.rng.uniform_pos _) hacc
      have hne := abs_pos.1 (pos_of_mul_pos_left hpos (Real.exp_pos _).le)
      refine ⟨⟨?_, ?_⟩, setX_coherent (by exact h.coh) _ _ _⟩
      · have := fieldB_moveLocal (sys := sys) (ph := ph) sys.hs.expVu st.s st.X l i
          (((sys.rng.uniform st.rng).1 - 0.5) * ph.localBox)
        unfold moveLocal at this
        simp only [setX]
        rw [this]
        exact h.mid.up.apply hl i _ (left_ne_zero_of_mul hne)
      · have := fieldB_moveLocal (sys := sys) (ph := ph) sys.hs.expVd st.s st.X l i
          (((sys.rng.uniform st.rng).1 - 0.5) * ph.localBox)
        unfold moveLocal at this
        simp only [setX]
        rw [this]
        exact h.mid.down.apply hl i _ (right_ne_zero_of_mul hne)
    · exact ⟨⟨h.mid.up, h.mid.down⟩, h.coh⟩

/-- C34: a local phonon update is accepted exactly if the random number is less than the ratio of
the complete weights (at least two slices; for one slice see `localEnergyChange_one`) -/
theorem local_detailed_balance_partial (h : PhMid sys ph L len l st) (hL : 2 ≤ L)
    (hl : l < L) (i : Fin N) (hg : ph.g (sys.orb i) ≠ 0) :
    let r1 := sys.rng.uniform st.rng
    let dx := (r1.1 - 0.5) * ph.localBox
    let u := (sys.rng.uniform r1.2).1
    let W := sys.fullWeight ph L st.s st.X
    let W' := sys.fullWeight ph L st.s (moveLocal st.X l i dx)
    0 < W ∧
    (localSite sys ph l st i).X = (if u < W' / W then moveLocal st.X l i dx else st.X) ∧
    MeasureTheory.volume {u : ℝ | u ∈ Set.Ioc 0 1 ∧ u < W' / W} = ENNReal.ofReal (min 1 (W' / W)) ∧
    W * min 1 (W' / W) = W' * min 1 (W / W') ∧
    (localSite sys ph l st i).cnt = (let c := { st.cnt with localTotal := st.cnt.localTotal + 1 }
      if u < W' / W then { c with localAccept := c.localAccept + 1 } else c) := by
  intro r1 dx u W W'
  have hL0 : 0 < L := by omega
  have hW0 : 0 < sys.weight L st.s (sys.expOf ph st.X) :=
    Exact.weight_pos (l := l + 1) ⟨h.mid.up.good, h.mid.down.good⟩ hL0
  have hW : 0 < W := mul_pos hW0 (Real.exp_pos _)
  have hW' : 0 ≤ W' := mul_nonneg (abs_nonneg _) (Real.exp_pos _).le
  have eu := h.mid.up.good.ratio_eq hl i (Real.exp (-ph.dt * ph.g (sys.orb i) * dx) - 1)
  have ed := h.mid.down.good.ratio_eq hl i (Real.exp (-ph.dt * ph.g (sys.orb i) * dx) - 1)
  rw [← fieldB_moveLocal] at eu ed
  have hr : W' / W = |ratio st.Gu i (Real.exp (-ph.dt * ph.g (sys.orb i) * dx) - 1) *
      ratio st.Gd i (Real.exp (-ph.dt * ph.g (sys.orb i) * dx) - 1)| *
      Real.exp (-ph.dt * localEnergyChange sys ph st.tsmU.L l st.X i dx) := by
    rw [div_eq_iff hW.ne']
    simp only [W', W]
    unfold Sys.fullWeight
    rw [h.mid.up.td.hL, localEnergyChange_spec sys ph L hL l hl, weight_shift L hL0 _ _ (l + 1),
      weight_shift L hL0 _ _ (l + 1), eu, ed]
    have : ∀ a b c d e f : ℝ, |a * b * (c * d)| * Real.exp (-ph.dt * e)
        = |a * c| * Real.exp (-ph.dt * (e - f)) * (|b * d| * Real.exp (-ph.dt * f)) := by
      intro a b c d e f
      rw [show -ph.dt * e = -ph.dt * (e - f) + -ph.dt * f by ring, Real.exp_add,
        show a * b * (c * d) = (a * c) * (b * d) by ring, abs_mul]
      ring
    exact this _ _ _ _ _ _
  refine ⟨hW, ?_, accept_probability _, balance W W' hW hW', ?_⟩ <;>
  · rw [hr]
    unfold MonteCarlo.localSite
    simp only [if_neg hg]
    split <;> rfl

/-- the proposed displacements are symmetric: `dx` and `-dx` are equally likely -/
theorem proposal_symmetric (w : ℝ) (S : Set ℝ) :
    MeasureTheory.volume {u : ℝ | u ∈ Set.Ioo 0 1 ∧ (u - 0.5) * w ∈ S}
      = MeasureTheory.volume {u : ℝ | u ∈ Set.Ioo 0 1 ∧ -((u - 0.5) * w) ∈ S} := by
  have hmp := MeasureTheory.Measure.measurePreserving_sub_left MeasureTheory.volume (1 : ℝ)
  have := hmp.measure_preimage_emb (MeasurableEquiv.subLeft (1 : ℝ)).measurableEmbedding
    {u : ℝ | u ∈ Set.Ioo 0 1 ∧ (u - 0.5) * w ∈ S}
  rw [← this]
  congr 1
  ext u
  simp only [Set.mem_preimage, Set.mem_ofPred_eq, Set.mem_Ioo]
  have e : (1 - u - 0.5) * w = -((u - 0.5) * w) := by rw [half_lit]; ring
  rw [e]
  constructor
  · rintro ⟨⟨h1, h2⟩, h3⟩; exact ⟨⟨by linarith, by linarith⟩, h3⟩
  · rintro ⟨⟨h1, h2⟩, h3⟩; exact ⟨⟨by linarith, by linarith⟩, h3⟩

/-! ## A time slice -/

theorem PhMid.hsSlice (h : PhMid sys ph L len l st) (hok : sys.Ok len) (hl : l < L)
    {st' : State σ N M} (hs : hsSlice sys l st = some st') :
    PhMid sys ph L len l st' ∧ st'.X = st.X ∧ st'.cnt = st.cnt ∧ st'.meas = st.meas := by
  have hm := h.mid.hsSlice hok hl hs
  unfold MonteCarlo.hsSlice at hs
  simp only [Option.bind_eq_bind] at hs
  obtain ⟨r, -, hs⟩ := Option.bind_eq_some_iff.1 hs
  simp only [Option.pure_def, Option.some.injEq] at hs
  have key : ∀ (order : List (Fin N)) (t : State σ N M),
      (order.foldl (MonteCarlo.hsSite sys l) t).X = t.X ∧
      (order.foldl (MonteCarlo.hsSite sys l) t).expX = t.expX ∧
      (order.foldl (MonteCarlo.hsSite sys l) t).cnt = t.cnt ∧
      (order.foldl (MonteCarlo.hsSite sys l) t).meas = t.meas := by
    intro order
    induction order with
    | nil => intro t; exact ⟨rfl, rfl, rfl, rfl⟩
    | cons i order ih =>
      intro t
      obtain ⟨a, b, c, d⟩ := ih (MonteCarlo.hsSite sys l t i)
      rw [List.foldl_cons, a, b, c, d]
      unfold MonteCarlo.hsSite
      simp only
      split <;> exact ⟨rfl, rfl, rfl, rfl⟩
  obtain ⟨a, b, c, d⟩ := key r.1 { st with rng := r.2 }
  rw [hs] at a b c d
  simp only at a b c d
  refine ⟨⟨by rw [a]; exact hm, ?_⟩, a, c, d⟩
  intro k hk j
  rw [a, b]
  exact h.coh k hk j

theorem PhMid.localFold (h : PhMid sys ph L len l st) (hok : sys.Ok len) (hl : l < L)
    (sites : List (Fin N)) : PhMid sys ph L len l (sites.foldl (MonteCarlo.localSite sys ph l) st) := by
  induction sites generalizing st with
  | nil => exact h
  | cons i sites ih => exact ih (h.localSite hok hl i)

theorem localSite_meas (l : ℕ) (st : State σ N M) (i : Fin N) :
    (MonteCarlo.localSite sys ph l st i).meas = st.meas := by
  unfold MonteCarlo.localSite
  simp only
  split
  · rfl
  · split <;> rfl

theorem PhMid.localSlice (h : PhMid sys ph L len l st) (hok : sys.Ok len) (hl : l < L)
    {st' : State σ N M} (hs : localSlice sys ph l st = some st') :
    PhMid sys ph L len l st' ∧ st'.meas = st.meas := by
  unfold MonteCarlo.localSlice at hs
  simp only [Option.bind_eq_bind] at hs
  obtain ⟨r, -, hs⟩ := Option.bind_eq_some_iff.1 hs
  obtain ⟨sites, -, hs⟩ := Option.bind_eq_some_iff.1 hs
  simp only [Option.pure_def, Option.some.injEq] at hs
  subst hs
  refine ⟨PhMid.localFold (st := { st with rng := r.2 }) ⟨⟨h.mid.up, h.mid.down⟩, h.coh⟩ hok hl sites,
    ?_⟩
  have key : ∀ (sites : List (Fin N)) (t : State σ N M),
      (sites.foldl (MonteCarlo.localSite sys ph l) t).meas = t.meas := by
    intro sites
    induction sites with
    | nil => intro t; rfl
    | cons i sites ih => intro t; rw [List.foldl_cons, ih, localSite_meas]
  rw [key]

theorem Coherent.fieldB (h : Coherent sys ph L st) (expV : Fin 2 → ℕ → ℝ) (k : ℕ) (hk : k < L) :
    sys.fieldB expV st.s st.expX k = sys.fieldB expV st.s (sys.expOf ph st.X) k := by
  unfold Sys.fieldB
  simp only [h k hk]

theorem Coherent.ne (h : Coherent sys ph L st) (k : ℕ) (hk : k < L) (i : Fin N) :
    st.expX k i ≠ 0 := by
  rw [h k hk i]
  exact (Real.exp_pos _).ne'

theorem phInv_mul (hok : sys.Ok len) (h : Coherent sys ph L st) (k : ℕ) (hk : k < L) :
    sys.phB sys.hs.expVu st.s st.expX k * sys.phInvB sys.hs.expVu st.s st.expX k = 1 ∧
    sys.phB sys.hs.expVd st.s st.expX k * sys.phInvB sys.hs.expVd st.s st.expX k = 1 :=
  ⟨(phononTimeStepMatrix_inverse _ _ _ hok.expK _ _ _ hok.recipU (h.ne k hk)).2.1,
    (phononTimeStepMatrix_inverse _ _ _ hok.expK _ _ _ hok.recipD (h.ne k hk)).2.1⟩

theorem PhMid.updatePhB (h : PhMid sys ph L len l st) (hok : sys.Ok len) (hl : l < L) :
    PhInv sys ph L len (l + 1) (updatePhB sys l st) := by
  refine ⟨⟨?_, ?_⟩, h.coh⟩
  · exact h.mid.up.update (sys.phB sys.hs.expVu st.s st.expX) (sys.phInvB sys.hs.expVu st.s st.expX)
      _ ((fieldB_eq_phonon sys _ _ _ _).trans (h.coh.fieldB _ l hl)) (phInv_mul hok h.coh l hl).1
  · exact h.mid.down.update (sys.phB sys.hs.expVd st.s st.expX)
      (sys.phInvB sys.hs.expVd st.s st.expX)
      _ ((fieldB_eq_phonon sys _ _ _ _).trans (h.coh.fieldB _ l hl)) (phInv_mul hok h.coh l hl).2

/-- `P` is preserved by measurements with exact Green's functions of some configuration -/
def PhMeasInv (sys : Sys σ N M) (ph : Phonon) (L neqlt : ℕ) (P : M → Prop) : Prop :=
  ∀ (s : ℕ → Fin N → Fin 2) (X : ℕ → Fin N → ℝ) (l : ℕ) (Gu Gd : GreensFn N) (m m1 m2 : M), l < L →
    neqlt > 0 → (l + 1) % neqlt = 0 → Exact sys L (sys.expOf ph X) s (l + 1) Gu Gd → P m →
    sys.meas.eq Gu Gd m = some m1 → sys.meas.phonon Gu Gd l X m1 = some m2 → P m2

/-- C30 with phonons: one time slice -/
theorem phTimeSlice_inv [NeZero N] (hok : sys.Ok len) (hl : l < L) (noHS : Bool) (neqlt : ℕ)
    (P : M → Prop) (hP : PhMeasInv sys ph L neqlt P) {st' : State σ N M}
    (h : PhInv sys ph L len l st) (hp : P st.meas)
    (hs : phTimeSlice sys ph noHS neqlt st l = some st') :
    PhInv sys ph L len (l + 1) st' ∧ P st'.meas := by
  have hm : PhMid sys ph L len l (MonteCarlo.wrap l st) := ⟨h.inv.wrap hl, h.coh⟩
  unfold phTimeSlice at hs
  have hstep : ∃ st1, (PhMid sys ph L len l st1 ∧ st1.meas = st.meas) ∧
      ((localSlice sys ph l st1).bind fun st =>
        (maybeRecompute sys l (updatePhB sys l st)).bind fun st => measurePh sys neqlt l st)
        = some st' := by
    cases noHS
    · simp only [Option.bind_eq_bind, Bool.false_eq_true, if_false] at hs
      obtain ⟨st1, e1, hs⟩ := Option.bind_eq_some_iff.1 hs
      obtain ⟨a, -, -, b⟩ := hm.hsSlice hok hl e1
      exact ⟨st1, ⟨a, b⟩, hs⟩
    · simp only [Option.bind_eq_bind, if_true, Option.bind_some] at hs
      exact ⟨_, ⟨hm, rfl⟩, hs⟩
  obtain ⟨st1, ⟨hm1, hmeas1⟩, hs⟩ := hstep
  obtain ⟨st2, e2, hs⟩ := Option.bind_eq_some_iff.1 hs
  obtain ⟨hm2, hmeas2⟩ := hm1.localSlice hok hl e2
  have hi := hm2.updatePhB hok hl
  obtain ⟨st3, e3, hs⟩ := Option.bind_eq_some_iff.1 hs
  have h3 := maybeRecompute_eq hi.inv hok e3
  have hm3 : st3.meas = st.meas := by rw [h3, ← hmeas1, ← hmeas2]; rfl
  rw [← h3] at hi
  unfold measurePh at hs
  split at hs
  · rename_i hc
    simp only [Option.bind_eq_bind] at hs
    obtain ⟨m1, f1, hs⟩ := Option.bind_eq_some_iff.1 hs
    obtain ⟨m2, f2, hs⟩ := Option.bind_eq_some_iff.1 hs
    simp only [Option.pure_def, Option.some.injEq] at hs
    subst hs
    refine ⟨⟨⟨hi.inv.up, hi.inv.down⟩, hi.coh⟩, ?_⟩
    exact hP st3.s st3.X l _ _ _ m1 m2 hl hc.1 hc.2 ⟨hi.inv.up.good, hi.inv.down.good⟩
      (by rw [hm3]; exact hp) f1 f2
  · rw [Option.some.injEq] at hs
    subst hs
    exact ⟨hi, by rw [hm3]; exact hp⟩

theorem phSweep_inv [NeZero N] (hok : sys.Ok len) (noHS : Bool) (neqlt : ℕ)
    (P : M → Prop) (hP : PhMeasInv sys ph L neqlt P) (h : PhInv sys ph L len 0 st) (hp : P st.meas)
    (k : ℕ) (hk : k ≤ L) {st' : State σ N M}
    (hs : (List.range k).foldlM (phTimeSlice sys ph noHS neqlt) st = some st') :
    PhInv sys ph L len k st' ∧ P st'.meas := by
  induction k generalizing st' with
  | zero =>
    rw [List.range_zero, List.foldlM_nil] at hs
    cases hs
    exact ⟨h, hp⟩
  | succ k ih =>
    rw [List.range_succ, List.foldlM_append] at hs
    obtain ⟨st1, e1, e2⟩ := Option.bind_eq_some_iff.1 hs
    obtain ⟨i1, p1⟩ := ih (by omega) e1
    rw [List.foldlM_cons] at e2
    obtain ⟨st2, e3, e4⟩ := Option.bind_eq_some_iff.1 e2
    rw [List.foldlM_nil] at e4
    cases e4
    exact phTimeSlice_inv hok (by omega) noHS neqlt P hP i1 p1 e3

theorem PhInv.next (h : PhInv sys ph L len L st) : PhInv sys ph L len 0 st :=
  ⟨⟨h.inv.up.next, h.inv.down.next⟩, h.coh⟩

/-! ## Block and flip updates -/

/-- copying matrices of equal dimensions -/
theorem SpinInv.copy {B : ℕ → Mat N} {src dst : TSM N} {G G' : GreensFn N}
    (h : SpinInv B L len 0 src G) (hd : TsmDims L len dst) :
    SpinInv B L len 0 (TimeFlow.copy src dst) (Greens.copy G G') := by
  have hnum : src.numBprod = dst.numBprod := by
    have h1 := h.td.dims.mul
    have h2 := hd.dims.mul
    rw [h.td.hL, h.td.hlen] at h1
    rw [hd.hL, hd.hlen] at h2
    have hp : 0 < len := by rw [← hd.hlen]; exact hd.dims.len
    exact Nat.eq_of_mul_eq_mul_right hp (h1.symm.trans h2)
  have hB : ∀ k < L, (TimeFlow.copy src dst).B k = src.B k ∧
      (TimeFlow.copy src dst).invB k = src.invB k := by
    intro k hk
    simp only [TimeFlow.copy, h.td.hL, hk, if_true, and_self]
  refine ⟨⟨⟨hd.dims.len, hd.dims.num, hd.dims.mul⟩, hd.hL, hd.hlen⟩, ?_, ?_, h.good⟩
  · intro k hk
    rw [(hB k hk).1, (hB k hk).2]
    exact h.mats k hk
  · intro m hm _
    have hm' : m < dst.numBprod := hm
    have hms : m < src.numBprod := by rw [hnum]; exact hm'
    have hf : FreshAt src m := h.fresh m hms (by simp)
    unfold FreshAt at hf ⊢
    have e1 : (TimeFlow.copy src dst).Bprod m = src.Bprod m := by
      simp only [TimeFlow.copy, hms, if_true]
    have e2 : (TimeFlow.copy src dst).prodBlen = src.prodBlen := by
      rw [h.td.hlen]; exact hd.hlen
    rw [e1, hf, e2]
    refine prodSeq_congr fun j hj => ((hB _ ?_).1).symm
    rw [← h.td.hL, h.td.dims.mul]
    calc m * src.prodBlen + j < m * src.prodBlen + src.prodBlen := by omega
      _ = (m + 1) * src.prodBlen := by ring
      _ ≤ _ := Nat.mul_le_mul_right _ hms

/-- what a block or flip update of site `i` to the path `f` does -/
structure PathUpdate (sys : Sys σ N M) (ph : Phonon) (L len : ℕ) (kind : Kind) (i : Fin N)
    (f : ℕ → ℝ) (st st' : State σ N M) (u : ℝ) (rng' : σ) : Prop where
  pos : 0 < sys.fullWeight ph L st.s st.X
  /-- accepted: the field is moved, everything else belongs to the new field -/
  accepted : u < sys.fullWeight ph L st.s (movePath L st.X i f) / sys.fullWeight ph L st.s st.X →
    st'.X = movePath L st.X i f ∧ PhInv sys ph L len 0 st' ∧ st'.s = st.s ∧ st'.meas = st.meas ∧
    st'.rng = rng' ∧ st'.cnt = (st.cnt.attempt kind).accept kind
  /-- rejected: everything but the random state and the count of attempts is as before -/
  rejected : ¬ u < sys.fullWeight ph L st.s (movePath L st.X i f) / sys.fullWeight ph L st.s st.X →
    st' = { st with rng := rng', cnt := st.cnt.attempt kind }

theorem decide_spec [NeZero N] (hok : sys.Ok len) (kind : Kind) (i : Fin N) (f : ℕ → ℝ) (dE : ℝ)
    (h : PhInv sys ph L len 0 st) {st' : State σ N M} (r : σ)
    (hdE : dE = sys.energy ph L (movePath L st.X i f) - sys.energy ph L st.X)
    (hs : decide sys ph kind i (fun l => st.X l i) (fun l => st.expX l i) dE
      (moveX sys ph L i f { st with rng := r }) = some st') :
    PathUpdate sys ph L len kind i f st st' (sys.rng.uniform r).1 (sys.rng.uniform r).2 := by
  have hL0 : 0 < L := by
    rw [← h.inv.up.td.hL, h.inv.up.td.dims.mul]
    exact Nat.mul_pos h.inv.up.td.dims.num h.inv.up.td.dims.len
  have hd : len ∣ L := h.inv.up.td.dvd
  -- the moved state
  have hcoh : Coherent sys ph L (moveX sys ph L i f { st with rng := r }) := by
    intro k hk j
    have := h.coh k hk j
    unfold Sys.expOf at this ⊢
    simp only [moveX]
    by_cases hj : j = i
    · subst hj; simp only [hk, and_self, if_true]
    · simp only [hj, and_false, if_false, this]
  unfold MonteCarlo.decide at hs
  simp only [Option.bind_eq_bind] at hs
  obtain ⟨gu, eu, hs⟩ := Option.bind_eq_some_iff.1 hs
  obtain ⟨gd, ed, hs⟩ := Option.bind_eq_some_iff.1 hs
  have hUL : (moveX sys ph L i f { st with rng := r }).tsmU.L = L := h.inv.up.td.hL
  have hUlen : (moveX sys ph L i f { st with rng := r }).tsmU.prodBlen = len := h.inv.up.td.hlen
  have hDlen : (moveX sys ph L i f { st with rng := r }).tsmD.prodBlen = len := h.inv.down.td.hlen
  rw [hUL, hUlen] at eu
  rw [hUL, hDlen] at ed
  rw [hUL, hUlen, hDlen] at hs
  have su := (SpinInv.init L len hL0 hd sys.lp sys.junk _ _ sys.W0
    (fun k hk => (phInv_mul hok hcoh k hk).1)).2.2.2 gu eu
  have sd := (SpinInv.init L len hL0 hd sys.lp sys.junk _ _ sys.W0
    (fun k hk => (phInv_mul hok hcoh k hk).2)).2.2.2 gd ed
  have hX : (moveX sys ph L i f { st with rng := r }).X = movePath L st.X i f := rfl
  have su' := su.congr (B' := sys.fieldB sys.hs.expVu st.s (sys.expOf ph (movePath L st.X i f)))
    fun k hk => (fieldB_eq_phonon sys _ _ _ _).trans (hcoh.fieldB _ k hk)
  have sd' := sd.congr (B' := sys.fieldB sys.hs.expVd st.s (sys.expOf ph (movePath L st.X i f)))
    fun k hk => (fieldB_eq_phonon sys _ _ _ _).trans (hcoh.fieldB _ k hk)
  -- weights
  have w0 := (Exact.weight_record (sys := sys) ⟨h.inv.up.good, h.inv.down.good⟩ hL0).1
  have w1 := (Exact.weight_record (sys := sys) ⟨su'.good, sd'.good⟩ hL0).1
  have hr : sys.fullWeight ph L st.s (movePath L st.X i f) / sys.fullWeight ph L st.s st.X
      = Real.exp ((st.Gu.logdet + st.Gd.logdet) - (gu.logdet + gd.logdet) - ph.dt * dE) := by
    unfold Sys.fullWeight
    rw [w0, w1, hdE, ← Real.exp_add, ← Real.exp_add, ← Real.exp_sub]
    congr 1
    ring
  have hpos : 0 < sys.fullWeight ph L st.s st.X := by
    unfold Sys.fullWeight
    rw [w0]
    positivity
  refine ⟨hpos, ?_, ?_⟩
  · intro hu
    rw [hr] at hu
    have hc : (sys.rng.uniform (moveX sys ph L i f { st with rng := r }).rng).1
      < Real.exp (((moveX sys ph L i f { st with rng := r }).Gu.logdet
        + (moveX sys ph L i f { st with rng := r }).Gd.logdet) - (gu.logdet + gd.logdet)
        - ph.dt * dE) := hu
    rw [if_pos hc] at hs
    simp only [Option.pure_def, Option.some.injEq] at hs
    subst hs
    refine ⟨hX, ⟨⟨?_, ?_⟩, hcoh⟩, rfl, rfl, rfl, rfl⟩
    · exact su'.copy (G' := st.Gu) h.inv.up.td
    · exact sd'.copy (G' := st.Gd) h.inv.down.td
  · intro hu
    rw [hr] at hu
    have hc : ¬ (sys.rng.uniform (moveX sys ph L i f { st with rng := r }).rng).1
      < Real.exp (((moveX sys ph L i f { st with rng := r }).Gu.logdet
        + (moveX sys ph L i f { st with rng := r }).Gd.logdet) - (gu.logdet + gd.logdet)
        - ph.dt * dE) := hu
    rw [if_neg hc] at hs
    simp only [Option.pure_def, Option.some.injEq] at hs
    subst hs
    unfold restoreX moveX
    simp only [State.mk.injEq, true_and, and_true]
    constructor
    · funext k j
      by_cases hj : k < L ∧ j = i
      · rw [if_pos hj, hj.2]
      · rw [if_neg hj, if_neg hj]
    · funext k j
      by_cases hj : k < L ∧ j = i
      · rw [if_pos hj, hj.2]
      · rw [if_neg hj, if_neg hj]

theorem movePath_energy (X : ℕ → Fin N → ℝ) (i : Fin N) (f : ℕ → ℝ) (hL : 0 < L) :
    sys.energy ph L (movePath L X i f) - sys.energy ph L X
      = ∑ l ∈ Finset.range L, (ph.omega (sys.orb i) ^ 2 * (f l ^ 2 - X l i ^ 2) / 2 +
        (((f ((l + 1) % L) - f l) / ph.dt) ^ 2 - ((X ((l + 1) % L) i - X l i) / ph.dt) ^ 2) / 2)
      := by
  rw [energy_change sys ph L X _ i]
  · unfold pathEnergy
    rw [← Finset.sum_sub_distrib]
    refine Finset.sum_congr rfl fun l hl => ?_
    have hl' := Finset.mem_range.1 hl
    have hm : (l + 1) % L < L := Nat.mod_lt _ hL
    simp only [movePath, hl', hm, and_self, if_true]
    ring
  · intro j hj l
    simp only [movePath, hj, and_false, if_false]

theorem sliceSum_eq (L : ℕ) (f : ℕ → ℝ) : sliceSum L f = ∑ l ∈ Finset.range L, f l := by
  unfold sliceSum
  induction L with
  | zero => simp
  | succ L ih => rw [List.range_succ, List.map_append, List.sum_append, ih, Finset.sum_range_succ]; simp

/-- C35, block updates -/
theorem blockUpdate_spec [NeZero N] (hok : sys.Ok len) (h : PhInv sys ph L len 0 st)
    {st' : State σ N M} (hs : blockUpdate sys ph st = some st') :
    ∃ i r, sys.rng.site N st.rng = some (i, r) ∧
      (ph.g (sys.orb i) = 0 → st' = { st with rng := r }) ∧
      (ph.g (sys.orb i) ≠ 0 →
        let r1 := sys.rng.uniform r
        PathUpdate sys ph L len .block i (fun l => st.X l i + (r1.1 - 0.5) * ph.blockBox) st st'
          (sys.rng.uniform r1.2).1 (sys.rng.uniform r1.2).2) := by
  have hL0 : 0 < L := by
    rw [← h.inv.up.td.hL, h.inv.up.td.dims.mul]
    exact Nat.mul_pos h.inv.up.td.dims.num h.inv.up.td.dims.len
  unfold blockUpdate at hs
  simp only [Option.bind_eq_bind] at hs
  obtain ⟨⟨i, r⟩, e1, hs⟩ := Option.bind_eq_some_iff.1 hs
  simp only at hs
  refine ⟨i, r, e1, ?_, ?_⟩
  · intro hg
    rw [if_pos hg] at hs
    simp only [Option.pure_def, Option.some.injEq] at hs
    exact hs.symm
  · intro hg
    rw [if_neg hg, h.inv.up.td.hL] at hs
    refine decide_spec hok .block i _ _ h _ ?_ hs
    rw [movePath_energy _ _ _ hL0, sliceSum_eq, Finset.sum_mul]
    refine Finset.sum_congr rfl fun l _ => ?_
    rw [half_lit]
    ring

/-- C35, flip updates -/
theorem flipUpdate_spec [NeZero N] (hok : sys.Ok len) (h : PhInv sys ph L len 0 st)
    {st' : State σ N M} (hs : flipUpdate sys ph st = some st') :
    ∃ i r, sys.rng.site N st.rng = some (i, r) ∧
      (ph.g (sys.orb i) = 0 → st' = { st with rng := r }) ∧
      (ph.g (sys.orb i) ≠ 0 →
        PathUpdate sys ph L len .flip i (fun l => 2 * ph.mu / ph.g (sys.orb i) - st.X l i) st st'
          (sys.rng.uniform r).1 (sys.rng.uniform r).2) := by
  have hL0 : 0 < L := by
    rw [← h.inv.up.td.hL, h.inv.up.td.dims.mul]
    exact Nat.mul_pos h.inv.up.td.dims.num h.inv.up.td.dims.len
  unfold flipUpdate at hs
  simp only [Option.bind_eq_bind] at hs
  obtain ⟨⟨i, r⟩, e1, hs⟩ := Option.bind_eq_some_iff.1 hs
  simp only at hs
  refine ⟨i, r, e1, ?_, ?_⟩
  · intro hg
    rw [if_pos hg] at hs
    simp only [Option.pure_def, Option.some.injEq] at hs
    exact hs.symm
  · intro hg
    rw [if_neg hg, h.inv.up.td.hL] at hs
    refine decide_spec hok .flip i _ _ h _ ?_ hs
    rw [movePath_energy _ _ _ hL0, sliceSum_eq]
    refine Finset.sum_congr rfl fun l _ => ?_
    rw [half_lit]
    ring

/-- C35: the move proposed by a flip update is an involution -/
theorem flip_involution (L : ℕ) (X : ℕ → Fin N → ℝ) (i : Fin N) (c : ℝ) :
    let X' := movePath L X i (fun l => c - X l i)
    movePath L X' i (fun l => c - X' l i) = X := by
  intro X'
  funext l k
  simp only [X', movePath]
  by_cases h : l < L ∧ k = i
  · obtain ⟨h1, rfl⟩ := h
    simp [h1]
  · rw [if_neg h, if_neg h]

/-- C35: a block move by `-dx` undoes a block move by `dx` -/
theorem block_reverse (L : ℕ) (X : ℕ → Fin N → ℝ) (i : Fin N) (dx : ℝ) :
    let X' := movePath L X i (fun l => X l i + dx)
    movePath L X' i (fun l => X' l i + -dx) = X := by
  intro X'
  funext l k
  simp only [X', movePath]
  by_cases h : l < L ∧ k = i
  · obtain ⟨h1, rfl⟩ := h
    simp [h1]
  · rw [if_neg h, if_neg h]

/-- C35: acceptance probability and detailed balance of block and flip updates -/
theorem path_detailed_balance (s : ℕ → Fin N → Fin 2) (X X' : ℕ → Fin N → ℝ)
    (hW : 0 < sys.fullWeight ph L s X) :
    let W := sys.fullWeight ph L s X
    let W' := sys.fullWeight ph L s X'
    MeasureTheory.volume {u : ℝ | u ∈ Set.Ioc 0 1 ∧ u < W' / W} = ENNReal.ofReal (min 1 (W' / W)) ∧
    W * min 1 (W' / W) = W' * min 1 (W / W') :=
  ⟨accept_probability _, balance _ _ hW (mul_nonneg (abs_nonneg _) (Real.exp_pos _).le)⟩

theorem PathUpdate.inv {kind : Kind} {i : Fin N} {f : ℕ → ℝ} {st' : State σ N M} {u : ℝ} {r : σ}
    (h : PhInv sys ph L len 0 st) (hu : PathUpdate sys ph L len kind i f st st' u r) :
    PhInv sys ph L len 0 st' ∧ st'.meas = st.meas := by
  by_cases hc : u < sys.fullWeight ph L st.s (movePath L st.X i f) / sys.fullWeight ph L st.s st.X
  · obtain ⟨-, h1, -, h2, -⟩ := hu.accepted hc
    exact ⟨h1, h2⟩
  · rw [hu.rejected hc]
    exact ⟨⟨⟨h.inv.up, h.inv.down⟩, h.coh⟩, rfl⟩

theorem blockUpdate_inv [NeZero N] (hok : sys.Ok len) (h : PhInv sys ph L len 0 st)
    {st' : State σ N M} (hs : blockUpdate sys ph st = some st') :
    PhInv sys ph L len 0 st' ∧ st'.meas = st.meas := by
  obtain ⟨i, r, -, h1, h2⟩ := blockUpdate_spec hok h hs
  by_cases hg : ph.g (sys.orb i) = 0
  · rw [h1 hg]
    exact ⟨⟨⟨h.inv.up, h.inv.down⟩, h.coh⟩, rfl⟩
  · exact (h2 hg).inv h

theorem flipUpdate_inv [NeZero N] (hok : sys.Ok len) (h : PhInv sys ph L len 0 st)
    {st' : State σ N M} (hs : flipUpdate sys ph st = some st') :
    PhInv sys ph L len 0 st' ∧ st'.meas = st.meas := by
  obtain ⟨i, r, -, h1, h2⟩ := flipUpdate_spec hok h hs
  by_cases hg : ph.g (sys.orb i) = 0
  · rw [h1 hg]
    exact ⟨⟨⟨h.inv.up, h.inv.down⟩, h.coh⟩, rfl⟩
  · exact (h2 hg).inv h

theorem iterateM_inv {α : Type} (f : α → Option α) (P : α → Prop)
    (hf : ∀ a b, P a → f a = some b → P b) (n : ℕ) (a b : α) (ha : P a)
    (h : iterateM f n a = some b) : P b := by
  induction n generalizing a with
  | zero => cases h; exact ha
  | succ n ih =>
    obtain ⟨c, e1, e2⟩ := Option.bind_eq_some_iff.1 h
    exact ih c (hf a c ha e1) e2

/-- C30 and C36 with phonons: a whole iteration with field, local, block and flip updates -/
theorem phIteration_inv [NeZero N] (hok : sys.Ok len) (noHS : Bool) (neqlt : ℕ)
    (P : M → Prop) (hP : PhMeasInv sys ph L neqlt P) (h : PhInv sys ph L len 0 st) (hp : P st.meas)
    {st' : State σ N M} (hs : phIteration sys ph noHS neqlt st = some st') :
    PhInv sys ph L len 0 st' ∧ P st'.meas := by
  unfold phIteration at hs
  simp only [Option.bind_eq_bind] at hs
  obtain ⟨st1, e1, hs⟩ := Option.bind_eq_some_iff.1 hs
  rw [h.inv.up.td.hL] at e1
  obtain ⟨i1, p1⟩ := phSweep_inv hok noHS neqlt P hP h hp L le_rfl e1
  obtain ⟨st2, e2, e3⟩ := Option.bind_eq_some_iff.1 hs
  obtain ⟨i2, p2⟩ := iterateM_inv _ (fun t => PhInv sys ph L len 0 t ∧ P t.meas)
    (fun a b ha hb => ⟨(blockUpdate_inv hok ha.1 hb).1, by
      rw [(blockUpdate_inv hok ha.1 hb).2]; exact ha.2⟩) _ _ _ ⟨i1.next, p1⟩ e2
  exact iterateM_inv _ (fun t => PhInv sys ph L len 0 t ∧ P t.meas)
    (fun a b ha hb => ⟨(flipUpdate_inv hok ha.1 hb).1, by
      rw [(flipUpdate_inv hok ha.1 hb).2]; exact ha.2⟩) _ _ _ ⟨i2, p2⟩ e3

/-- C30 and C36 with phonons, any number of iterations -/
theorem phIterations_inv [NeZero N] (hok : sys.Ok len) (noHS : Bool) (neqlts : List ℕ)
    (P : M → Prop) (hP : ∀ neqlt ∈ neqlts, PhMeasInv sys ph L neqlt P)
    (h : PhInv sys ph L len 0 st) (hp : P st.meas) {st' : State σ N M}
    (hs : neqlts.foldlM (fun st neqlt => phIteration sys ph noHS neqlt st) st = some st') :
    PhInv sys ph L len 0 st' ∧ P st'.meas := by
  induction neqlts generalizing st with
  | nil =>
    rw [List.foldlM_nil] at hs
    cases hs
    exact ⟨h, hp⟩
  | cons n ns ih =>
    rw [List.foldlM_cons] at hs
    obtain ⟨st1, e1, e2⟩ := Option.bind_eq_some_iff.1 hs
    obtain ⟨i1, p1⟩ := phIteration_inv hok noHS n P (hP n (by simp)) h hp e1
    exact ih (fun m hm => hP m (by simp [hm])) i1 p1 e2

/-- C23 with phonons: at the end of every iteration all caches are exact -/
theorem ph_caches_fresh [NeZero N] (hok : sys.Ok len) (noHS : Bool) (neqlts : List ℕ)
    (h : PhInv sys ph L len 0 st) {st' : State σ N M}
    (hs : neqlts.foldlM (fun st neqlt => phIteration sys ph noHS neqlt st) st = some st') :
    CacheExact (sys.fieldB sys.hs.expVu st'.s (sys.expOf ph st'.X)) st'.tsmU ∧
    CacheExact (sys.fieldB sys.hs.expVd st'.s (sys.expOf ph st'.X)) st'.tsmD := by
  obtain ⟨i, -⟩ := phIterations_inv hok noHS neqlts (fun _ => True)
    (fun _ _ _ _ _ _ _ _ _ _ _ _ _ _ _ _ _ => trivial) h trivial hs
  exact ⟨i.inv.up.cacheExact (dvd_zero _), i.inv.down.cacheExact (dvd_zero _)⟩

/-! ## C37 -/

/-- accepted updates never exceed attempted ones -/
structure Counters.Sane (c : Counters) : Prop where
  loc : c.localAccept ≤ c.localTotal
  block : c.blockAccept ≤ c.blockTotal
  flip : c.flipAccept ≤ c.flipTotal

/-- number of coupled sites in a list -/
noncomputable def coupled (sys : Sys σ N M) (ph : Phonon) (sites : List (Fin N)) : ℕ :=
  open Classical in (sites.filter fun i => ph.g (sys.orb i) ≠ 0).length

/-- the counters of local updates after one proposal -/
theorem localSite_counts (l : ℕ) (st : State σ N M) (i : Fin N) :
    let c := (MonteCarlo.localSite sys ph l st i).cnt
    c.localTotal = st.cnt.localTotal + coupled sys ph [i] ∧
    (c.localAccept = st.cnt.localAccept ∨
      c.localAccept = st.cnt.localAccept + 1 ∧ ph.g (sys.orb i) ≠ 0) ∧
    c.blockAccept = st.cnt.blockAccept ∧ c.blockTotal = st.cnt.blockTotal ∧
    c.flipAccept = st.cnt.flipAccept ∧ c.flipTotal = st.cnt.flipTotal := by
  unfold MonteCarlo.localSite coupled
  simp only
  by_cases hg : ph.g (sys.orb i) = 0
  · simp [hg]
  · simp only [if_neg hg]
    split <;> simp [setX, hg]

/-- counters of local updates after a list of proposals -/
theorem localFold_counts (l : ℕ) (sites : List (Fin N)) (st : State σ N M) (h : st.cnt.Sane) :
    let c := (sites.foldl (MonteCarlo.localSite sys ph l) st).cnt
    c.Sane ∧ c.localTotal = st.cnt.localTotal + coupled sys ph sites ∧
    c.blockAccept = st.cnt.blockAccept ∧ c.blockTotal = st.cnt.blockTotal ∧
    c.flipAccept = st.cnt.flipAccept ∧ c.flipTotal = st.cnt.flipTotal := by
  induction sites generalizing st with
  | nil => exact ⟨h, by simp [coupled], rfl, rfl, rfl, rfl⟩
  | cons i sites ih =>
    obtain ⟨a1, a2, a3, a4, a5, a6⟩ := localSite_counts (sys := sys) (ph := ph) l st i
    have hs1 : (MonteCarlo.localSite sys ph l st i).cnt.Sane := by
      refine ⟨?_, by rw [a3, a4]; exact h.block, by rw [a5, a6]; exact h.flip⟩
      rw [a1]
      rcases a2 with e | ⟨e, hg⟩
      · rw [e]; exact le_trans h.loc (Nat.le_add_right _ _)
      · rw [e]
        have : coupled sys ph [i] = 1 := by simp [coupled, hg]
        rw [this]
        exact Nat.add_le_add_right h.loc 1
    obtain ⟨b1, b2, b3, b4, b5, b6⟩ := ih _ hs1
    have hc : coupled sys ph (i :: sites) = coupled sys ph [i] + coupled sys ph sites := by
      unfold coupled
      rw [← List.length_append, ← List.filter_append]
      rfl
    simp only [List.foldl_cons]
    exact ⟨b1, by rw [b2, a1, hc]; ring, b3.trans a3, b4.trans a4, b5.trans a5, b6.trans a6⟩

/-- a time slice -/
theorem phTimeSlice_counts [NeZero N] (noHS : Bool) (neqlt l : ℕ) (st st' : State σ N M)
    (h : st.cnt.Sane) (hs : phTimeSlice sys ph noHS neqlt st l = some st') :
    ∃ (order : List (Fin N)) (sites : List (Fin N)),
      (∃ r r', sys.rng.shuffle N r = some (order, r')) ∧ localOrder order ph.nLocal = some sites ∧
      st'.cnt.Sane ∧ st'.cnt.localTotal = st.cnt.localTotal + coupled sys ph sites ∧
      st'.cnt.blockAccept = st.cnt.blockAccept ∧ st'.cnt.blockTotal = st.cnt.blockTotal ∧
      st'.cnt.flipAccept = st.cnt.flipAccept ∧ st'.cnt.flipTotal = st.cnt.flipTotal := by
  unfold phTimeSlice at hs
  have hstep : ∃ st1, st1.cnt = st.cnt ∧
      ((localSlice sys ph l st1).bind fun st =>
        (maybeRecompute sys l (MonteCarlo.updatePhB sys l st)).bind fun st =>
          measurePh sys neqlt l st) = some st' := by
    cases noHS
    · simp only [Option.bind_eq_bind, Bool.false_eq_true, if_false] at hs
      obtain ⟨st1, e1, hs⟩ := Option.bind_eq_some_iff.1 hs
      refine ⟨st1, ?_, hs⟩
      unfold MonteCarlo.hsSlice at e1
      simp only [Option.bind_eq_bind] at e1
      obtain ⟨r, -, e1⟩ := Option.bind_eq_some_iff.1 e1
      simp only [Option.pure_def, Option.some.injEq] at e1
      have key : ∀ (order : List (Fin N)) (t : State σ N M),
          (order.foldl (MonteCarlo.hsSite sys l) t).cnt = t.cnt := by
        intro order
        induction order with
        | nil => intro t; rfl
        | cons i order ih =>
          intro t
          rw [List.foldl_cons, ih]
          unfold MonteCarlo.hsSite
          simp only
          split <;> rfl
      rw [← e1, key]
      rfl
    · simp only [Option.bind_eq_bind, if_true, Option.bind_some] at hs
      exact ⟨MonteCarlo.wrap l st, rfl, hs⟩
  obtain ⟨st1, hc1, hs⟩ := hstep
  obtain ⟨st2, e2, hs⟩ := Option.bind_eq_some_iff.1 hs
  obtain ⟨st3, e3, hs⟩ := Option.bind_eq_some_iff.1 hs
  have h3 : st3.cnt = st2.cnt := by
    unfold maybeRecompute at e3
    split at e3
    · unfold MonteCarlo.recompute at e3
      simp only [Option.bind_eq_bind] at e3
      obtain ⟨gu, -, e3⟩ := Option.bind_eq_some_iff.1 e3
      obtain ⟨gd, -, e3⟩ := Option.bind_eq_some_iff.1 e3
      simp only [Option.pure_def, Option.some.injEq] at e3
      rw [← e3]; rfl
    · rw [← Option.some.inj e3]; rfl
  have h4 : st'.cnt = st3.cnt := by
    unfold measurePh at hs
    split at hs
    · simp only [Option.bind_eq_bind] at hs
      obtain ⟨m1, -, hs⟩ := Option.bind_eq_some_iff.1 hs
      obtain ⟨m2, -, hs⟩ := Option.bind_eq_some_iff.1 hs
      simp only [Option.pure_def, Option.some.injEq] at hs
      rw [← hs]
    · rw [← Option.some.inj hs]
  unfold MonteCarlo.localSlice at e2
  simp only [Option.bind_eq_bind] at e2
  obtain ⟨r, f1, e2⟩ := Option.bind_eq_some_iff.1 e2
  obtain ⟨sites, f2, e2⟩ := Option.bind_eq_some_iff.1 e2
  simp only [Option.pure_def, Option.some.injEq] at e2
  have := localFold_counts (sys := sys) (ph := ph) l sites { st1 with rng := r.2 }
    (by show st1.cnt.Sane; rw [hc1]; exact h)
  rw [e2] at this
  rw [← hc1, h4, h3]
  exact ⟨r.1, sites, ⟨_, r.2, f1⟩, f2, this⟩

/-- C37, block and flip updates: exactly the updates of coupled sites are counted as attempted, and
at most the attempted ones as accepted -/
theorem decide_counts [NeZero N] (kind : Kind) (i : Fin N) (a b : ℕ → ℝ) (dE : ℝ)
    (st st' : State σ N M) (hs : MonteCarlo.decide sys ph kind i a b dE st = some st') :
    st'.cnt = st.cnt.attempt kind ∨ st'.cnt = (st.cnt.attempt kind).accept kind := by
  unfold MonteCarlo.decide at hs
  simp only [Option.bind_eq_bind] at hs
  obtain ⟨gu, -, hs⟩ := Option.bind_eq_some_iff.1 hs
  obtain ⟨gd, -, hs⟩ := Option.bind_eq_some_iff.1 hs
  split at hs
  · simp only [Option.pure_def, Option.some.injEq] at hs
    exact Or.inr (by rw [← hs])
  · simp only [Option.pure_def, Option.some.injEq] at hs
    exact Or.inl (by rw [← hs]; rfl)

theorem blockUpdate_counts [NeZero N] (st st' : State σ N M)
    (hs : blockUpdate sys ph st = some st') :
    ∃ i r, sys.rng.site N st.rng = some (i, r) ∧
      (ph.g (sys.orb i) = 0 → st'.cnt = st.cnt) ∧
      (ph.g (sys.orb i) ≠ 0 → st'.cnt = st.cnt.attempt .block ∨
        st'.cnt = (st.cnt.attempt .block).accept .block) := by
  unfold blockUpdate at hs
  simp only [Option.bind_eq_bind] at hs
  obtain ⟨⟨i, r⟩, e1, hs⟩ := Option.bind_eq_some_iff.1 hs
  simp only at hs
  refine ⟨i, r, e1, fun hg => ?_, fun hg => ?_⟩
  · rw [if_pos hg] at hs
    simp only [Option.pure_def, Option.some.injEq] at hs
    rw [← hs]
  · rw [if_neg hg] at hs
    have h := decide_counts _ _ _ _ _ _ _ hs
    simpa only [moveX] using h

theorem flipUpdate_counts [NeZero N] (st st' : State σ N M)
    (hs : flipUpdate sys ph st = some st') :
    ∃ i r, sys.rng.site N st.rng = some (i, r) ∧
      (ph.g (sys.orb i) = 0 → st'.cnt = st.cnt) ∧
      (ph.g (sys.orb i) ≠ 0 → st'.cnt = st.cnt.attempt .flip ∨
        st'.cnt = (st.cnt.attempt .flip).accept .flip) := by
  unfold flipUpdate at hs
  simp only [Option.bind_eq_bind] at hs
  obtain ⟨⟨i, r⟩, e1, hs⟩ := Option.bind_eq_some_iff.1 hs
  simp only at hs
  refine ⟨i, r, e1, fun hg => ?_, fun hg => ?_⟩
  · rw [if_pos hg] at hs
    simp only [Option.pure_def, Option.some.injEq] at hs
    rw [← hs]
  · rw [if_neg hg] at hs
    have h := decide_counts _ _ _ _ _ _ _ hs
    simpa only [moveX] using h

theorem Counters.Sane.attempt {c : Counters} (h : c.Sane) (kind : Kind) : (c.attempt kind).Sane ∧
    ((c.attempt kind).accept kind).Sane := by
  obtain ⟨h1, h2, h3⟩ := h
  cases kind
  · exact ⟨⟨h1, Nat.le_succ_of_le h2, h3⟩, ⟨h1, Nat.succ_le_succ h2, h3⟩⟩
  · exact ⟨⟨h1, h2, Nat.le_succ_of_le h3⟩, ⟨h1, h2, Nat.succ_le_succ h3⟩⟩

/-- C37: the counters stay consistent through an iteration -/
theorem phIteration_counts [NeZero N] (noHS : Bool) (neqlt : ℕ) (st st' : State σ N M)
    (h : st.cnt.Sane) (hs : phIteration sys ph noHS neqlt st = some st') : st'.cnt.Sane := by
  unfold phIteration at hs
  simp only [Option.bind_eq_bind] at hs
  obtain ⟨st1, e1, hs⟩ := Option.bind_eq_some_iff.1 hs
  obtain ⟨st2, e2, e3⟩ := Option.bind_eq_some_iff.1 hs
  have h1 : ∀ (ls : List ℕ) (a b : State σ N M), a.cnt.Sane →
      ls.foldlM (phTimeSlice sys ph noHS neqlt) a = some b → b.cnt.Sane := by
    intro ls
    induction ls with
    | nil => intro a b ha hb; cases hb; exact ha
    | cons l ls ih =>
      intro a b ha hb
      rw [List.foldlM_cons] at hb
      obtain ⟨c, f1, f2⟩ := Option.bind_eq_some_iff.1 hb
      obtain ⟨-, -, -, -, hc, -⟩ := phTimeSlice_counts noHS neqlt l a c ha f1
      exact ih c b hc f2
  have h2 := iterateM_inv (blockUpdate sys ph) (fun t => t.cnt.Sane) (by
    intro a b ha hb
    obtain ⟨i, r, -, c1, c2⟩ := blockUpdate_counts a b hb
    by_cases hg : ph.g (sys.orb i) = 0
    · rw [c1 hg]; exact ha
    · rcases c2 hg with e | e <;> rw [e]
      · exact (ha.attempt _).1
      · exact (ha.attempt _).2) _ _ _ (h1 _ _ _ h e1) e2
  exact iterateM_inv (flipUpdate sys ph) (fun t => t.cnt.Sane) (by
    intro a b ha hb
    obtain ⟨i, r, -, c1, c2⟩ := flipUpdate_counts a b hb
    by_cases hg : ph.g (sys.orb i) = 0
    · rw [c1 hg]; exact ha
    · rcases c2 hg with e | e <;> rw [e]
      · exact (ha.attempt _).1
      · exact (ha.attempt _).2) _ _ _ h2 e3

theorem localOrder_length (order : List (Fin N)) (n : ℕ) (sites : List (Fin N))
    (h : localOrder order n = some sites) : sites.length = n := by
  unfold localOrder at h
  have : ∀ (ks : List ℕ) (sites : List (Fin N)),
      (ks.mapM fun j => order[j % N]?) = some sites → sites.length = ks.length := by
    intro ks
    induction ks with
    | nil => intro s h; cases h; rfl
    | cons k ks ih =>
      intro s h
      rw [List.mapM_cons] at h
      obtain ⟨a, -, h⟩ := Option.bind_eq_some_iff.1 h
      obtain ⟨b, e2, h⟩ := Option.bind_eq_some_iff.1 h
      cases h
      rw [List.length_cons, List.length_cons, ih b e2]
  rw [this _ _ h, List.length_range]

/-- C37: if all orbitals are coupled, an iteration attempts `L * n_local_updates` local,
`n_block_updates` block and `n_block_updates` flip updates -/
theorem phIteration_attempts [NeZero N] (noHS : Bool) (neqlt : ℕ) (st st' : State σ N M)
    (hg : ∀ o, ph.g o ≠ 0) (h : st.cnt.Sane)
    (hs : phIteration sys ph noHS neqlt st = some st') :
    st'.cnt.localTotal = st.cnt.localTotal + st.tsmU.L * ph.nLocal ∧
    st'.cnt.blockTotal = st.cnt.blockTotal + ph.nBlock ∧
    st'.cnt.flipTotal = st.cnt.flipTotal + ph.nBlock := by
  unfold phIteration at hs
  simp only [Option.bind_eq_bind] at hs
  obtain ⟨st1, e1, hs⟩ := Option.bind_eq_some_iff.1 hs
  obtain ⟨st2, e2, e3⟩ := Option.bind_eq_some_iff.1 hs
  have h1 : ∀ (ls : List ℕ) (a b : State σ N M), a.cnt.Sane →
      ls.foldlM (phTimeSlice sys ph noHS neqlt) a = some b →
      b.cnt.localTotal = a.cnt.localTotal + ls.length * ph.nLocal ∧
      b.cnt.blockTotal = a.cnt.blockTotal ∧ b.cnt.flipTotal = a.cnt.flipTotal := by
    intro ls
    induction ls with
    | nil => intro a b ha hb; cases hb; simp
    | cons l ls ih =>
      intro a b ha hb
      rw [List.foldlM_cons] at hb
      obtain ⟨c, f1, f2⟩ := Option.bind_eq_some_iff.1 hb
      obtain ⟨order, sites, -, ho, hc, t1, -, t2, -, t3⟩ :=
        phTimeSlice_counts noHS neqlt l a c ha f1
      have hlen : coupled sys ph sites = ph.nLocal := by
        rw [← localOrder_length order _ sites ho]
        unfold coupled
        rw [List.filter_eq_self.2]
        intro i _
        simp [hg]
      obtain ⟨g1, g2, g3⟩ := ih c b hc f2
      refine ⟨?_, g2.trans t2, g3.trans t3⟩
      rw [g1, t1, hlen, List.length_cons]
      ring
  have hit : ∀ (f : State σ N M → Option (State σ N M)) (x y z : Counters → ℕ)
      (_ : ∀ a b, f a = some b → x b.cnt = x a.cnt + 1 ∧ y b.cnt = y a.cnt ∧ z b.cnt = z a.cnt)
      (n : ℕ) (a b : State σ N M), iterateM f n a = some b →
      x b.cnt = x a.cnt + n ∧ y b.cnt = y a.cnt ∧ z b.cnt = z a.cnt := by
    intro f x y z hf n
    induction n with
    | zero => intro a b hb; cases hb; exact ⟨rfl, rfl, rfl⟩
    | succ n ih =>
      intro a b hb
      obtain ⟨c, f1, f2⟩ := Option.bind_eq_some_iff.1 hb
      obtain ⟨p1, p2, p3⟩ := hf a c f1
      obtain ⟨q1, q2, q3⟩ := ih c b f2
      exact ⟨by rw [q1, p1]; ring, q2.trans p2, q3.trans p3⟩
  obtain ⟨a1, a2, a3⟩ := h1 _ _ _ h e1
  rw [List.length_range] at a1
  obtain ⟨b1, b2, b3⟩ := hit (blockUpdate sys ph) Counters.blockTotal Counters.localTotal
    Counters.flipTotal (by
      intro a b hb
      obtain ⟨i, r, -, -, c2⟩ := blockUpdate_counts a b hb
      rcases c2 (hg _) with e | e <;> rw [e] <;> exact ⟨rfl, rfl, rfl⟩) _ _ _ e2
  obtain ⟨c1, c2, c3⟩ := hit (flipUpdate sys ph) Counters.flipTotal Counters.localTotal
    Counters.blockTotal (by
      intro a b hb
      obtain ⟨i, r, -, -, c2⟩ := flipUpdate_counts a b hb
      rcases c2 (hg _) with e | e <;> rw [e] <;> exact ⟨rfl, rfl, rfl⟩) _ _ _ e3
  exact ⟨by rw [c2, b2, a1], by rw [c3, b1, a2], by rw [c1, b3, a3]⟩

end Verif.MonteCarlo
