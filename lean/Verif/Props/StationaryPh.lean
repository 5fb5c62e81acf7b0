import Verif.Props.Stationary
import Mathlib.MeasureTheory.Constructions.Pi
import Mathlib.MeasureTheory.Constructions.BorelSpace.Basic
import Mathlib.MeasureTheory.Group.Measure
import Mathlib.Topology.Instances.Matrix

/-! # Property C77: runs with phonons leave the distribution of the configurations invariant -/

set_option autoImplicit false

namespace Verif.MonteCarlo

open MeasureTheory ENNReal Verif.Metropolis Verif.Fock Verif.Greens Verif.Progress

variable {σ : Type} {N : ℕ} {M : Type}

/-! ## Specification -/

/-- the part of the phonon field used by the simulation -/
abbrev Paths (L N : ℕ) : Type := Fin L → Fin N → ℝ

/-- Hubbard-Stratonovich field and phonon field -/
abbrev Conf (L N : ℕ) : Type := Field L N × Paths L N

def pathsOf (L : ℕ) (X : ℕ → Fin N → ℝ) : Paths L N := fun l => X l

def extendX {L : ℕ} (x : Paths L N) : ℕ → Fin N → ℝ := fun l i => if h : l < L then x ⟨l, h⟩ i else 0

/-- weight of a configuration -/
noncomputable def confWeight (sys : Sys σ N M) (ph : Phonon) (L : ℕ) (x : Conf L N) : ℝ :=
  sys.fullWeight ph L (Fock.extend x.1) (extendX x.2)

open Classical in
/-- the coordinates of the phonons that are coupled to the electrons are integrated over; the other ones never
change, and their distribution is arbitrary -/
noncomputable def siteBase (sys : Sys σ N M) (ph : Phonon) (rest : Measure ℝ) (i : Fin N) : Measure ℝ :=
  if ph.g (sys.orb i) = 0 then rest else volume

/-- integral over the phonon coordinates -/
noncomputable def pathBase (sys : Sys σ N M) (ph : Phonon) (rest : Measure ℝ) (L : ℕ) : Measure (Paths L N) :=
  Measure.pi fun _ => Measure.pi fun i => siteBase sys ph rest i

/-- sum over the fields and integral over the phonon coordinates -/
noncomputable def confBase (sys : Sys σ N M) (ph : Phonon) (rest : Measure ℝ) (L : ℕ) : Measure (Conf L N) :=
  Measure.count.prod (pathBase sys ph rest L)

/-- distribution of the configurations (up to normalisation) -/
noncomputable def confDist (sys : Sys σ N M) (ph : Phonon) (rest : Measure ℝ) (L : ℕ) : Measure (Conf L N) :=
  target (confBase sys ph rest L) (confWeight sys ph L)

/-- configuration and state of the source of random numbers -/
def viewPh (L : ℕ) (st : State σ N M) : Conf L N × σ := ((fieldOf L st.s, pathsOf L st.X), st.rng)

/-! ## The weight -/

variable {sys : Sys σ N M} {ph : Phonon} {rest : Measure ℝ} [SigmaFinite rest] {L len l : ℕ} {st st' : State σ N M}

theorem extendX_pathsOf (X : ℕ → Fin N → ℝ) (k : ℕ) (hk : k < L) : extendX (pathsOf L X) k = X k := by
  funext i
  simp [extendX, pathsOf, hk]

theorem pathsOf_extendX (x : Paths L N) : pathsOf L (extendX x) = x := by
  funext l i
  simp [extendX, pathsOf]

theorem energy_congr {X X' : ℕ → Fin N → ℝ} (hL : 0 < L) (hX : ∀ k < L, X k = X' k) :
    sys.energy ph L X = sys.energy ph L X' := by
  unfold Sys.energy pathEnergy
  refine Finset.sum_congr rfl fun i _ => Finset.sum_congr rfl fun l hl => ?_
  simp only [hX l (Finset.mem_range.1 hl), hX _ (Nat.mod_lt _ hL)]

theorem fullWeight_congr {s s' : ℕ → Fin N → Fin 2} {X X' : ℕ → Fin N → ℝ} (hL : 0 < L)
    (hs : ∀ k < L, s k = s' k) (hX : ∀ k < L, X k = X' k) :
    sys.fullWeight ph L s X = sys.fullWeight ph L s' X' := by
  unfold Sys.fullWeight
  rw [energy_congr hL hX, weight_congr hL hs fun k hk => ?_]
  unfold Sys.expOf
  rw [hX k hk]

theorem confWeight_view (hL : 0 < L) (s : ℕ → Fin N → Fin 2) (X : ℕ → Fin N → ℝ) :
    confWeight sys ph L (fieldOf L s, pathsOf L X) = sys.fullWeight ph L s X :=
  fullWeight_congr hL (fun k hk => extend_fieldOf s k hk) (fun k hk => extendX_pathsOf X k hk)

theorem confWeight_nonneg (x : Conf L N) : 0 ≤ confWeight sys ph L x :=
  mul_nonneg (abs_nonneg _) (Real.exp_pos _).le

theorem extendX_continuous (k : ℕ) (i : Fin N) : Continuous fun x : Paths L N => extendX x k i := by
  unfold extendX
  by_cases h : k < L
  · simp only [h, dif_pos]
    fun_prop
  · simp only [h, dif_neg, not_false_eq_true]
    fun_prop

theorem prodSeq_continuous {α : Type} [TopologicalSpace α] (B : α → ℕ → Matrix (Fin N) (Fin N) ℝ)
    (hB : ∀ k, Continuous fun x => B x k) (k : ℕ) : Continuous fun x => TimeFlow.prodSeq (B x) k := by
  induction k with
  | zero => exact continuous_const
  | succ k ih => exact (hB k).matrix_mul ih

theorem confWeight_continuous (s : Field L N) : Continuous fun x : Paths L N => confWeight sys ph L (s, x) := by
  have hE : ∀ k i, Continuous fun x : Paths L N => sys.expOf ph (extendX x) k i := by
    intro k i
    unfold Sys.expOf
    exact Real.continuous_exp.comp (continuous_const.mul (extendX_continuous k i))
  have hF : ∀ expV : Fin 2 → ℕ → ℝ, Continuous fun x : Paths L N =>
      sys.flow expV L (Fock.extend s) (sys.expOf ph (extendX x)) := by
    intro expV
    unfold Sys.flow TimeFlow.cyclicProd
    refine prodSeq_continuous _ (fun k => ?_) L
    unfold Sys.fieldB
    refine Continuous.matrix_mul (Continuous.matrix_diagonal (continuous_pi fun i => ?_)) continuous_const
    exact continuous_const.mul (hE _ i)
  have hD : ∀ expV : Fin 2 → ℕ → ℝ, Continuous fun x : Paths L N =>
      (1 + sys.flow expV L (Fock.extend s) (sys.expOf ph (extendX x))).det :=
    fun expV => (continuous_const.add (hF expV)).matrix_det
  have hP : ∀ i, Continuous fun x : Paths L N => pathEnergy L ph.dt (ph.omega (sys.orb i)) fun l => extendX x l i := by
    intro i
    unfold pathEnergy
    refine continuous_finsetSum _ fun l _ => ?_
    have h1 := extendX_continuous (N := N) (L := L) l i
    have h2 := extendX_continuous (N := N) (L := L) ((l + 1) % L) i
    exact ((continuous_const.mul (h1.pow 2)).div_const 2).add ((((h2.sub h1).div_const _).pow 2).div_const 2)
  unfold confWeight Sys.fullWeight Sys.weight Sys.energy
  exact ((hD _).mul (hD _)).abs.mul
    (Real.continuous_exp.comp (continuous_const.mul (continuous_finsetSum _ fun i _ => hP i)))

theorem confWeight_measurable : Measurable (confWeight sys ph L) :=
  measurable_from_prod_countable_right fun s => (confWeight_continuous s).measurable

/-! ## The moves -/

/-- displacement of one entry -/
def spike (l : ℕ) (i : Fin N) (d : ℝ) : Paths L N := fun k j => if (k : ℕ) = l ∧ j = i then d else 0

/-- displacement of a path -/
def column (i : Fin N) (d : ℝ) : Paths L N := fun _ j => if j = i then d else 0

/-- reflection of a path -/
def mirror (i : Fin N) (c : ℝ) (x : Conf L N) : Conf L N := (x.1, fun k j => if j = i then c - x.2 k j else x.2 k j)

theorem pathsOf_moveLocal (X : ℕ → Fin N → ℝ) (l : ℕ) (i : Fin N) (d : ℝ) :
    pathsOf L (moveLocal X l i d) = pathsOf L X + spike l i d := by
  funext k j
  simp only [pathsOf, moveLocal, spike, Pi.add_apply]
  by_cases hk : (k : ℕ) = l
  · rw [hk, Function.update_self]
    by_cases hj : j = i
    · subst hj; simp
    · simp [hj]
  · simp [hk]

theorem pathsOf_block (X : ℕ → Fin N → ℝ) (i : Fin N) (d : ℝ) :
    pathsOf L (movePath L X i fun l => X l i + d) = pathsOf L X + column i d := by
  funext k j
  simp only [pathsOf, movePath, column, Pi.add_apply]
  by_cases hj : j = i
  · subst hj; simp
  · simp [hj]

theorem pathsOf_mirror (s : Field L N) (X : ℕ → Fin N → ℝ) (i : Fin N) (c : ℝ) :
    (s, pathsOf L (movePath L X i fun l => c - X l i)) = mirror i c (s, pathsOf L X) := by
  unfold mirror
  congr 1
  funext k j
  simp only [pathsOf, movePath]
  by_cases hj : j = i
  · subst hj; simp
  · simp [hj]

theorem mirror_mirror (i : Fin N) (c : ℝ) (x : Conf L N) : mirror i c (mirror i c x) = x := by
  unfold mirror
  ext1
  · rfl
  · funext k j
    by_cases hj : j = i <;> simp [hj]

instance (i : Fin N) : SigmaFinite (siteBase sys ph rest i) := by
  unfold siteBase
  split <;> infer_instance

instance : SigmaFinite (pathBase sys ph rest L) := by
  unfold pathBase
  infer_instance

instance : SFinite (confBase sys ph rest L) := by unfold confBase; infer_instance

instance : SFinite (confDist sys ph rest L) := by unfold confDist target; infer_instance

/-- changes of the coordinates that are coupled -/
theorem coordinates_preserve (f : Fin L → Fin N → ℝ → ℝ) (hf : ∀ k j, MeasurePreserving (f k j) volume volume)
    (h0 : ∀ k j, ph.g (sys.orb j) = 0 → f k j = id) :
    MeasurePreserving (fun x : Conf L N => (x.1, fun k j => f k j (x.2 k j))) (confBase sys ph rest L)
      (confBase sys ph rest L) := by
  have h1 : ∀ k j, MeasurePreserving (f k j) (siteBase sys ph rest j) (siteBase sys ph rest j) := by
    intro k j
    unfold siteBase
    split
    · rename_i hg
      rw [h0 k j hg]
      exact MeasurePreserving.id _
    · exact hf k j
  have h2 : ∀ k, MeasurePreserving (fun (x : Fin N → ℝ) j => f k j (x j))
      (Measure.pi fun i => siteBase sys ph rest i) (Measure.pi fun i => siteBase sys ph rest i) :=
    fun k => measurePreserving_pi _ _ fun j => h1 k j
  have h3 : MeasurePreserving (fun (x : Paths L N) k j => f k j (x k j)) (pathBase sys ph rest L)
      (pathBase sys ph rest L) := measurePreserving_pi _ _ fun k => h2 k
  exact (MeasurePreserving.id (Measure.count (α := Field L N))).prod h3

theorem mirror_preserves (i : Fin N) (hg : ph.g (sys.orb i) ≠ 0) (c : ℝ) :
    MeasurePreserving (mirror (L := L) i c) (confBase sys ph rest L) (confBase sys ph rest L) := by
  have h := coordinates_preserve (sys := sys) (ph := ph) (rest := rest) (L := L)
    (fun _ j => if j = i then fun y => c - y else id) (fun _ j => by
      split
      · exact Measure.measurePreserving_sub_left volume c
      · exact MeasurePreserving.id _) fun _ j hj => by
      rw [if_neg]
      rintro rfl
      exact hg hj
  refine (show mirror (L := L) i c = _ from ?_) ▸ h
  funext x
  unfold mirror
  ext1
  · rfl
  · funext k j
    by_cases hj : j = i <;> simp [hj]

theorem shift_preserves (d : Paths L N) (hd : ∀ k j, ph.g (sys.orb j) = 0 → d k j = 0) :
    MeasurePreserving (fun x : Conf L N => (x.1, x.2 + d)) (confBase sys ph rest L) (confBase sys ph rest L) :=
  coordinates_preserve (sys := sys) (ph := ph) (rest := rest) (L := L) (fun k j y => y + d k j)
    (fun k j => measurePreserving_add_right volume (d k j)) fun k j hj => by
      funext y
      simp only [hd k j hj, add_zero, id_eq]

/-- a proposed displacement of the phonon field, and its acceptance -/
noncomputable def shiftStep (sys : Sys σ N M) (ph : Phonon) (L : ℕ) (v : ℝ → Paths L N) (y : Conf L N × σ) :
    Conf L N × σ :=
  (move (confWeight sys ph L) (fun u x => (x.1, x.2 + v u)) y.1 (sys.rng.uniform y.2).1
    (sys.rng.uniform (sys.rng.uniform y.2).2).1, (sys.rng.uniform (sys.rng.uniform y.2).2).2)

/-- a proposed change without choice, and its acceptance -/
noncomputable def mapStep (sys : Sys σ N M) (ph : Phonon) (L : ℕ) (T : Conf L N → Conf L N) (y : Conf L N × σ) :
    Conf L N × σ :=
  (if (sys.rng.uniform y.2).1 < confWeight sys ph L (T y.1) / confWeight sys ph L y.1 then T y.1 else y.1,
    (sys.rng.uniform y.2).2)

section preserves

variable [MeasurableSpace σ] {P : Measure σ}

theorem shiftStep_preserves (hP : sys.rng.Ideal N P) (v : ℝ → Paths L N) (hv : Measurable v)
    (hneg : ∀ u, v u + v (1 - u) = 0) (hsup : ∀ u k j, ph.g (sys.orb j) = 0 → v u k j = 0) :
    MeasurePreserving (shiftStep sys ph L v) ((confDist sys ph rest L).prod P) ((confDist sys ph rest L).prod P) := by
  have := hP.prob
  refine move_source (confBase sys ph rest L) unit P (confWeight sys ph L) confWeight_measurable confWeight_nonneg
    (fun u x => (x.1, x.2 + v u)) ?_ (fun u => ?_) (fun u => 1 - u) unit_reverse (fun u x => ?_) _
    (twice P sys.rng.uniform hP.uniform)
  · exact (measurable_fst.comp measurable_snd).prodMk
      ((measurable_snd.comp measurable_snd).add (hv.comp measurable_fst))
  · exact shift_preserves (v u) (hsup u)
  · ext1
    · rfl
    · show x.2 + v u + v (1 - u) = x.2
      rw [add_assoc, hneg, add_zero]

theorem mapStep_preserves (hP : sys.rng.Ideal N P) (T : Conf L N → Conf L N)
    (hT : MeasurePreserving T (confBase sys ph rest L) (confBase sys ph rest L)) (hinv : ∀ x, T (T x) = x) :
    MeasurePreserving (mapStep sys ph L T) ((confDist sys ph rest L).prod P) ((confDist sys ph rest L).prod P) := by
  have := hP.prob
  exact flip_source (confBase sys ph rest L) P (confWeight sys ph L) confWeight_measurable confWeight_nonneg T hT hinv
    sys.rng.uniform hP.uniform

theorem spike_measurable (l : ℕ) (i : Fin N) (w : ℝ) : Measurable fun u : ℝ => (spike l i ((u - 0.5) * w) : Paths L N) := by
  refine measurable_pi_lambda _ fun k => measurable_pi_lambda _ fun j => ?_
  unfold spike
  by_cases h : (k : ℕ) = l ∧ j = i
  · simp only [h, and_self, if_true]; fun_prop
  · simp only [h, if_false]; fun_prop

theorem column_measurable (i : Fin N) (w : ℝ) : Measurable fun u : ℝ => (column i ((u - 0.5) * w) : Paths L N) := by
  refine measurable_pi_lambda _ fun k => measurable_pi_lambda _ fun j => ?_
  unfold column
  by_cases h : j = i
  · simp only [h, if_true]; fun_prop
  · simp only [h, if_false]; fun_prop

omit [MeasurableSpace σ] in
theorem box_symmetric (w u : ℝ) : (1 - u - 0.5) * w = -((u - 0.5) * w) := by rw [half_lit]; ring

omit [MeasurableSpace σ] in
theorem spike_support (l : ℕ) (i : Fin N) (hg : ph.g (sys.orb i) ≠ 0) (d : ℝ) (k : Fin L) (j : Fin N)
    (hj : ph.g (sys.orb j) = 0) : (spike l i d : Paths L N) k j = 0 := by
  unfold spike
  rw [if_neg]
  rintro ⟨-, rfl⟩
  exact hg hj

omit [MeasurableSpace σ] in
theorem column_support (i : Fin N) (hg : ph.g (sys.orb i) ≠ 0) (d : ℝ) (k : Fin L) (j : Fin N)
    (hj : ph.g (sys.orb j) = 0) : (column i d : Paths L N) k j = 0 := by
  unfold column
  rw [if_neg]
  rintro rfl
  exact hg hj

theorem spike_neg (l : ℕ) (i : Fin N) (w u : ℝ) :
    (spike l i ((u - 0.5) * w) + spike l i ((1 - u - 0.5) * w) : Paths L N) = 0 := by
  rw [box_symmetric]
  funext k j
  simp only [spike, Pi.add_apply, Pi.zero_apply]
  split <;> simp

theorem column_neg (i : Fin N) (w u : ℝ) :
    (column i ((u - 0.5) * w) + column i ((1 - u - 0.5) * w) : Paths L N) = 0 := by
  rw [box_symmetric]
  funext k j
  simp only [column, Pi.add_apply, Pi.zero_apply]
  split <;> simp

end preserves

/-! ## Hubbard-Stratonovich updates -/

/-- reversal of one entry of the Hubbard-Stratonovich field -/
def flipConf (l : ℕ) (i : Fin N) (x : Conf L N) : Conf L N := (flipAt l i x.1, x.2)

theorem hsSite_viewPh (h : PhMid sys ph L len l st) (hok : sys.Ok len) (hl : l < L) (i : Fin N) :
    viewPh L (hsSite sys l st i) = mapStep sys ph L (flipConf l i) (viewPh L st) := by
  have hL : 0 < L := by omega
  obtain ⟨-, hs, -, -⟩ := hs_detailed_balance h.mid hok hl i
  have hr : (hsSite sys l st i).rng = (sys.rng.uniform st.rng).2 ∧ (hsSite sys l st i).X = st.X := by
    unfold hsSite
    simp only
    split <;> exact ⟨rfl, rfl⟩
  unfold mapStep viewPh flipConf
  simp only
  rw [hs, hr.1, hr.2, flipAt_fieldOf hl, confWeight_view hL, confWeight_view hL]
  unfold Sys.fullWeight
  rw [mul_div_mul_right _ _ (Real.exp_pos _).ne']
  split <;> rfl

theorem PhMid.hsSite (h : PhMid sys ph L len l st) (hok : sys.Ok len) (hl : l < L) (i : Fin N) :
    PhMid sys ph L len l (hsSite sys l st i) := by
  have hm := h.mid.hsSite hok hl i
  have hr : (MonteCarlo.hsSite sys l st i).X = st.X ∧ (MonteCarlo.hsSite sys l st i).expX = st.expX := by
    unfold MonteCarlo.hsSite
    simp only
    split <;> exact ⟨rfl, rfl⟩
  refine ⟨by rw [hr.1]; exact hm, ?_⟩
  intro k hk j
  rw [hr.1, hr.2]
  exact h.coh k hk j

theorem hsFold_viewPh (h : PhMid sys ph L len l st) (hok : sys.Ok len) (hl : l < L) (order : List (Fin N)) :
    viewPh L (order.foldl (hsSite sys l) st)
      = order.foldl (fun y i => mapStep sys ph L (flipConf l i) y) (viewPh L st) := by
  induction order generalizing st with
  | nil => rfl
  | cons i order ih => rw [List.foldl_cons, List.foldl_cons, ih (h.hsSite hok hl i), hsSite_viewPh h hok hl]

/-! ## Local updates -/

open Classical in
noncomputable def localStep (sys : Sys σ N M) (ph : Phonon) (L l : ℕ) (y : Conf L N × σ) (i : Fin N) : Conf L N × σ :=
  if ph.g (sys.orb i) = 0 then y else shiftStep sys ph L (fun u => spike l i ((u - 0.5) * ph.localBox)) y

theorem localSite_viewPh (h : PhMid sys ph L len l st) (hL : 2 ≤ L) (hl : l < L) (i : Fin N) :
    viewPh L (localSite sys ph l st i) = localStep sys ph L l (viewPh L st) i := by
  have hL0 : 0 < L := by omega
  unfold localStep
  by_cases hg : ph.g (sys.orb i) = 0
  · rw [if_pos hg]
    unfold localSite
    simp only [if_pos hg]
  · rw [if_neg hg]
    obtain ⟨-, hX, -, -⟩ := local_detailed_balance_partial h hL hl i hg
    have hr : (localSite sys ph l st i).rng = (sys.rng.uniform (sys.rng.uniform st.rng).2).2 ∧
        (localSite sys ph l st i).s = st.s := by
      unfold localSite
      simp only [if_neg hg]
      split <;> exact ⟨rfl, rfl⟩
    unfold shiftStep viewPh move
    simp only
    rw [hX, hr.1, hr.2, ← pathsOf_moveLocal, confWeight_view hL0, confWeight_view hL0]
    split <;> rfl

theorem localFold_viewPh (h : PhMid sys ph L len l st) (hok : sys.Ok len) (hL : 2 ≤ L) (hl : l < L)
    (order : List (Fin N)) :
    viewPh L (order.foldl (localSite sys ph l) st) = order.foldl (localStep sys ph L l) (viewPh L st) := by
  induction order generalizing st with
  | nil => rfl
  | cons i order ih => rw [List.foldl_cons, List.foldl_cons, ih (h.localSite hok hl i), localSite_viewPh h hL hl]

/-! ## Block and flip updates -/

theorem PathUpdate.view {kind : Kind} {i : Fin N} {f : ℕ → ℝ} {u : ℝ} {r : σ} (hL : 0 < L)
    (h : PathUpdate sys ph L len kind i f st st' u r) (x' : Conf L N)
    (hx : x' = (fieldOf L st.s, pathsOf L (movePath L st.X i f))) :
    viewPh L st' = (if u < confWeight sys ph L x' / confWeight sys ph L (viewPh L st).1 then x' else (viewPh L st).1, r) := by
  subst hx
  unfold viewPh
  rw [confWeight_view hL, confWeight_view hL]
  by_cases hc : u < sys.fullWeight ph L st.s (movePath L st.X i f) / sys.fullWeight ph L st.s st.X
  · obtain ⟨h1, -, h2, -, h3, -⟩ := h.accepted hc
    rw [if_pos hc, h1, h2, h3]
  · rw [if_neg hc, h.rejected hc]

open Classical in
noncomputable def blockStep (sys : Sys σ N M) (ph : Phonon) (L : ℕ) (i : Fin N) (y : Conf L N × σ) : Conf L N × σ :=
  if ph.g (sys.orb i) = 0 then y else shiftStep sys ph L (fun u => column i ((u - 0.5) * ph.blockBox)) y

open Classical in
noncomputable def flipStep (sys : Sys σ N M) (ph : Phonon) (L : ℕ) (i : Fin N) (y : Conf L N × σ) : Conf L N × σ :=
  if ph.g (sys.orb i) = 0 then y else mapStep sys ph L (mirror i (2 * ph.mu / ph.g (sys.orb i))) y

theorem PhInv.pos (h : PhInv sys ph L len l st) : 0 < L := by
  rw [← h.inv.up.td.hL, h.inv.up.td.dims.mul]
  exact Nat.mul_pos h.inv.up.td.dims.num h.inv.up.td.dims.len

theorem blockUpdate_viewPh [NeZero N] (hok : sys.Ok len) (h : PhInv sys ph L len 0 st)
    (hs : blockUpdate sys ph st = some st') (f : σ → Fin N × σ) (hf : ∀ r, sys.rng.site N r = some (f r)) :
    viewPh L st' = blockStep sys ph L (f st.rng).1 ((viewPh L st).1, (f st.rng).2) := by
  obtain ⟨i, r, e, h1, h2⟩ := blockUpdate_spec hok h hs
  rw [hf] at e
  have e := Option.some.inj e
  rw [e]
  unfold blockStep
  simp only
  by_cases hg : ph.g (sys.orb i) = 0
  · rw [if_pos hg, h1 hg]
    rfl
  · rw [if_neg hg, (h2 hg).view h.pos ((viewPh L st).1.1, (viewPh L st).1.2 +
      column i (((sys.rng.uniform r).1 - 0.5) * ph.blockBox)) (by rw [pathsOf_block]; rfl)]
    rfl

theorem flipUpdate_viewPh [NeZero N] (hok : sys.Ok len) (h : PhInv sys ph L len 0 st)
    (hs : flipUpdate sys ph st = some st') (f : σ → Fin N × σ) (hf : ∀ r, sys.rng.site N r = some (f r)) :
    viewPh L st' = flipStep sys ph L (f st.rng).1 ((viewPh L st).1, (f st.rng).2) := by
  obtain ⟨i, r, e, h1, h2⟩ := flipUpdate_spec hok h hs
  rw [hf] at e
  have e := Option.some.inj e
  rw [e]
  unfold flipStep
  simp only
  by_cases hg : ph.g (sys.orb i) = 0
  · rw [if_pos hg, h1 hg]
    rfl
  · rw [if_neg hg, (h2 hg).view h.pos (mirror i (2 * ph.mu / ph.g (sys.orb i)) (viewPh L st).1)
      (pathsOf_mirror _ _ _ _).symm]
    rfl

/-! ## Slices -/

section slices

variable [MeasurableSpace σ] {P : Measure σ}

theorem flipConf_step (hP : sys.rng.Ideal N P) (hl : l < L) (i : Fin N) :
    MeasurePreserving (mapStep sys ph L (flipConf l i)) ((confDist sys ph rest L).prod P) ((confDist sys ph rest L).prod P) := by
  refine mapStep_preserves hP _ ?_ fun x => ?_
  · exact (count_involution _ (flipAt_flipAt hl i)).prod (MeasurePreserving.id _)
  · unfold flipConf
    simp only [flipAt_flipAt hl]

theorem localStep_preserves (hP : sys.rng.Ideal N P) (l : ℕ) (i : Fin N) :
    MeasurePreserving (fun y => localStep sys ph L l y i) ((confDist sys ph rest L).prod P) ((confDist sys ph rest L).prod P) := by
  unfold localStep
  by_cases hg : ph.g (sys.orb i) = 0
  · simp only [if_pos hg]
    exact MeasurePreserving.id _
  · simp only [if_neg hg]
    exact shiftStep_preserves hP _ (spike_measurable l i _) (spike_neg l i _)
      fun u => spike_support l i hg _

theorem blockStep_preserves (hP : sys.rng.Ideal N P) (i : Fin N) :
    MeasurePreserving (blockStep sys ph L i) ((confDist sys ph rest L).prod P) ((confDist sys ph rest L).prod P) := by
  unfold blockStep
  by_cases hg : ph.g (sys.orb i) = 0
  · simp only [if_pos hg]
    exact MeasurePreserving.id _
  · simp only [if_neg hg]
    exact shiftStep_preserves hP _ (column_measurable i _) (column_neg i _)
      fun u => column_support i hg _

theorem flipStep_preserves (hP : sys.rng.Ideal N P) (i : Fin N) :
    MeasurePreserving (flipStep sys ph L i) ((confDist sys ph rest L).prod P) ((confDist sys ph rest L).prod P) := by
  unfold flipStep
  by_cases hg : ph.g (sys.orb i) = 0
  · simp only [if_pos hg]
    exact MeasurePreserving.id _
  · simp only [if_neg hg]
    exact mapStep_preserves hP _ (mirror_preserves _ hg _) (mirror_mirror _ _)

/-- a random order of the sites -/
theorem shuffled_viewPh (hP : sys.rng.Ideal N P) (step : Conf L N × σ → Fin N → Conf L N × σ)
    (hstep : ∀ i, MeasurePreserving (fun y => step y i) ((confDist sys ph rest L).prod P) ((confDist sys ph rest L).prod P))
    (sites : List (Fin N) → List (Fin N)) :
    ∃ F : Conf L N × σ → Conf L N × σ,
      MeasurePreserving F ((confDist sys ph rest L).prod P) ((confDist sys ph rest L).prod P) ∧
      ∀ y order r, sys.rng.shuffle N y.2 = some (order, r) → F y = (sites order).foldl step (y.1, r) := by
  have := hP.prob
  have := equi_prob (Equiv.Perm (Fin N))
  obtain ⟨f, hf, e⟩ := hP.shuffle
  have hS : ∀ p : Equiv.Perm (Fin N), MeasurePreserving
      (fun y => (sites ((List.finRange N).map p)).foldl step y) ((confDist sys ph rest L).prod P)
      ((confDist sys ph rest L).prod P) := fun p => fold_preserves _ _ fun i _ => hstep i
  refine ⟨_, mix_source (confDist sys ph rest L) (equi (Equiv.Perm (Fin N))) P f hf
    (fun p y => (sites ((List.finRange N).map p)).foldl step y)
    (measurable_from_prod_countable_right fun p => (hS p).measurable) hS, fun y order r hs => ?_⟩
  rw [e] at hs
  obtain ⟨rfl, rfl⟩ := Prod.mk.inj (Option.some.inj hs)
  rfl

theorem hsSlice_viewPh (hP : sys.rng.Ideal N P) (hok : sys.Ok len) (hl : l < L) :
    ∃ F : Conf L N × σ → Conf L N × σ,
      MeasurePreserving F ((confDist sys ph rest L).prod P) ((confDist sys ph rest L).prod P) ∧
      ∀ st st', PhMid sys ph L len l st → hsSlice sys l st = some st' → viewPh L st' = F (viewPh L st) := by
  obtain ⟨F, hF, h⟩ := shuffled_viewPh (rest := rest) hP (fun y i => mapStep sys ph L (flipConf l i) y)
    (fun i => flipConf_step hP hl i) id
  refine ⟨F, hF, fun st st' hm hs => ?_⟩
  unfold hsSlice at hs
  simp only [Option.bind_eq_bind] at hs
  obtain ⟨⟨order, r⟩, e, hs⟩ := Option.bind_eq_some_iff.1 hs
  simp only [Option.pure_def, Option.some.injEq] at hs
  rw [h (viewPh L st) order r e, ← hs,
    hsFold_viewPh (st := { st with rng := r }) ⟨⟨hm.mid.up, hm.mid.down⟩, hm.coh⟩ hok hl]
  rfl

theorem localSlice_viewPh (hP : sys.rng.Ideal N P) (hok : sys.Ok len) (hL : 2 ≤ L) (hl : l < L) :
    ∃ F : Conf L N × σ → Conf L N × σ,
      MeasurePreserving F ((confDist sys ph rest L).prod P) ((confDist sys ph rest L).prod P) ∧
      ∀ st st', PhMid sys ph L len l st → localSlice sys ph l st = some st' → viewPh L st' = F (viewPh L st) := by
  obtain ⟨F, hF, h⟩ := shuffled_viewPh (rest := rest) hP (localStep sys ph L l) (fun i => localStep_preserves hP l i)
    (fun order => (localOrder order ph.nLocal).getD [])
  refine ⟨F, hF, fun st st' hm hs => ?_⟩
  unfold localSlice at hs
  simp only [Option.bind_eq_bind] at hs
  obtain ⟨⟨order, r⟩, e, hs⟩ := Option.bind_eq_some_iff.1 hs
  obtain ⟨sites, e2, hs⟩ := Option.bind_eq_some_iff.1 hs
  simp only [Option.pure_def, Option.some.injEq] at hs
  rw [h (viewPh L st) order r e, ← hs,
    localFold_viewPh (st := { st with rng := r }) ⟨⟨hm.mid.up, hm.mid.down⟩, hm.coh⟩ hok hL hl]
  simp only at e2
  rw [e2]
  rfl

theorem block_viewPh [NeZero N] (hP : sys.rng.Ideal N P) (hok : sys.Ok len) :
    ∃ F : Conf L N × σ → Conf L N × σ,
      MeasurePreserving F ((confDist sys ph rest L).prod P) ((confDist sys ph rest L).prod P) ∧
      ∀ st st', PhInv sys ph L len 0 st → blockUpdate sys ph st = some st' → viewPh L st' = F (viewPh L st) := by
  have := hP.prob
  have := equi_prob (Fin N)
  obtain ⟨f, hf, e⟩ := hP.site
  exact ⟨_, mix_source (confDist sys ph rest L) (equi (Fin N)) P f hf (blockStep sys ph L)
    (measurable_from_prod_countable_right fun i => (blockStep_preserves (rest := rest) hP i).measurable)
    (blockStep_preserves hP), fun st st' hi hs => blockUpdate_viewPh hok hi hs f e⟩

theorem flip_viewPh [NeZero N] (hP : sys.rng.Ideal N P) (hok : sys.Ok len) :
    ∃ F : Conf L N × σ → Conf L N × σ,
      MeasurePreserving F ((confDist sys ph rest L).prod P) ((confDist sys ph rest L).prod P) ∧
      ∀ st st', PhInv sys ph L len 0 st → flipUpdate sys ph st = some st' → viewPh L st' = F (viewPh L st) := by
  have := hP.prob
  have := equi_prob (Fin N)
  obtain ⟨f, hf, e⟩ := hP.site
  exact ⟨_, mix_source (confDist sys ph rest L) (equi (Fin N)) P f hf (flipStep sys ph L)
    (measurable_from_prod_countable_right fun i => (flipStep_preserves (rest := rest) hP i).measurable)
    (flipStep_preserves hP), fun st st' hi hs => flipUpdate_viewPh hok hi hs f e⟩

end slices

/-! ## Runs -/

/-- a quantity of the measurement data to which each measurement after slice `l` adds the number `q l x` and each
unequal time measurement the number `qu x`, which depend on the configuration only -/
structure AddsPh (sys : Sys σ N M) (ph : Phonon) (rest : Measure ℝ) (L len : ℕ) (φ : M → ℝ) (q : ℕ → Conf L N → ℝ) (qu : Conf L N → ℝ) :
    Prop where
  eq : ∀ (s : ℕ → Fin N → Fin 2) (X : ℕ → Fin N → ℝ) (l : ℕ) (Gu Gd : GreensFn N) (m m1 m2 : M), l < L →
    Exact sys L (sys.expOf ph X) s (l + 1) Gu Gd → sys.meas.eq Gu Gd m = some m1 →
    sys.meas.phonon Gu Gd l X m1 = some m2 → φ m2 = φ m + q l (fieldOf L s, pathsOf L X)
  uneq : ∀ (st : State σ N M) (m' : M), PhInv sys ph L len 0 st →
    sys.meas.uneq (st.Gu.sgndet * st.Gd.sgndet) st.tsmU st.tsmD st.meas = some m' →
    φ m' = φ st.meas + qu (fieldOf L st.s, pathsOf L st.X)
  intEq : ∀ l < L, Integrable (q l) (confDist sys ph rest L)
  intUneq : Integrable qu (confDist sys ph rest L)

/-- what the measurement after slice `l` adds to the integral -/
noncomputable def sliceGainPh (sys : Sys σ N M) (ph : Phonon) (rest : Measure ℝ) (L neqlt : ℕ) (q : ℕ → Conf L N → ℝ) (l : ℕ) : ℝ :=
  if neqlt > 0 ∧ (l + 1) % neqlt = 0 then ∫ x, q l x ∂confDist sys ph rest L else 0

/-- what an iteration adds to the integral -/
noncomputable def iterGainPh (sys : Sys σ N M) (ph : Phonon) (rest : Measure ℝ) (cfg : Cfg) (q : ℕ → Conf cfg.L N → ℝ)
    (qu : Conf cfg.L N → ℝ) (it : ℤ) : ℝ :=
  (∑ l ∈ Finset.range cfg.L, sliceGainPh sys ph rest cfg.L (effNeqlt cfg it) q l) +
    if it ≥ cfg.nequil ∧ cfg.nuneqlt > 0 ∧ it.tmod cfg.nuneqlt = 0 then ∫ x, qu x ∂confDist sys ph rest cfg.L else 0

/-- the parts of the processing of a time slice -/
theorem phTimeSlice_split [NeZero N] (hok : sys.Ok len) (hl : l < L) (noHS : Bool) (neqlt : ℕ)
    (h : PhInv sys ph L len l st) (hs : phTimeSlice sys ph noHS neqlt st l = some st') :
    ∃ st1 st2, (if noHS then some (MonteCarlo.wrap l st) else hsSlice sys l (MonteCarlo.wrap l st)) = some st1 ∧
      PhMid sys ph L len l (MonteCarlo.wrap l st) ∧
      PhMid sys ph L len l st1 ∧ st1.meas = st.meas ∧ localSlice sys ph l st1 = some st2 ∧ st2.meas = st.meas ∧
      PhInv sys ph L len (l + 1) (MonteCarlo.updatePhB sys l st2) ∧
      measurePh sys neqlt l (MonteCarlo.updatePhB sys l st2) = some st' := by
  have hm : PhMid sys ph L len l (MonteCarlo.wrap l st) := ⟨h.inv.wrap hl, h.coh⟩
  unfold phTimeSlice at hs
  have hstep : ∃ st1, (if noHS then some (MonteCarlo.wrap l st) else hsSlice sys l (MonteCarlo.wrap l st)) = some st1 ∧
      (PhMid sys ph L len l st1 ∧ st1.meas = st.meas) ∧
      ((localSlice sys ph l st1).bind fun st =>
        (maybeRecompute sys l (updatePhB sys l st)).bind fun st => measurePh sys neqlt l st) = some st' := by
    cases noHS
    · simp only [Option.bind_eq_bind, Bool.false_eq_true, if_false] at hs
      obtain ⟨st1, e1, hs⟩ := Option.bind_eq_some_iff.1 hs
      obtain ⟨a, -, -, b⟩ := hm.hsSlice hok hl e1
      exact ⟨st1, e1, ⟨a, b⟩, hs⟩
    · simp only [Option.bind_eq_bind, if_true, Option.bind_some] at hs
      exact ⟨_, rfl, ⟨hm, rfl⟩, hs⟩
  obtain ⟨st1, e1, h1, hs⟩ := hstep
  obtain ⟨st2, e2, hs⟩ := Option.bind_eq_some_iff.1 hs
  obtain ⟨hm2, hmeas2⟩ := h1.1.localSlice hok hl e2
  have hi := hm2.updatePhB hok hl
  obtain ⟨st3, e3, hs⟩ := Option.bind_eq_some_iff.1 hs
  have h3 := maybeRecompute_eq hi.inv hok e3
  subst h3
  exact ⟨st1, st2, e1, hm, h1.1, h1.2, e2, hmeas2.trans h1.2, hi, hs⟩

/-- choosing the intermediate states of a family -/
theorem family_choose {Y α : Type} {good : Y → Prop} {p : Y → α → Prop} (d : Y → α)
    (h : ∀ y, good y → ∃ a, p y a) : ∃ a : Y → α, ∀ y, good y → p y (a y) := by
  classical
  refine ⟨fun y => if hy : good y then (h y hy).choose else d y, fun y hy => ?_⟩
  simp only [hy, dif_pos]
  exact (h y hy).choose_spec

section tracksPh

variable [MeasurableSpace σ] {P : Measure σ} {φ : M → ℝ} {q : ℕ → Conf L N → ℝ} {qu : Conf L N → ℝ}

theorem integral_conf [IsProbabilityMeasure P] (f : Conf L N → ℝ) (hf : Integrable f (confDist sys ph rest L)) :
    Integrable (fun y : Conf L N × σ => f y.1) ((confDist sys ph rest L).prod P) ∧
    ∫ y, f y.1 ∂((confDist sys ph rest L).prod P) = ∫ x, f x ∂confDist sys ph rest L := by
  refine ⟨hf.comp_fst P, ?_⟩
  rw [integral_fun_fst]
  simp only [probReal_univ, one_smul]

theorem phTimeSlice_tracks [NeZero N] {good : Conf L N × σ → Prop} (hP : sys.rng.Ideal N P) (hok : sys.Ok len) (hL : 2 ≤ L) (hl : l < L)
    (noHS : Bool) (neqlt : ℕ) (hq : AddsPh sys ph rest L len φ q qu) {a b : Conf L N × σ → State σ N M} {c : ℝ}
    (ha : ∀ y, good y → PhInv sys ph L len l (a y))
    (hb : ∀ y, good y → phTimeSlice sys ph noHS neqlt (a y) l = some (b y))
    (h : Tracks ((confDist sys ph rest L).prod P) (good) (viewPh L) φ a c) :
    (∀ y, good y → PhInv sys ph L len (l + 1) (b y)) ∧
    Tracks ((confDist sys ph rest L).prod P) (good) (viewPh L) φ b (c + sliceGainPh sys ph rest L neqlt q l) := by
  have := hP.prob
  refine ⟨fun y hy => (phTimeSlice_inv hok hl noHS neqlt (fun _ => True)
    (fun _ _ _ _ _ _ _ _ _ _ _ _ _ _ _ => trivial) (ha y hy) trivial (hb y hy)).1, ?_⟩
  obtain ⟨F1, hF1, hv1⟩ := hsSlice_viewPh (ph := ph) (rest := rest) (L := L) (l := l) hP hok hl
  obtain ⟨F2, hF2, hv2⟩ := localSlice_viewPh (ph := ph) (rest := rest) (L := L) (l := l) hP hok hL hl
  obtain ⟨a1, h1⟩ := family_choose a fun y hy => phTimeSlice_split hok hl noHS neqlt (ha y hy) (hb y hy)
  obtain ⟨a2, h2⟩ := family_choose a h1
  have ht1 : Tracks ((confDist sys ph rest L).prod P) (good) (viewPh L) φ a1 c := by
    cases noHS
    · exact h.step hF1 fun y hy => by
        obtain ⟨e1, hm, -, e2, -⟩ := h2 y hy
        exact ⟨hv1 (MonteCarlo.wrap l (a y)) (a1 y) hm e1, e2⟩
    · exact h.congr fun y hy => by
        obtain ⟨e1, -⟩ := h2 y hy
        rw [← Option.some.inj e1]
        exact ⟨rfl, rfl⟩
  have ht2 : Tracks ((confDist sys ph rest L).prod P) (good) (viewPh L) φ
      (fun y => MonteCarlo.updatePhB sys l (a2 y)) c :=
    ht1.step hF2 fun y hy => by
      obtain ⟨-, -, hm, e1, e2, e3, -⟩ := h2 y hy
      exact ⟨hv2 (a1 y) (a2 y) hm e2, e3.trans e1.symm⟩
  unfold sliceGainPh
  split
  · rename_i hc
    obtain ⟨hi, he⟩ := integral_conf (P := P) (q l) (hq.intEq l hl)
    rw [← he]
    refine ht2.measure hi fun y hy => ?_
    obtain ⟨-, -, -, -, -, -, hinv, e⟩ := h2 y hy
    unfold measurePh at e
    rw [if_pos hc] at e
    simp only [Option.bind_eq_bind] at e
    obtain ⟨m1, e3, e⟩ := Option.bind_eq_some_iff.1 e
    obtain ⟨m2, e4, e⟩ := Option.bind_eq_some_iff.1 e
    simp only [Option.pure_def, Option.some.injEq] at e
    rw [← e]
    exact ⟨rfl, hq.eq _ _ l _ _ _ _ _ hl ⟨hinv.inv.up.good, hinv.inv.down.good⟩ e3 e4⟩
  · rename_i hc
    rw [add_zero]
    refine ht2.congr fun y hy => ?_
    obtain ⟨-, -, -, -, -, -, -, e⟩ := h2 y hy
    unfold measurePh at e
    rw [if_neg hc] at e
    rw [← Option.some.inj e]
    exact ⟨rfl, rfl⟩

/-- the first `k` slices of a sweep -/
theorem phSlices_tracks [NeZero N] {good : Conf L N × σ → Prop} (hP : sys.rng.Ideal N P) (hok : sys.Ok len) (hL : 2 ≤ L) (noHS : Bool) (neqlt : ℕ)
    (hq : AddsPh sys ph rest L len φ q qu) {a : Conf L N × σ → State σ N M} {c : ℝ}
    (ha : ∀ y, good y → PhInv sys ph L len 0 (a y))
    (h : Tracks ((confDist sys ph rest L).prod P) (good) (viewPh L) φ a c) (k : ℕ) (hk : k ≤ L)
    {b : Conf L N × σ → State σ N M}
    (hb : ∀ y, good y → (List.range k).foldlM (phTimeSlice sys ph noHS neqlt) (a y) = some (b y)) :
    (∀ y, good y → PhInv sys ph L len k (b y)) ∧
    Tracks ((confDist sys ph rest L).prod P) (good) (viewPh L) φ b
      (c + ∑ l ∈ Finset.range k, sliceGainPh sys ph rest L neqlt q l) := by
  induction k generalizing b with
  | zero =>
    have : ∀ y, good y → b y = a y := fun y hy => (Option.some.inj (hb y hy)).symm
    refine ⟨fun y hy => by rw [this y hy]; exact ha y hy, ?_⟩
    rw [Finset.sum_range_zero, add_zero]
    exact h.congr fun y hy => by rw [this y hy]; exact ⟨rfl, rfl⟩
  | succ k ih =>
    have hb' : ∀ y, good y → ((List.range k).foldlM (phTimeSlice sys ph noHS neqlt) (a y)).bind
        (fun st => phTimeSlice sys ph noHS neqlt st k) = some (b y) := by
      intro y hy
      have := hb y hy
      rw [List.range_succ, List.foldlM_append] at this
      obtain ⟨st1, e1, e2⟩ := Option.bind_eq_some_iff.1 this
      rw [List.foldlM_cons] at e2
      obtain ⟨st2, e3, e4⟩ := Option.bind_eq_some_iff.1 e2
      rw [List.foldlM_nil] at e4
      cases e4
      rw [e1]
      exact e3
    obtain ⟨b1, h1, h2⟩ := family_bind (f := fun st => (List.range k).foldlM (phTimeSlice sys ph noHS neqlt) st)
      (g := fun st => phTimeSlice sys ph noHS neqlt st k) hb'
    obtain ⟨i1, t1⟩ := ih (by omega) h1
    rw [Finset.sum_range_succ, ← add_assoc]
    exact phTimeSlice_tracks hP hok hL (by omega) noHS neqlt hq i1 h2 t1

omit [SigmaFinite rest] in
/-- repeated updates -/
theorem iterateM_tracks {good : Conf L N × σ → Prop} {F : Conf L N × σ → Conf L N × σ}
    (hF : MeasurePreserving F ((confDist sys ph rest L).prod P) ((confDist sys ph rest L).prod P))
    (f : State σ N M → Option (State σ N M))
    (hv : ∀ st st', PhInv sys ph L len 0 st → f st = some st' → viewPh L st' = F (viewPh L st))
    (hi : ∀ st st', PhInv sys ph L len 0 st → f st = some st' → PhInv sys ph L len 0 st' ∧ st'.meas = st.meas)
    (n : ℕ) {a b : Conf L N × σ → State σ N M} {c : ℝ}
    (ha : ∀ y, good y → PhInv sys ph L len 0 (a y))
    (h : Tracks ((confDist sys ph rest L).prod P) (good) (viewPh L) φ a c)
    (hb : ∀ y, good y → iterateM f n (a y) = some (b y)) :
    (∀ y, good y → PhInv sys ph L len 0 (b y)) ∧
    Tracks ((confDist sys ph rest L).prod P) (good) (viewPh L) φ b c := by
  induction n generalizing a with
  | zero =>
    have : ∀ y, good y → b y = a y := fun y hy => (Option.some.inj (hb y hy)).symm
    exact ⟨fun y hy => by rw [this y hy]; exact ha y hy,
      h.congr fun y hy => by rw [this y hy]; exact ⟨rfl, rfl⟩⟩
  | succ n ih =>
    obtain ⟨a1, h1, h2⟩ := family_bind (f := f) (g := iterateM f n) hb
    exact ih (fun y hy => (hi _ _ (ha y hy) (h1 y hy)).1)
      (h.step hF fun y hy => ⟨hv _ _ (ha y hy) (h1 y hy), (hi _ _ (ha y hy) (h1 y hy)).2⟩) h2

theorem phIteration_tracks [NeZero N] {good : Conf L N × σ → Prop} (hP : sys.rng.Ideal N P) (hok : sys.Ok len) (hL : 2 ≤ L) (noHS : Bool)
    (neqlt : ℕ) (hq : AddsPh sys ph rest L len φ q qu) {a b : Conf L N × σ → State σ N M} {c : ℝ}
    (ha : ∀ y, good y → PhInv sys ph L len 0 (a y))
    (h : Tracks ((confDist sys ph rest L).prod P) (good) (viewPh L) φ a c)
    (hb : ∀ y, good y → phIteration sys ph noHS neqlt (a y) = some (b y)) :
    (∀ y, good y → PhInv sys ph L len 0 (b y)) ∧
    Tracks ((confDist sys ph rest L).prod P) (good) (viewPh L) φ b
      (c + ∑ l ∈ Finset.range L, sliceGainPh sys ph rest L neqlt q l) := by
  have hb' : ∀ y, good y → ((List.range L).foldlM (phTimeSlice sys ph noHS neqlt) (a y)).bind
      (fun st => (iterateM (blockUpdate sys ph) ph.nBlock st).bind (iterateM (flipUpdate sys ph) ph.nBlock))
      = some (b y) := by
    intro y hy
    have := hb y hy
    unfold phIteration at this
    rw [(ha y hy).inv.up.td.hL] at this
    exact this
  obtain ⟨b1, h1, h2⟩ := family_bind (f := fun st => (List.range L).foldlM (phTimeSlice sys ph noHS neqlt) st)
    (g := fun st => (iterateM (blockUpdate sys ph) ph.nBlock st).bind (iterateM (flipUpdate sys ph) ph.nBlock)) hb'
  obtain ⟨i1, t1⟩ := phSlices_tracks hP hok hL noHS neqlt hq ha h L le_rfl h1
  obtain ⟨b2, h3, h4⟩ := family_bind (f := iterateM (blockUpdate sys ph) ph.nBlock)
    (g := iterateM (flipUpdate sys ph) ph.nBlock) h2
  obtain ⟨F1, hF1, hv1⟩ := block_viewPh (ph := ph) (rest := rest) (L := L) hP hok
  obtain ⟨F2, hF2, hv2⟩ := flip_viewPh (ph := ph) (rest := rest) (L := L) hP hok
  obtain ⟨i2, t2⟩ := iterateM_tracks hF1 _ hv1 (fun _ _ hi hs => blockUpdate_inv hok hi hs) _
    (fun y hy => (i1 y hy).next) t1 h3
  exact iterateM_tracks hF2 _ hv2 (fun _ _ hi hs => flipUpdate_inv hok hi hs) _ i2 t2 h4

variable {cfg : Cfg}

theorem simBody_tracksPh [NeZero N] {good : Conf cfg.L N × σ → Prop} (hP : sys.rng.Ideal N P) (hok : sys.Ok cfg.prodBlen) (hL : 2 ≤ cfg.L)
    (hp : cfg.usePhonons = true) {q : ℕ → Conf cfg.L N → ℝ} {qu : Conf cfg.L N → ℝ}
    (hq : AddsPh sys ph rest cfg.L cfg.prodBlen φ q qu) (it : ℤ)
    {a b : Conf cfg.L N × σ → State σ N M} {c : ℝ}
    (ha : ∀ y, good y → PhInv sys ph cfg.L cfg.prodBlen 0 (a y))
    (h : Tracks ((confDist sys ph rest cfg.L).prod P) (good) (viewPh cfg.L) φ a c)
    (hb : ∀ y, good y → simBody sys ph cfg it (a y) = some (b y)) :
    (∀ y, good y → PhInv sys ph cfg.L cfg.prodBlen 0 (b y)) ∧
    Tracks ((confDist sys ph rest cfg.L).prod P) (good) (viewPh cfg.L) φ b
      (c + iterGainPh sys ph rest cfg q qu it) := by
  have := hP.prob
  have hb' : ∀ y, good y → (phIteration sys ph cfg.noHS (effNeqlt cfg it) (a y)).bind
      (fun st => measureUneq sys cfg it st) = some (b y) := by
    intro y hy
    have := hb y hy
    unfold simBody at this
    rw [hp] at this
    exact this
  obtain ⟨b1, h1, h2⟩ := family_bind (f := fun st => phIteration sys ph cfg.noHS (effNeqlt cfg it) st)
    (g := fun st => measureUneq sys cfg it st) hb'
  obtain ⟨i2, t1⟩ := phIteration_tracks hP hok hL cfg.noHS (effNeqlt cfg it) hq ha h h1
  unfold iterGainPh
  rw [← add_assoc]
  split
  · rename_i hc
    obtain ⟨hi, he⟩ := integral_conf (P := P) qu hq.intUneq
    have e : ∀ y, good y → ∃ m, sys.meas.uneq ((b1 y).Gu.sgndet * (b1 y).Gd.sgndet) (b1 y).tsmU
        (b1 y).tsmD (b1 y).meas = some m ∧ b y = { b1 y with meas := m } := by
      intro y hy
      have e := h2 y hy
      unfold measureUneq at e
      rw [if_pos hc] at e
      simp only [Option.bind_eq_bind] at e
      obtain ⟨m, e3, e⟩ := Option.bind_eq_some_iff.1 e
      simp only [Option.pure_def, Option.some.injEq] at e
      exact ⟨m, e3, e.symm⟩
    refine ⟨fun y hy => ?_, ?_⟩
    · obtain ⟨m, -, e⟩ := e y hy
      rw [e]
      exact ⟨⟨(i2 y hy).inv.up, (i2 y hy).inv.down⟩, (i2 y hy).coh⟩
    · rw [← he]
      refine t1.measure hi fun y hy => ?_
      obtain ⟨m, e1, e⟩ := e y hy
      rw [e]
      exact ⟨rfl, hq.uneq _ _ (i2 y hy) e1⟩
  · rename_i hc
    have e : ∀ y, good y → b y = b1 y := by
      intro y hy
      have e := h2 y hy
      unfold measureUneq at e
      rw [if_neg hc] at e
      exact (Option.some.inj e).symm
    rw [add_zero]
    exact ⟨fun y hy => by rw [e y hy]; exact i2 y hy, t1.congr fun y hy => by rw [e y hy]; exact ⟨rfl, rfl⟩⟩

theorem runs_tracksPh [NeZero N] {good : Conf cfg.L N × σ → Prop} (hP : sys.rng.Ideal N P) (hok : sys.Ok cfg.prodBlen) (hL : 2 ≤ cfg.L)
    (hp : cfg.usePhonons = true) {q : ℕ → Conf cfg.L N → ℝ} {qu : Conf cfg.L N → ℝ}
    (hq : AddsPh sys ph rest cfg.L cfg.prodBlen φ q qu) (it : ℤ) (m : ℕ)
    {a b : Conf cfg.L N × σ → State σ N M} {c : ℝ}
    (ha : ∀ y, good y → PhInv sys ph cfg.L cfg.prodBlen 0 (a y))
    (h : Tracks ((confDist sys ph rest cfg.L).prod P) (good) (viewPh cfg.L) φ a c)
    (hb : ∀ y, good y → runs (simBody sys ph cfg) it m (a y) = some (b y)) :
    Tracks ((confDist sys ph rest cfg.L).prod P) (good) (viewPh cfg.L) φ b
      (c + ∑ j ∈ Finset.range m, iterGainPh sys ph rest cfg q qu (it + j)) := by
  have key : (∀ y, good y → PhInv sys ph cfg.L cfg.prodBlen 0 (b y)) ∧
      Tracks ((confDist sys ph rest cfg.L).prod P) (good) (viewPh cfg.L) φ b
        (c + ∑ j ∈ Finset.range m, iterGainPh sys ph rest cfg q qu (it + j)) := by
    induction m generalizing b with
    | zero =>
      have : ∀ y, good y → b y = a y := fun y hy => (Option.some.inj (hb y hy)).symm
      refine ⟨fun y hy => by rw [this y hy]; exact ha y hy, ?_⟩
      rw [Finset.sum_range_zero, add_zero]
      exact h.congr fun y hy => by rw [this y hy]; exact ⟨rfl, rfl⟩
    | succ m ih =>
      obtain ⟨b1, h1, h2⟩ := family_bind (f := fun st => runs (simBody sys ph cfg) it m st)
        (g := fun st => simBody sys ph cfg (it + m) st) hb
      obtain ⟨i1, t1⟩ := ih h1
      rw [Finset.sum_range_succ, ← add_assoc]
      exact simBody_tracksPh hP hok hL hp hq (it + m) i1 t1 h2
  exact key.2

/-- C77, C78: the runs of the whole program -/
theorem simulate_tracksPh [NeZero N] {good : Conf cfg.L N × σ → Prop} (hP : sys.rng.Ideal N P) (hok : sys.Ok cfg.prodBlen) (hL : 2 ≤ cfg.L)
    (hd : cfg.prodBlen ∣ cfg.L) (hp : cfg.usePhonons = true) {q : ℕ → Conf cfg.L N → ℝ} {qu : Conf cfg.L N → ℝ}
    (hq : AddsPh sys ph rest cfg.L cfg.prodBlen φ q qu) (stop : ℤ → Bool) (it : ℤ) (cnt : Counters) (meas : M)
    (hm : Integrable (fun _ : Conf cfg.L N => φ meas) (confDist sys ph rest cfg.L))
    (R : Conf cfg.L N × σ → LoopResult (State σ N M))
    (hR : ∀ y, good y → simulate sys ph cfg stop it y.2 (Fock.extend y.1.1) (extendX y.1.2)
      (sys.expOf ph (extendX y.1.2)) cnt meas = some (R y)) :
    Tracks ((confDist sys ph rest cfg.L).prod P) (good) (viewPh cfg.L) φ (fun y => (R y).state)
      ((∫ _, φ meas ∂confDist sys ph rest cfg.L) +
        ∑ j ∈ Finset.range (iterations stop (cfg.nequil + cfg.nsampl - it).toNat it),
          iterGainPh sys ph rest cfg q qu (it + j)) := by
  have := hP.prob
  have hst : ∀ y, good y → ∃ st,
      startState sys cfg y.2 (Fock.extend y.1.1) (extendX y.1.2) (sys.expOf ph (extendX y.1.2)) cnt meas = some st ∧
      runs (simBody sys ph cfg) it (iterations stop (cfg.nequil + cfg.nsampl - it).toNat it) st
        = some (R y).state := by
    intro y hy
    have h := hR y hy
    unfold simulate at h
    simp only [Option.bind_eq_bind] at h
    obtain ⟨st, e1, h⟩ := Option.bind_eq_some_iff.1 h
    exact ⟨st, e1, simLoop_iterations _ _ _ _ _ _ _ h⟩
  obtain ⟨a, ha⟩ := family_choose (fun y => (R y).state) hst
  refine runs_tracksPh hP hok hL hp hq it _
    (fun y hy => startState_phInv hok (by omega) hd hp _ _ _ _ _ _ (fun _ _ _ => rfl) _ (ha y hy).1) ?_
    fun y hy => (ha y hy).2
  obtain ⟨hi, he⟩ := integral_conf (P := P) (fun _ : Conf cfg.L N => φ meas) hm
  refine ⟨id, MeasurePreserving.id _, fun y hy => ?_, fun _ => φ meas, hi, fun y hy => ?_, he⟩
  · obtain ⟨-, -, e1, e3, -, e2⟩ := startState_frame cfg _ _ _ _ _ _ _ (ha y hy).1
    unfold viewPh
    rw [e1, e2, e3, fieldOf_extend, pathsOf_extendX]
    rfl
  · rw [(startState_frame cfg _ _ _ _ _ _ _ (ha y hy).1).2.1]

/-- C77: if the initial configuration is distributed according to the weights and the random numbers are ideal, then
the final configuration of a run with phonons and at least two slices is distributed according to the weights, and the
final state of the source is independent of it and distributed as at the start -/
theorem simulate_stationary_ph_of_defined [NeZero N] (hP : sys.rng.Ideal N P) (hok : sys.Ok cfg.prodBlen) (hL : 2 ≤ cfg.L)
    (hd : cfg.prodBlen ∣ cfg.L) (hp : cfg.usePhonons = true) (stop : ℤ → Bool) (it : ℤ) (cnt : Counters) (meas : M)
    (R : Conf cfg.L N × σ → LoopResult (State σ N M))
    (hR : ∀ᵐ y ∂(confDist sys ph rest cfg.L).prod P, simulate sys ph cfg stop it y.2 (Fock.extend y.1.1) (extendX y.1.2)
      (sys.expOf ph (extendX y.1.2)) cnt meas = some (R y))
    (S : Set (Conf cfg.L N)) (hS : MeasurableSet S) (A : Set σ) (hA : MeasurableSet A) :
    ((confDist sys ph rest cfg.L).prod P) {y | (fieldOf cfg.L (R y).state.s, pathsOf cfg.L (R y).state.X) ∈ S ∧
        (R y).state.rng ∈ A}
      = confDist sys ph rest cfg.L S * P A := by
  have := hP.prob
  obtain ⟨F, hF, hv, -⟩ := simulate_tracksPh (rest := rest) (good := fun y => simulate sys ph cfg stop it y.2 (Fock.extend y.1.1)
    (extendX y.1.2) (sys.expOf ph (extendX y.1.2)) cnt meas = some (R y)) (φ := fun _ => 0) (q := fun _ _ => 0) (qu := fun _ => 0) hP hok hL hd hp
    ⟨fun _ _ _ _ _ _ _ _ _ _ _ _ => by simp, fun _ _ _ _ => by simp, fun _ _ => integrable_zero _ _ _,
      integrable_zero _ _ _⟩ stop it cnt meas (integrable_zero _ _ _) R
    (fun _ hy => hy)
  rw [← Measure.prod_prod, ← hF.measure_preimage (hS.prod hA).nullMeasurableSet]
  refine measure_congr ?_
  filter_upwards [hR] with y hy
  have e := hv y hy
  refine propext ?_
  show _ ↔ F y ∈ S ×ˢ A
  rw [← e]
  rfl

/-- C78: integral of a quantity of the measurement data at the end of a run with phonons -/
theorem simulate_expected_ph [NeZero N] (hP : sys.rng.Ideal N P) (hok : sys.Ok cfg.prodBlen) (hL : 2 ≤ cfg.L)
    (hd : cfg.prodBlen ∣ cfg.L) (hp : cfg.usePhonons = true) {q : ℕ → Conf cfg.L N → ℝ} {qu : Conf cfg.L N → ℝ}
    (hq : AddsPh sys ph rest cfg.L cfg.prodBlen φ q qu) (stop : ℤ → Bool) (it : ℤ) (cnt : Counters) (meas : M)
    (hm : Integrable (fun _ : Conf cfg.L N => φ meas) (confDist sys ph rest cfg.L))
    (R : Conf cfg.L N × σ → LoopResult (State σ N M))
    (hR : ∀ᵐ y ∂(confDist sys ph rest cfg.L).prod P, simulate sys ph cfg stop it y.2 (Fock.extend y.1.1) (extendX y.1.2)
      (sys.expOf ph (extendX y.1.2)) cnt meas = some (R y)) :
    ∫ y, φ (R y).state.meas ∂(confDist sys ph rest cfg.L).prod P = (∫ _, φ meas ∂confDist sys ph rest cfg.L) +
        ∑ j ∈ Finset.range (iterations stop (cfg.nequil + cfg.nsampl - it).toNat it),
          iterGainPh sys ph rest cfg q qu (it + j) := by
  have := hP.prob
  obtain ⟨F, hF, -, g, hg, hm, hi⟩ := simulate_tracksPh (rest := rest) (good := fun y => simulate sys ph cfg stop it y.2
    (Fock.extend y.1.1) (extendX y.1.2) (sys.expOf ph (extendX y.1.2)) cnt meas = some (R y)) hP hok hL hd hp hq stop it cnt meas hm R
    (fun _ hy => hy)
  rw [← hi]
  refine integral_congr_ae ?_
  filter_upwards [hR] with y hy
  exact hm y hy

end tracksPh

end Verif.MonteCarlo
