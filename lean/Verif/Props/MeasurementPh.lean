import Verif.Props.Measurement

/-! # Properties C60 and C66: phonon measurements -/

set_option autoImplicit false

namespace Verif.Measurement

open Matrix Verif.Lapack Verif.TimeFlow Verif.Greens Verif.Mem Verif.Lattice

variable {N : ℕ}

/-! ## What `AccumulatePhononData` adds -/

/-- contribution of a list of additions to different fields -/
theorem total_fields' {A : Type} [DecidableEq A] (fs : List A) (hfs : fs.Nodup) (z₀ : A → ℤ)
    (v : A → ℝ) (f : A) (z : ℤ) :
    total (fs.map fun f => (f, z₀ f, v f)) f z = if f ∈ fs ∧ z₀ f = z then v f else 0 := by
  induction fs with
  | nil => simp [total_nil]
  | cons g fs ih =>
    rw [List.nodup_cons] at hfs
    rw [List.map_cons, total_cons, ih hfs.2]
    by_cases hg : g = f
    · subst hg
      by_cases hz : z₀ g = z <;> simp [hz, hfs.1]
    · simp [hg, Ne.symm hg]

/-- index at which the value of orbital `o` is stored, for sample number `n` -/
def phIdx (Norb n o : ℕ) : PhF → ℤ
  | .iterXAvg | .iterX0 => ((o + n * Norb : ℕ) : ℤ)
  | _ => o

def sliceFields : List PhF := [.xSqAvg, .iterXAvg, .vAvg, .vSqAvg, .pe, .ke]

/-- values added for neighbouring field values `x`, `y` at one site, as written in the code -/
noncomputable def sliceVal (sf dt om x y : ℝ) : PhF → ℝ
  | .xSqAvg => sf * x ^ 2
  | .iterXAvg => sf * x
  | .vAvg => sf / dt * (y - x)
  | .vSqAvg => sf / (dt * dt) * (y - x) ^ 2
  | .pe => 0.5 * om ^ 2 * sf * x ^ 2
  | .ke => -(0.5 / (dt * dt) * sf * (y - x) ^ 2)
  | _ => 0

/-- average of the field of one orbital, times the sign -/
noncomputable def curAvg [NeZero N] (Ncell L : ℕ) (sign : ℝ) (X : ℕ → Fin N → ℝ) (o : ℕ) : ℝ :=
  ∑ l ∈ Finset.range L, ∑ i ∈ Finset.range Ncell, sign / Ncell / L * X l (siteN N Ncell o i)

/-- average of density times field, times the sign -/
noncomputable def curNX [NeZero N] (Ncell : ℕ) (sign : ℝ) (U D : Mat N) (x : Fin N → ℝ) (o : ℕ) : ℝ :=
  (∑ i ∈ Finset.range Ncell, (1 - U (siteN N Ncell o i) (siteN N Ncell o i)
    + (1 - D (siteN N Ncell o i) (siteN N Ncell o i))) * x (siteN N Ncell o i)) * (sign / Ncell)

/-- what one call adds to the arrays -/
structure PhContrib [NeZero N] (Norb Ncell L : ℕ) (U D : Mat N) (X : ℕ → Fin N → ℝ) (dt : ℝ)
    (omega : ℕ → ℝ) (sign : ℝ) (n lG : ℕ) (c : PhF → ℤ → ℝ) : Prop where
  slice : ∀ f ∈ [PhF.xSqAvg, .iterXAvg, .vAvg, .vSqAvg, .pe], ∀ o < Norb,
    c f (phIdx Norb n o f) = ∑ l ∈ Finset.range L, ∑ i ∈ Finset.range Ncell,
      sliceVal (sign / Ncell / L) dt (omega o) (X l (siteN N Ncell o i))
        (X ((l + 1) % L) (siteN N Ncell o i)) f
  ke : ∀ o < Norb, c .ke o = (∑ l ∈ Finset.range L, ∑ i ∈ Finset.range Ncell,
      sliceVal (sign / Ncell / L) dt (omega o) (X l (siteN N Ncell o i))
        (X ((l + 1) % L) (siteN N Ncell o i)) .ke) + if o = 0 then Norb * (sign * 0.5 / dt) else 0
  x0 : ∀ o < Norb, c .iterX0 (phIdx Norb n o .iterX0)
    = ∑ l ∈ Finset.range L, sign / L * X l (siteN N Ncell o 0)
  xAvg : ∀ o < Norb, c .xAvg o = curAvg Ncell L sign X o
  xAvgSq : ∀ o < Norb, c .xAvgSq o = curAvg Ncell L sign X o ^ 2
  nX : ∀ o < Norb, c .nX o = curNX Ncell sign U D (X lG) o
  others : ∀ f ∈ [PhF.iterXAvg, .iterX0], ∀ z : ℤ, (∀ o < Norb, z ≠ phIdx Norb n o f) → c f z = 0

/-- the additions of the first loop, of the loop over orbitals and of the last loop -/
noncomputable def sliceList [NeZero N] (Norb Ncell L : ℕ) (X : ℕ → Fin N → ℝ) (dt : ℝ) (omega : ℕ → ℝ)
    (sign : ℝ) (n : ℕ) : List (Add PhF) :=
  forLoop L fun l => forLoop Norb fun o =>
    (forLoop Ncell fun i => sliceFields.map fun f => (f, phIdx Norb n o f,
        sliceVal (sign / Ncell / L) dt (omega o) (X l (siteN N Ncell o i))
          (X ((l + 1) % L) (siteN N Ncell o i)) f)) ++
      [(PhF.iterX0, phIdx Norb n o .iterX0, sign / L * X l (siteN N Ncell o 0))]

noncomputable def orbList [NeZero N] (Norb Ncell L : ℕ) (X : ℕ → Fin N → ℝ) (dt : ℝ) (sign : ℝ) :
    List (Add PhF) :=
  forLoop Norb fun o => [(PhF.xAvg, (o : ℤ), curAvg Ncell L sign X o),
    (.xAvgSq, (o : ℤ), curAvg Ncell L sign X o ^ 2), (.ke, 0, sign * 0.5 / dt)]

noncomputable def nXList [NeZero N] (Norb Ncell : ℕ) (sign : ℝ) (U D : Mat N) (x : Fin N → ℝ) :
    List (Add PhF) :=
  forLoop Norb fun o => [(PhF.nX, (o : ℤ), curNX Ncell sign U D x o)]

section
variable [NeZero N] {Norb Ncell L : ℕ} (hN : N = Ncell * Norb)
include hN

theorem read_X (X : ℕ → Fin N → ℝ) {l o i : ℕ} (hl : l < L) (ho : o < Norb) (hi : i < Ncell) {z : ℤ}
    (hz : z = (i : ℤ) + o * Ncell + l * (Ncell * Norb : ℤ)) :
    flatX L X z = some (X l (siteN N Ncell o i)) := by
  refine flatX_apply L X l hl _ z ?_
  rw [siteN_val hN ho hi, hz, hN]
  push_cast
  ring

theorem phSliceAdds_eq (X : ℕ → Fin N → ℝ) (dt : ℝ) (omega : ℕ → ℝ) (sign : ℝ) (n : ℕ) {l o : ℕ}
    (hl : l < L) (ho : o < Norb) :
    phSliceAdds Norb Ncell L (flatX L X) dt omega sign n l o = some
      ((forLoop Ncell fun i => sliceFields.map fun f => (f, phIdx Norb n o f,
        sliceVal (sign / Ncell / L) dt (omega o) (X l (siteN N Ncell o i))
          (X ((l + 1) % L) (siteN N Ncell o i)) f)) ++
      [(PhF.iterX0, phIdx Norb n o .iterX0, sign / L * X l (siteN N Ncell o 0))]) := by
  have hL : 0 < L := by omega
  have hc : 0 < Ncell := by
    rcases Nat.eq_zero_or_pos Ncell with h | h
    · exact absurd hN (by rw [h, zero_mul]; exact NeZero.ne N)
    · exact h
  unfold phSliceAdds
  simp only [Option.bind_eq_bind]
  have h1 : (loopM Ncell fun i => (flatX L X ((i : ℤ) + o * Ncell + l * (Ncell * Norb : ℤ))).bind
      fun x => (flatX L X ((i : ℤ) + o * Ncell + ((l + 1) % L : ℕ) * (Ncell * Norb : ℤ))).bind
        fun y => (pure [(PhF.xSqAvg, (o : ℤ), sign / Ncell / L * x ^ 2),
          (.iterXAvg, o + n * Norb, sign / Ncell / L * x),
          (.vAvg, o, sign / Ncell / L / dt * (y - x)),
          (.vSqAvg, o, sign / Ncell / L / (dt * dt) * (y - x) ^ 2),
          (.pe, o, 0.5 * omega o ^ 2 * (sign / Ncell / L) * x ^ 2),
          (.ke, o, -(0.5 / (dt * dt) * (sign / Ncell / L) * (y - x) ^ 2))] : Option (List (Add PhF))))
      = some (forLoop Ncell fun i => sliceFields.map fun f => (f, phIdx Norb n o f,
        sliceVal (sign / Ncell / L) dt (omega o) (X l (siteN N Ncell o i))
          (X ((l + 1) % L) (siteN N Ncell o i)) f)) := by
    refine loopM_eq _ fun i hi => ?_
    rw [read_X hN X hl ho hi rfl, read_X hN X (Nat.mod_lt _ hL) ho hi rfl]
    simp [sliceFields, sliceVal, phIdx]
  rw [h1, read_X hN X hl ho hc (by push_cast; ring)]
  simp [phIdx]

theorem curXAvg_eq (X : ℕ → Fin N → ℝ) (sign : ℝ) {o : ℕ} (ho : o < Norb) :
    curXAvg Norb Ncell L (flatX L X) sign o = some (curAvg Ncell L sign X o) := by
  unfold curXAvg curAvg
  refine sumM_eq _ fun l hl => sumM_eq _ fun i hi => ?_
  simp only [Option.bind_eq_bind]
  rw [read_X hN X hl ho hi rfl]
  rfl

theorem phNXAdds_eq (U D : Mat N) (X : ℕ → Fin N → ℝ) (sign : ℝ) {lG o : ℕ} (hl : lG < L)
    (ho : o < Norb) :
    phNXAdds Norb Ncell (flat U) (flat D) (flatX L X) sign lG o
      = some [(PhF.nX, (o : ℤ), curNX Ncell sign U D (X lG) o)] := by
  unfold phNXAdds curNX
  simp only [Option.bind_eq_bind]
  rw [sumM_eq fun i => (1 - U (siteN N Ncell o i) (siteN N Ncell o i)
    + (1 - D (siteN N Ncell o i) (siteN N Ncell o i))) * X lG (siteN N Ncell o i)]
  · rfl
  · intro i hi
    rw [read_mat hN U ho hi ho hi (by ring), read_mat hN D ho hi ho hi (by ring),
      read_X hN X hl ho hi rfl]
    rfl

omit hN [NeZero N] in
theorem phIdx_inj (n o o' : ℕ) (f : PhF) : phIdx Norb n o f = phIdx Norb n o' f ↔ o = o' := by
  cases f <;> simp [phIdx]

theorem phAdds_eq (U D : Mat N) (X : ℕ → Fin N → ℝ) (dt : ℝ) (omega : ℕ → ℝ) (sign : ℝ)
    (n : ℕ) {lG : ℕ} (hl : lG < L) :
    phAdds Norb Ncell L (flat U) (flat D) (flatX L X) dt omega sign n lG = some
      (sliceList Norb Ncell L X dt omega sign n ++ orbList Norb Ncell L X dt sign
        ++ nXList Norb Ncell sign U D (X lG)) := by
  have a1 : (loopM L fun l => loopM Norb fun o =>
      phSliceAdds Norb Ncell L (flatX L X) dt omega sign n l o)
        = some (sliceList Norb Ncell L X dt omega sign n) :=
    loopM_eq _ fun l hl => loopM_eq _ fun o ho => phSliceAdds_eq hN X dt omega sign n hl ho
  have b1 : (loopM Norb fun o => phOrbAdds Norb Ncell L (flatX L X) dt sign o)
      = some (orbList Norb Ncell L X dt sign) := by
    refine loopM_eq _ fun o ho => ?_
    unfold phOrbAdds
    rw [curXAvg_eq hN X sign ho]
    rfl
  have c1 : (loopM Norb fun o => phNXAdds Norb Ncell (flat U) (flat D) (flatX L X) sign lG o)
      = some (nXList Norb Ncell sign U D (X lG)) :=
    loopM_eq _ fun o ho => phNXAdds_eq hN U D X sign hl ho
  unfold phAdds
  simp only [a1, b1, c1, Option.bind_eq_bind, Option.bind_some, Option.pure_def]

omit hN [NeZero N] in
theorem phIdx_inside {n maxN : ℕ} (hn : n < maxN) (f : PhF) {o : ℕ} (ho : o < Norb) :
    0 ≤ phIdx Norb n o f ∧ phIdx Norb n o f < PhF.size Norb maxN f := by
  have h : o + Norb * n < Norb * maxN := site_lt hn ho
  have h2 : ((o + n * Norb : ℕ) : ℤ) < ((Norb * maxN : ℕ) : ℤ) := by
    rw [mul_comm n]
    exact_mod_cast h
  push_cast at h2
  cases f <;> simp only [phIdx, PhF.size] <;> constructor <;> first
    | positivity
    | exact_mod_cast ho
    | (push_cast; linarith)

omit hN in
theorem ph_inside (U D : Mat N) (X : ℕ → Fin N → ℝ) (dt : ℝ) (omega : ℕ → ℝ) (sign : ℝ)
    {n lG maxN : ℕ} (hn : n < maxN) :
    Inside (PhF.size Norb maxN) (sliceList Norb Ncell L X dt omega sign n
      ++ orbList Norb Ncell L X dt sign ++ nXList Norb Ncell sign U D (X lG)) := by
  refine Inside.append (Inside.append ?_ ?_) ?_
  · refine Inside.forLoop fun l _ => Inside.forLoop fun o ho => Inside.append ?_ ?_
    · refine Inside.forLoop fun i _ => ?_
      intro w hw
      obtain ⟨f, -, rfl⟩ := List.mem_map.1 hw
      exact phIdx_inside hn f ho
    · intro w hw
      rw [List.mem_singleton.1 hw]
      exact phIdx_inside hn .iterX0 ho
  · refine Inside.forLoop fun o ho => ?_
    intro w hw
    simp only [List.mem_cons, List.not_mem_nil, or_false] at hw
    rcases hw with rfl | rfl | rfl
    · exact phIdx_inside hn .xAvg ho
    · exact phIdx_inside hn .xAvgSq ho
    · exact ⟨le_rfl, by simp only [PhF.size]; omega⟩
  · refine Inside.forLoop fun o ho => ?_
    intro w hw
    rw [List.mem_singleton.1 hw]
    exact phIdx_inside hn .nX ho

omit hN [NeZero N] in
theorem sum_pick (n : ℕ) (f : PhF) {o : ℕ} (ho : o < Norb) (v : ℕ → ℝ) :
    (∑ o' ∈ Finset.range Norb, if phIdx Norb n o' f = phIdx Norb n o f then v o' else 0) = v o := by
  simp only [phIdx_inj]
  rw [Finset.sum_ite_eq' (Finset.range Norb) o]
  simp [ho]

omit hN in
theorem total_slice (X : ℕ → Fin N → ℝ) (dt : ℝ) (omega : ℕ → ℝ) (sign : ℝ) (n : ℕ) (f : PhF)
    {o : ℕ} (ho : o < Norb) :
    total (sliceList Norb Ncell L X dt omega sign n) f (phIdx Norb n o f)
      = (if f ∈ sliceFields then ∑ l ∈ Finset.range L, ∑ i ∈ Finset.range Ncell,
          sliceVal (sign / Ncell / L) dt (omega o) (X l (siteN N Ncell o i))
            (X ((l + 1) % L) (siteN N Ncell o i)) f else 0)
        + if f = .iterX0 then ∑ l ∈ Finset.range L, sign / L * X l (siteN N Ncell o 0) else 0 := by
  have hnd : sliceFields.Nodup := by decide
  unfold sliceList
  simp only [total_forLoop, total_append, total_fields' _ hnd, total_cons, total_nil, add_zero]
  simp only [Finset.sum_add_distrib]
  congr 1
  · by_cases hf : f ∈ sliceFields
    · simp only [hf, true_and, if_true]
      refine Finset.sum_congr rfl fun l _ => ?_
      rw [← sum_pick n f ho fun o' => ∑ i ∈ Finset.range Ncell,
        sliceVal (sign / Ncell / L) dt (omega o') (X l (siteN N Ncell o' i))
          (X ((l + 1) % L) (siteN N Ncell o' i)) f]
      refine Finset.sum_congr rfl fun o' _ => ?_
      by_cases h : phIdx Norb n o' f = phIdx Norb n o f <;> simp [h]
    · simp [hf]
  · by_cases hf : f = .iterX0
    · subst hf
      simp only [true_and, if_true]
      refine Finset.sum_congr rfl fun l _ => ?_
      rw [← sum_pick n .iterX0 ho fun o' => sign / L * X l (siteN N Ncell o' 0)]
    · have : ¬ PhF.iterX0 = f := fun h => hf h.symm
      simp [hf, this]

omit hN in
theorem total_orb (X : ℕ → Fin N → ℝ) (dt : ℝ) (sign : ℝ) (n : ℕ) (f : PhF) {o : ℕ} (ho : o < Norb) :
    total (orbList Norb Ncell L X dt sign) f (phIdx Norb n o f)
      = match f with
        | .xAvg => curAvg Ncell L sign X o
        | .xAvgSq => curAvg Ncell L sign X o ^ 2
        | .ke => if o = 0 then Norb * (sign * 0.5 / dt) else 0
        | _ => 0 := by
  unfold orbList
  simp only [total_forLoop, total_cons, total_nil, add_zero]
  have hp : ∀ v : ℕ → ℝ, (∑ o' ∈ Finset.range Norb, if o' = o then v o' else 0) = v o := by
    intro v
    rw [Finset.sum_ite_eq' (Finset.range Norb) o]
    simp [ho]
  cases f <;> simp [hp, Nat.cast_inj, phIdx]
  · by_cases h : o = 0
    · subst h; simp
    · have : ¬ (0 : ℤ) = o := by omega
      simp [h, this]

omit hN in
theorem total_nX (U D : Mat N) (x : Fin N → ℝ) (sign : ℝ) (n : ℕ) (f : PhF) {o : ℕ} (ho : o < Norb) :
    total (nXList Norb Ncell sign U D x) f (phIdx Norb n o f)
      = if f = .nX then curNX Ncell sign U D x o else 0 := by
  unfold nXList
  simp only [total_forLoop, total_cons, total_nil, add_zero]
  by_cases h : PhF.nX = f
  · subst h
    simp only [true_and, Nat.cast_inj, if_true, phIdx]
    rw [Finset.sum_ite_eq' (Finset.range Norb) o]
    simp [ho]
  · simp [h, Ne.symm h]

theorem accumulatePh_contrib (Gu Gd : GreensFn N) (X : ℕ → Fin N → ℝ) (dt : ℝ) (omega : ℕ → ℝ)
    {lG : ℕ} (hl : lG < L) (m : PhData) (hm : m.nsampl < m.maxNsampl) :
    ∃ c, PhContrib Norb Ncell L Gu.mat Gd.mat X dt omega ((Gu.sgndet * Gd.sgndet : ℤ) : ℝ) m.nsampl
        lG c ∧
      accumulatePh Norb Ncell L dt omega Gu Gd lG X m = some
        { arr := fun f z => m.arr f z + c f z
          sign := m.sign + ((Gu.sgndet * Gd.sgndet : ℤ) : ℝ)
          nsampl := m.nsampl + 1
          maxNsampl := m.maxNsampl } := by
  refine ⟨total (sliceList Norb Ncell L X dt omega ((Gu.sgndet * Gd.sgndet : ℤ) : ℝ) m.nsampl
    ++ orbList Norb Ncell L X dt ((Gu.sgndet * Gd.sgndet : ℤ) : ℝ)
    ++ nXList Norb Ncell ((Gu.sgndet * Gd.sgndet : ℤ) : ℝ) Gu.mat Gd.mat (X lG)), ?_, ?_⟩
  · generalize ((Gu.sgndet * Gd.sgndet : ℤ) : ℝ) = sign
    generalize m.nsampl = n
    have key : ∀ f, ∀ o < Norb, total (sliceList Norb Ncell L X dt omega sign n
        ++ orbList Norb Ncell L X dt sign ++ nXList Norb Ncell sign Gu.mat Gd.mat (X lG)) f
          (phIdx Norb n o f) = _ := fun f o ho => by
      rw [total_append, total_append, total_slice X dt omega sign n f ho, total_orb X dt sign n f ho,
        total_nX Gu.mat Gd.mat (X lG) sign n f ho]
    refine ⟨?_, ?_, ?_, ?_, ?_, ?_, ?_⟩
    · intro f hf o ho
      rw [key f o ho]
      fin_cases hf <;> simp [sliceFields]
    · intro o ho
      refine (key .ke o ho).trans ?_
      simp [sliceFields]
    · intro o ho
      refine (key .iterX0 o ho).trans ?_
      simp [sliceFields]
    · intro o ho
      refine (key .xAvg o ho).trans ?_
      simp [sliceFields]
    · intro o ho
      refine (key .xAvgSq o ho).trans ?_
      simp [sliceFields]
    · intro o ho
      refine (key .nX o ho).trans ?_
      simp [sliceFields]
    · intro f hf z hz
      have hf' : f ≠ .xAvg ∧ f ≠ .xAvgSq ∧ f ≠ .ke ∧ f ≠ .nX := by fin_cases hf <;> decide
      have hnd : sliceFields.Nodup := by decide
      rw [total_append, total_append]
      unfold sliceList orbList nXList
      simp only [total_forLoop, total_append, total_fields' _ hnd, total_cons, total_nil, add_zero,
        hf'.1.symm, hf'.2.1.symm, hf'.2.2.1.symm, hf'.2.2.2.symm, false_and, if_false,
        Finset.sum_const_zero]
      refine Finset.sum_eq_zero fun l _ => Finset.sum_eq_zero fun o ho => ?_
      have hne := hz o (Finset.mem_range.1 ho)
      rw [Finset.sum_eq_zero fun i _ => if_neg fun h => hne h.2.symm, zero_add]
      exact if_neg fun h => hne (by rw [← h.2, ← h.1])
  · unfold accumulatePh
    simp only [phAdds_eq hN Gu.mat Gd.mat X dt omega ((Gu.sgndet * Gd.sgndet : ℤ) : ℝ) m.nsampl hl,
      Option.bind_eq_bind, Option.bind_some, execute_eq _ m.arr _
      (ph_inside (Ncell := Ncell) (L := L) (lG := lG) Gu.mat Gd.mat X dt omega
        ((Gu.sgndet * Gd.sgndet : ℤ) : ℝ) hm), Option.pure_def]

end

/-! ## Specification -/

/-- average over all cells and time slices of a quantity depending on slice and site, for orbital `o` -/
noncomputable def fieldMean [NeZero N] (Ncell L o : ℕ) (q : ℕ → Fin N → ℝ) : ℝ :=
  (∑ l ∈ Finset.range L, ∑ i ∈ Finset.range Ncell, q l (siteN N Ncell o i)) / (Ncell * L)

/-- discrete imaginary time derivative of the displacements, periodic in time -/
noncomputable def velocity (L : ℕ) (dt : ℝ) (X : ℕ → Fin N → ℝ) (l : ℕ) (i : Fin N) : ℝ :=
  (X ((l + 1) % L) i - X l i) / dt

/-- potential energy of the oscillators of orbital `o` -/
noncomputable def potentialEnergy [NeZero N] (Ncell L : ℕ) (omega : ℕ → ℝ) (X : ℕ → Fin N → ℝ)
    (o : ℕ) : ℝ :=
  omega o ^ 2 / 2 * fieldMean Ncell L o fun l i => X l i ^ 2

/-- kinetic energy of the oscillators of orbital `o` -/
noncomputable def kineticEnergy [NeZero N] (Ncell L : ℕ) (dt : ℝ) (X : ℕ → Fin N → ℝ) (o : ℕ) : ℝ :=
  1 / (2 * dt) - (fieldMean Ncell L o fun l i => velocity L dt X l i ^ 2) / 2

theorem fieldMean_mul [NeZero N] (Ncell L o : ℕ) (a : ℝ) (q : ℕ → Fin N → ℝ) :
    fieldMean Ncell L o (fun l i => a * q l i) = a * fieldMean Ncell L o q := by
  unfold fieldMean
  simp only [← Finset.mul_sum]
  ring

/-- the form in which the code evaluates such averages -/
theorem sum_slices [NeZero N] (Ncell L o : ℕ) (sign a : ℝ) (q : ℕ → Fin N → ℝ) (g : ℕ → ℕ → ℝ)
    (h : ∀ l i, g l i = sign / Ncell / L * (a * q l (siteN N Ncell o i))) :
    ∑ l ∈ Finset.range L, ∑ i ∈ Finset.range Ncell, g l i = sign * (a * fieldMean Ncell L o q) := by
  unfold fieldMean
  simp only [h, ← Finset.mul_sum]
  rw [div_div]
  ring

/-- the sum of the differences to the next slice vanishes -/
theorem sum_next (L : ℕ) (f : ℕ → ℝ) :
    ∑ l ∈ Finset.range L, (f ((l + 1) % L) - f l) = 0 := by
  rcases Nat.eq_zero_or_pos L with rfl | hL
  · simp
  obtain ⟨n, rfl⟩ : ∃ n, L = n + 1 := ⟨L - 1, by omega⟩
  rw [Finset.sum_sub_distrib, sub_eq_zero, Finset.sum_range_succ]
  rw [Finset.sum_range_succ' f, Nat.mod_self]
  congr 1
  refine Finset.sum_congr rfl fun l hl => ?_
  rw [Nat.mod_eq_of_lt]
  have := Finset.mem_range.1 hl
  omega

/-! ## The theorems -/

section
variable [NeZero N] {Norb Ncell L : ℕ} (hN : N = Ncell * Norb)
include hN

/-- **C66.** One call is defined as long as the sample buffers have room, counts one sample, adds the
sign, and adds the following to the accumulators of every orbital: sign times the average
displacement (to `X_avg`, and to the slot of this sample of `iteration_X_avg`), sign times the average
square (to `X_sq_avg`), nothing to `V_avg`, sign times the average squared velocity (to `V_sq_avg`),
sign times the average product of density and displacement at the slice of the Green's function
(to `nX`), and sign times the displacement of the first cell (to the slot of `iteration_X0`). -/
theorem accumulatePh_estimates (Gu Gd : GreensFn N) (X : ℕ → Fin N → ℝ) (dt : ℝ) (omega : ℕ → ℝ)
    {lG : ℕ} (hl : lG < L) (m : PhData) (hm : m.nsampl < m.maxNsampl) :
    ∃ m', accumulatePh Norb Ncell L dt omega Gu Gd lG X m = some m' ∧
      m'.nsampl = m.nsampl + 1 ∧ m'.maxNsampl = m.maxNsampl ∧
      m'.sign = m.sign + ((Gu.sgndet * Gd.sgndet : ℤ) : ℝ) ∧
      ∀ o < Norb,
        m'.arr .xAvg o = m.arr .xAvg o + ((Gu.sgndet * Gd.sgndet : ℤ) : ℝ) * fieldMean Ncell L o X ∧
        m'.arr .xSqAvg o = m.arr .xSqAvg o + ((Gu.sgndet * Gd.sgndet : ℤ) : ℝ)
          * fieldMean Ncell L o (fun l i => X l i ^ 2) ∧
        m'.arr .vAvg o = m.arr .vAvg o ∧
        m'.arr .vSqAvg o = m.arr .vSqAvg o + ((Gu.sgndet * Gd.sgndet : ℤ) : ℝ)
          * fieldMean Ncell L o (fun l i => velocity L dt X l i ^ 2) ∧
        m'.arr .nX o = m.arr .nX o + ((Gu.sgndet * Gd.sgndet : ℤ) : ℝ)
          * ((∑ i ∈ Finset.range Ncell, ((1 - Gu.mat (siteN N Ncell o i) (siteN N Ncell o i))
            + (1 - Gd.mat (siteN N Ncell o i) (siteN N Ncell o i))) * X lG (siteN N Ncell o i))
              / Ncell) ∧
        m'.arr .iterXAvg (o + m.nsampl * Norb : ℕ) = m.arr .iterXAvg (o + m.nsampl * Norb : ℕ)
          + ((Gu.sgndet * Gd.sgndet : ℤ) : ℝ) * fieldMean Ncell L o X ∧
        m'.arr .iterX0 (o + m.nsampl * Norb : ℕ) = m.arr .iterX0 (o + m.nsampl * Norb : ℕ)
          + ((Gu.sgndet * Gd.sgndet : ℤ) : ℝ)
            * ((∑ l ∈ Finset.range L, X l (siteN N Ncell o 0)) / L) := by
  obtain ⟨c, hc, e⟩ := accumulatePh_contrib hN Gu Gd X dt omega hl m hm
  refine ⟨_, e, rfl, rfl, rfl, fun o ho => ?_⟩
  generalize ((Gu.sgndet * Gd.sgndet : ℤ) : ℝ) = sign at *
  have havg : curAvg Ncell L sign X o = sign * fieldMean Ncell L o X := by
    have := sum_slices Ncell L o sign 1 X (fun l i => sign / Ncell / L * X l (siteN N Ncell o i))
      (fun l i => by ring)
    rw [one_mul] at this
    exact this
  refine ⟨?_, ?_, ?_, ?_, ?_, ?_, ?_⟩
  · simp only [hc.xAvg o ho, havg]
  · have := hc.slice .xSqAvg (by simp) o ho
    simp only [phIdx, sliceVal] at this
    simp only [this]
    rw [sum_slices Ncell L o sign 1 (fun l i => X l i ^ 2) _ fun l i => by ring, one_mul]
  · have := hc.slice .vAvg (by simp) o ho
    simp only [phIdx, sliceVal] at this
    simp only [this]
    rw [Finset.sum_comm]
    simp only [← Finset.mul_sum]
    rw [Finset.sum_eq_zero, mul_zero, add_zero]
    intro i _
    exact sum_next L fun l => X l (siteN N Ncell o i)
  · have := hc.slice .vSqAvg (by simp) o ho
    simp only [phIdx, sliceVal] at this
    simp only [this]
    rw [sum_slices Ncell L o sign 1 (fun l i => velocity L dt X l i ^ 2) _ fun l i => by
      unfold velocity; rw [div_pow]; ring, one_mul]
  · simp only [hc.nX o ho, curNX]
    ring
  · have := hc.slice .iterXAvg (by simp) o ho
    simp only [phIdx, sliceVal] at this
    simp only [this]
    rw [sum_slices Ncell L o sign 1 X _ fun l i => by ring, one_mul]
  · have := hc.x0 o ho
    simp only [phIdx] at this
    simp only [this]
    rw [← Finset.mul_sum]
    ring

/-- **C66.** The slots of other samples in `iteration_X_avg` and `iteration_X0` are not changed. -/
theorem accumulatePh_other_slots (Gu Gd : GreensFn N) (X : ℕ → Fin N → ℝ) (dt : ℝ) (omega : ℕ → ℝ)
    {lG : ℕ} (hl : lG < L) (m m' : PhData) (hm : m.nsampl < m.maxNsampl)
    (h : accumulatePh Norb Ncell L dt omega Gu Gd lG X m = some m') (z : ℤ)
    (hz : ∀ o < Norb, z ≠ ((o + m.nsampl * Norb : ℕ) : ℤ)) :
    m'.arr .iterXAvg z = m.arr .iterXAvg z ∧ m'.arr .iterX0 z = m.arr .iterX0 z := by
  obtain ⟨c, hc, e⟩ := accumulatePh_contrib hN Gu Gd X dt omega hl m hm
  rw [e] at h
  obtain rfl := Option.some.inj h
  have h1 := hc.others .iterXAvg (by decide) z hz
  have h2 := hc.others .iterX0 (by decide) z hz
  simp only [h1, h2, add_zero, and_self]

/-- `X_avg_sq` accumulates the square of the average displacement of the sample, **without** the sign:
the other accumulators are sums of sign times estimate (see C66) and the average sign is divided out
at the end, so that this one is off for samples of negative sign. -/
theorem accumulatePh_xAvgSq (Gu Gd : GreensFn N) (X : ℕ → Fin N → ℝ) (dt : ℝ) (omega : ℕ → ℝ)
    {lG : ℕ} (hl : lG < L) (m m' : PhData) (hm : m.nsampl < m.maxNsampl)
    (hs : Gu.sgndet * Gd.sgndet = 1 ∨ Gu.sgndet * Gd.sgndet = -1)
    (h : accumulatePh Norb Ncell L dt omega Gu Gd lG X m = some m') {o : ℕ} (ho : o < Norb) :
    m'.arr .xAvgSq o = m.arr .xAvgSq o + fieldMean Ncell L o X ^ 2 := by
  obtain ⟨c, hc, e⟩ := accumulatePh_contrib hN Gu Gd X dt omega hl m hm
  rw [← Option.some.inj (e.symm.trans h)]
  simp only [hc.xAvgSq o ho]
  have := sum_slices Ncell L o ((Gu.sgndet * Gd.sgndet : ℤ) : ℝ) 1 X
    (fun l i => ((Gu.sgndet * Gd.sgndet : ℤ) : ℝ) / Ncell / L * X l (siteN N Ncell o i))
    (fun l i => by ring)
  unfold curAvg
  rw [this, one_mul, mul_pow]
  rcases hs with h | h <;> rw [h] <;> norm_num

/-- **C60**, what holds: the potential energy of every orbital is right; the kinetic energy is right
for a single orbital, and its sum over the orbitals is right for any number of orbitals.
(For several orbitals the kinetic energy of each of them is wrong: `kinetic_energy_wrong`.) -/
theorem phonon_energy_partial (Gu Gd : GreensFn N) (X : ℕ → Fin N → ℝ) (dt : ℝ) (omega : ℕ → ℝ)
    {lG : ℕ} (hl : lG < L) (m : PhData) (hm : m.nsampl < m.maxNsampl) :
    ∃ m', accumulatePh Norb Ncell L dt omega Gu Gd lG X m = some m' ∧
      (∀ o < Norb, m'.arr .pe o = m.arr .pe o
        + ((Gu.sgndet * Gd.sgndet : ℤ) : ℝ) * potentialEnergy Ncell L omega X o) ∧
      (Norb = 1 → m'.arr .ke 0 = m.arr .ke 0
        + ((Gu.sgndet * Gd.sgndet : ℤ) : ℝ) * kineticEnergy Ncell L dt X 0) ∧
      ∑ o ∈ Finset.range Norb, m'.arr .ke o = ∑ o ∈ Finset.range Norb, m.arr .ke o
        + ((Gu.sgndet * Gd.sgndet : ℤ) : ℝ) * ∑ o ∈ Finset.range Norb, kineticEnergy Ncell L dt X o := by
  obtain ⟨c, hc, e⟩ := accumulatePh_contrib hN Gu Gd X dt omega hl m hm
  refine ⟨_, e, fun o ho => ?_, fun h1 => ?_, ?_⟩
  all_goals generalize ((Gu.sgndet * Gd.sgndet : ℤ) : ℝ) = sign at *
  · have := hc.slice .pe (by simp) o ho
    simp only [phIdx, sliceVal] at this
    simp only [this, potentialEnergy]
    rw [sum_slices Ncell L o sign (omega o ^ 2 / 2) (fun l i => X l i ^ 2) _ fun l i => by ring]
  · have := hc.ke 0 (by omega)
    simp only [sliceVal, if_true, h1] at this
    rw [sum_slices Ncell L 0 sign (-(1 / 2)) (fun l i => velocity L dt X l i ^ 2) _ fun l i => by
      unfold velocity; rw [div_pow]; ring] at this
    simp only [Nat.cast_zero] at this
    simp only [this, kineticEnergy]
    rw [show (0.5 : ℝ) = 1 / 2 by norm_num]
    push_cast
    ring
  · simp only
    rw [Finset.sum_add_distrib, Finset.mul_sum]
    congr 1
    have hk : ∀ o ∈ Finset.range Norb, c .ke o = sign * kineticEnergy Ncell L dt X o
        - sign * (1 / (2 * dt)) + if o = 0 then Norb * (sign * 0.5 / dt) else 0 := by
      intro o ho
      rw [hc.ke o (Finset.mem_range.1 ho)]
      simp only [sliceVal]
      rw [sum_slices Ncell L o sign (-(1 / 2)) (fun l i => velocity L dt X l i ^ 2) _ fun l i => by
        unfold velocity; rw [div_pow]; ring]
      unfold kineticEnergy
      ring
    rw [Finset.sum_congr rfl hk, Finset.sum_add_distrib, Finset.sum_sub_distrib,
      Finset.sum_ite_eq' (Finset.range Norb) 0]
    rcases Nat.eq_zero_or_pos Norb with h0 | h0
    · subst h0
      simp
    · rw [if_pos (Finset.mem_range.2 h0), Finset.sum_const, Finset.card_range, nsmul_eq_mul,
        show (0.5 : ℝ) = 1 / 2 by norm_num]
      ring

/-- **C60 is false** for more than one orbital: whatever the fields, every sample adds too much by
`(Norb - 1) / (2 dt)` (times the sign) to the kinetic energy of orbital `0` and too little by
`1 / (2 dt)` to that of every other orbital. -/
theorem kinetic_energy_wrong (Gu Gd : GreensFn N) (X : ℕ → Fin N → ℝ) (dt : ℝ) (omega : ℕ → ℝ)
    {lG : ℕ} (hl : lG < L) (m m' : PhData) (hm : m.nsampl < m.maxNsampl)
    (h : accumulatePh Norb Ncell L dt omega Gu Gd lG X m = some m') :
    (0 < Norb → m'.arr .ke 0 = m.arr .ke 0 + ((Gu.sgndet * Gd.sgndet : ℤ) : ℝ)
        * (kineticEnergy Ncell L dt X 0 + (Norb - 1) / (2 * dt))) ∧
      ∀ o < Norb, o ≠ 0 → m'.arr .ke o = m.arr .ke o + ((Gu.sgndet * Gd.sgndet : ℤ) : ℝ)
        * (kineticEnergy Ncell L dt X o - 1 / (2 * dt)) := by
  obtain ⟨c, hc, e⟩ := accumulatePh_contrib hN Gu Gd X dt omega hl m hm
  rw [← Option.some.inj (e.symm.trans h)]
  generalize ((Gu.sgndet * Gd.sgndet : ℤ) : ℝ) = sign at *
  have hk : ∀ o < Norb, c .ke o = sign * kineticEnergy Ncell L dt X o
      - sign * (1 / (2 * dt)) + if o = 0 then Norb * (sign * 0.5 / dt) else 0 := by
    intro o ho
    rw [hc.ke o ho]
    simp only [sliceVal]
    rw [sum_slices Ncell L o sign (-(1 / 2)) (fun l i => velocity L dt X l i ^ 2) _ fun l i => by
      unfold velocity; rw [div_pow]; ring]
    unfold kineticEnergy
    ring
  constructor
  · intro h0
    have := hk 0 h0
    rw [if_pos rfl] at this
    simp only [Nat.cast_zero] at this
    simp only [this]
    rw [show (0.5 : ℝ) = 1 / 2 by norm_num]
    ring
  · intro o ho h0
    simp only [hk o ho, if_neg h0]
    ring

omit hN [NeZero N] in
/-- the negation of C60, with a witness: two orbitals, one cell, one slice -/
theorem phonon_energy_false : ¬ ∀ (Gu Gd : GreensFn 2) (X : ℕ → Fin 2 → ℝ) (m m' : PhData),
    m.nsampl < m.maxNsampl → accumulatePh 2 1 1 1 (fun _ => 1) Gu Gd 0 X m = some m' →
    ∀ o : ℕ, o < 2 → m'.arr .ke o = m.arr .ke o
      + ((Gu.sgndet * Gd.sgndet : ℤ) : ℝ) * kineticEnergy 1 1 1 X o := by
  intro H
  let G : GreensFn 2 := ⟨0, 0, 1⟩
  have hm : (PhData.allocate 1).nsampl < (PhData.allocate 1).maxNsampl := by
    unfold PhData.allocate; norm_num
  obtain ⟨m', e, -⟩ := accumulatePh_estimates (N := 2) (Norb := 2) (Ncell := 1) (L := 1) rfl G G
    (fun _ _ => 0) 1 (fun _ => 1) (lG := 0) (by norm_num) (PhData.allocate 1) hm
  have h1 := H G G _ _ _ hm e 1 (by norm_num)
  have h2 := (kinetic_energy_wrong (N := 2) (Norb := 2) (Ncell := 1) (L := 1) rfl G G _ 1 _
    (lG := 0) (by norm_num) _ _ hm e).2 1 (by norm_num) (by norm_num)
  rw [h1] at h2
  norm_num [G] at h2
  linarith

/-- without room in the sample buffers a call writes out of range -/
theorem accumulatePh_overflow (h0 : 0 < Norb) (Gu Gd : GreensFn N)
    (X : ℕ → Fin N → ℝ) (dt : ℝ) (omega : ℕ → ℝ) {lG : ℕ} (hl : lG < L) (m : PhData)
    (hm : m.maxNsampl ≤ m.nsampl) :
    accumulatePh Norb Ncell L dt omega Gu Gd lG X m = none := by
  unfold accumulatePh
  simp only [phAdds_eq hN Gu.mat Gd.mat X dt omega ((Gu.sgndet * Gd.sgndet : ℤ) : ℝ) m.nsampl hl,
      Option.bind_eq_bind, Option.bind_some]
  rw [Option.bind_eq_none_iff]
  intro a ha
  exfalso
  have := ((execute_some_iff _ _ _ _).1 ha).1 (PhF.iterX0, phIdx Norb m.nsampl 0 .iterX0,
    ((Gu.sgndet * Gd.sgndet : ℤ) : ℝ) / L * X 0 (siteN N Ncell 0 0)) (by
      refine List.mem_append_left _ (List.mem_append_left _ ?_)
      unfold sliceList
      rw [mem_forLoop]
      refine ⟨0, by omega, ?_⟩
      rw [mem_forLoop]
      exact ⟨0, h0, List.mem_append_right _ (List.mem_singleton.2 rfl)⟩)
  have h2 := this.2
  simp only [phIdx, PhF.size, zero_add] at h2
  have h3 : m.nsampl * Norb < Norb * m.maxNsampl := by exact_mod_cast h2
  have h4 : Norb * m.maxNsampl ≤ Norb * m.nsampl := Nat.mul_le_mul_left _ hm
  rw [mul_comm m.nsampl] at h3
  omega

end

/-- the hypotheses can be met: two orbitals on three cells, two slices, the second of two samples -/
example : ∃ m', accumulatePh 2 3 2 0.5 (fun _ => 1) (⟨1, 0, -1⟩ : GreensFn 6) ⟨1, 0, 1⟩ 1
    (fun l _ => l) { PhData.allocate 2 with nsampl := 1 } = some m' ∧ m'.nsampl = 2 := by
  obtain ⟨m', h, hn, -⟩ := accumulatePh_estimates (N := 6) (Norb := 2) (Ncell := 3) (L := 2) rfl
    (⟨1, 0, -1⟩ : GreensFn 6) ⟨1, 0, 1⟩ (fun l _ => l) 0.5 (fun _ => 1) (lG := 1) (by norm_num)
    { PhData.allocate 2 with nsampl := 1 } (by simp [PhData.allocate])
  exact ⟨m', h, hn⟩

end Verif.Measurement
