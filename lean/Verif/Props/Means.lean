import Verif.Props.MeasurementUneq
import Verif.Props.MeasurementPh

/-! # Property C76: means of the unequal time and phonon measurements -/

set_option autoImplicit false

namespace Verif.Measurement

open Matrix Verif.Lapack Verif.TimeFlow Verif.Greens Verif.Mem Verif.Lattice

variable {N : ℕ}

/-! ## Unequal times -/

/-- what one unequal time measurement uses -/
structure USample (N : ℕ) where
  up : TimeG N
  dn : TimeG N
  hu : up.Start
  hd : dn.Start
  sgn : ℝ
  hs : sgn = 1 ∨ sgn = -1

/-- consecutive unequal time measurements -/
noncomputable def accumulateUneqAll (Norb Ncell L : ℕ) (mp : Maps) (m : UneqData) (xs : List (USample N)) :
    Option UneqData :=
  xs.foldlM (fun m x => accumulateUneq Norb Ncell L mp x.sgn (x.up.cur L) (x.dn.cur L) m) m

/-- **C76.** After any list of samples the normalised unequal time data contain the arithmetic means over the samples of
sign times estimate, the mean sign, and the number of samples. -/
theorem normalizeUneq_mean [NeZero N] {Nx Ny Norb : ℕ} (hx : 0 < Nx) (hy : 0 < Ny) (hN : N = Nx * Ny * Norb) (s : ℤ)
    (hs : 0 ≤ s) (junk : ℤ → ℤ) (L : ℕ) :
    ∃ E : USample N → UneqF → ℤ → ℝ,
      (∀ x, UneqEstimates Nx Ny Norb L s 0 (Nx = 1 ↔ Ny = 1) x.up x.dn (E x)) ∧
      ∀ xs : List (USample N), ∃ m,
        accumulateUneqAll Norb (Nx * Ny) L (Maps.construct Nx Ny s junk) UneqData.allocate xs = some m ∧
        m.nsampl = xs.length ∧
        (normalizeUneq Norb (Nx * Ny) L m).nsampl = xs.length ∧
        (normalizeUneq Norb (Nx * Ny) L m).sign = (xs.map USample.sgn).sum / xs.length ∧
        ∀ f z, 0 ≤ z → z < UneqF.size Norb (Nx * Ny) L f →
          (normalizeUneq Norb (Nx * Ny) L m).arr f z = (xs.map fun x => x.sgn * E x f z).sum / xs.length := by
  have hE := fun x : USample N =>
    accumulateUneq_estimates hx hy hN s hs junk L x.up x.dn x.hu x.hd x.sgn x.hs
  choose E hE1 hE2 using hE
  refine ⟨E, hE1, fun xs => ?_⟩
  have gen : ∀ (xs : List (USample N)) (m₀ : UneqData),
      accumulateUneqAll Norb (Nx * Ny) L (Maps.construct Nx Ny s junk) m₀ xs = some
        { arr := fun f z => m₀.arr f z + (xs.map fun x => x.sgn * E x f z).sum
          sign := m₀.sign + (xs.map USample.sgn).sum
          nsampl := m₀.nsampl + xs.length } := by
    unfold accumulateUneqAll
    intro xs
    induction xs with
    | nil => intro m₀; simp
    | cons x xs ih =>
      intro m₀
      rw [List.foldlM_cons, hE2 x m₀]
      refine (ih _).trans ?_
      simp only [List.map_cons, List.sum_cons, List.length_cons, Option.some.injEq, UneqData.mk.injEq]
      refine ⟨?_, ?_, by ring⟩
      · funext f z
        ring
      · ring
  refine ⟨_, gen xs _, ?_, ?_, ?_, ?_⟩
  · simp [UneqData.allocate]
  · simp [UneqData.allocate, normalizeUneq]
  · simp only [UneqData.allocate, normalizeUneq, zero_add]
    rw [show (1.0 : ℝ) = 1 by norm_num]
    ring
  · intro f z h1 h2
    unfold normalizeUneq Verif.Measurement.scale
    simp only [UneqData.allocate, zero_add]
    rw [if_pos ⟨h1, h2⟩, show (1.0 : ℝ) = 1 by norm_num]
    ring

/-! ## Phonons -/

/-- what one phonon measurement uses -/
structure PhSample (N L : ℕ) where
  base : Sample N
  X : ℕ → Fin N → ℝ
  l : ℕ
  hl : l < L

/-- the value which one sample contributes to the sums, for orbital `o`.  (`xAvgSq` lacks the sign, see
`accumulatePh_xAvgSq`; the kinetic energy is treated in C60.) -/
noncomputable def PhSample.value [NeZero N] {L : ℕ} (Ncell : ℕ) (dt : ℝ) (omega : ℕ → ℝ) (x : PhSample N L) (o : ℕ) :
    PhF → ℝ
  | .xAvg | .iterXAvg => x.base.sgn * fieldMean Ncell L o x.X
  | .xAvgSq => fieldMean Ncell L o x.X ^ 2
  | .xSqAvg => x.base.sgn * fieldMean Ncell L o (fun l i => x.X l i ^ 2)
  | .vAvg => 0
  | .vSqAvg => x.base.sgn * fieldMean Ncell L o (fun l i => velocity L dt x.X l i ^ 2)
  | .pe => x.base.sgn * potentialEnergy Ncell L omega x.X o
  | .ke => 0
  | .nX => x.base.sgn * ((∑ i ∈ Finset.range Ncell, ((1 - x.base.up.mat (siteN N Ncell o i) (siteN N Ncell o i))
      + (1 - x.base.dn.mat (siteN N Ncell o i) (siteN N Ncell o i))) * x.X x.l (siteN N Ncell o i)) / Ncell)
  | .iterX0 => x.base.sgn * ((∑ l ∈ Finset.range L, x.X l (siteN N Ncell o 0)) / L)

/-- consecutive phonon measurements -/
noncomputable def accumulatePhAll {L : ℕ} (Norb Ncell : ℕ) (dt : ℝ) (omega : ℕ → ℝ) (m : PhData)
    (xs : List (PhSample N L)) : Option PhData :=
  xs.foldlM (fun m x => accumulatePh Norb Ncell L dt omega x.base.up x.base.dn x.l x.X m) m

theorem total_eq_zero {A : Type} [DecidableEq A] (ws : List (Add A)) (a : A) (z : ℤ)
    (h : ∀ w ∈ ws, w.1 = a → w.2.1 ≠ z) : total ws a z = 0 := by
  induction ws with
  | nil => rfl
  | cons w ws ih =>
    rw [total_cons, ih fun v hv => h v (List.mem_cons_of_mem _ hv), add_zero]
    exact if_neg fun hw => h w List.mem_cons_self hw.1 hw.2

/-- the arrays with one entry per sample are only changed at the current sample -/
theorem accumulatePh_keeps [NeZero N] {Norb Ncell L : ℕ} (hN : N = Ncell * Norb) (Gu Gd : GreensFn N)
    (X : ℕ → Fin N → ℝ) (dt : ℝ) (omega : ℕ → ℝ) {lG : ℕ} (hl : lG < L) (m m' : PhData) (hm : m.nsampl < m.maxNsampl)
    (h : accumulatePh Norb Ncell L dt omega Gu Gd lG X m = some m') (f : PhF) (hf : f = .iterXAvg ∨ f = .iterX0) (z : ℤ)
    (hz : ∀ o < Norb, z ≠ (o + m.nsampl * Norb : ℕ)) : m'.arr f z = m.arr f z := by
  unfold accumulatePh at h
  simp only [phAdds_eq hN Gu.mat Gd.mat X dt omega ((Gu.sgndet * Gd.sgndet : ℤ) : ℝ) m.nsampl hl,
    Option.bind_eq_bind, Option.bind_some, execute_eq _ m.arr _
    (ph_inside (Ncell := Ncell) (L := L) (lG := lG) Gu.mat Gd.mat X dt omega
      ((Gu.sgndet * Gd.sgndet : ℤ) : ℝ) hm), Option.pure_def] at h
  rw [← Option.some.inj h]
  show m.arr f z + total _ f z = m.arr f z
  rw [total_eq_zero, add_zero]
  intro w hw ha hwz
  have hfi : ∀ o, phIdx Norb m.nsampl o f = (o + m.nsampl * Norb : ℕ) := by
    intro o
    rcases hf with rfl | rfl <;> rfl
  rcases List.mem_append.1 hw with hw | hw
  · rcases List.mem_append.1 hw with hw | hw
    · obtain ⟨l, -, hw⟩ := mem_forLoop.1 hw
      obtain ⟨o, ho, hw⟩ := mem_forLoop.1 hw
      rcases List.mem_append.1 hw with hw | hw
      · obtain ⟨i, -, hw⟩ := mem_forLoop.1 hw
        obtain ⟨g, -, rfl⟩ := List.mem_map.1 hw
        simp only at ha hwz
        subst ha
        exact hz o ho (hwz.symm.trans (hfi o))
      · rw [List.mem_singleton.1 hw] at ha hwz
        simp only at ha hwz
        subst ha
        exact hz o ho (hwz.symm.trans (hfi o))
    · obtain ⟨o, ho, hw⟩ := mem_forLoop.1 hw
      simp only [List.mem_cons, List.not_mem_nil, or_false] at hw
      rcases hf with rfl | rfl <;> rcases hw with rfl | rfl | rfl <;> cases ha
  · obtain ⟨o, ho, hw⟩ := mem_forLoop.1 hw
    rw [List.mem_singleton.1 hw] at ha
    rcases hf with rfl | rfl <;> cases ha

/-- the sums over samples -/
theorem accumulatePhAll_sums [NeZero N] {Norb Ncell L : ℕ} (hN : N = Ncell * Norb) (dt : ℝ) (omega : ℕ → ℝ)
    (xs : List (PhSample N L)) (m₀ : PhData) (hm : m₀.nsampl + xs.length ≤ m₀.maxNsampl) :
    ∃ m, accumulatePhAll Norb Ncell dt omega m₀ xs = some m ∧
      m.nsampl = m₀.nsampl + xs.length ∧ m.maxNsampl = m₀.maxNsampl ∧
      m.sign = m₀.sign + (xs.map fun x => x.base.sgn).sum ∧
      (∀ o < Norb, ∀ f ∈ [PhF.xAvg, .xAvgSq, .xSqAvg, .vAvg, .vSqAvg, .pe, .nX],
        m.arr f o = m₀.arr f o + (xs.map fun x => x.value Ncell dt omega o f).sum) ∧
      ∀ f, f = .iterXAvg ∨ f = .iterX0 →
        (∀ o < Norb, ∀ n (hn : n < xs.length), m.arr f (o + (m₀.nsampl + n) * Norb : ℕ)
          = m₀.arr f (o + (m₀.nsampl + n) * Norb : ℕ) + xs[n].value Ncell dt omega o f) ∧
        ∀ z : ℤ, z < (m₀.nsampl * Norb : ℕ) → m.arr f z = m₀.arr f z := by
  unfold accumulatePhAll
  induction xs generalizing m₀ with
  | nil => exact ⟨m₀, rfl, rfl, rfl, by simp, by simp, fun f _ => ⟨fun o _ n hn => absurd hn (by simp), fun _ _ => rfl⟩⟩
  | cons x xs ih =>
    rw [List.length_cons] at hm
    obtain ⟨m₁, e1, e2, e3, e4, e5⟩ := accumulatePh_estimates hN x.base.up x.base.dn x.X dt omega x.hl m₀ (by omega)
    obtain ⟨m, i1, i2, i3, i4, i5, i6⟩ := ih m₁ (by rw [e2, e3]; omega)
    rw [List.foldlM_cons, e1]
    refine ⟨m, i1, by rw [i2, e2, List.length_cons]; ring, i3.trans e3, ?_, ?_, ?_⟩
    · rw [i4, e4, List.map_cons, List.sum_cons, add_assoc]
      rfl
    · intro o ho f hf
      obtain ⟨v1, v2, v3, v4, v5, -⟩ := e5 o ho
      rw [i5 o ho f hf, List.map_cons, List.sum_cons, ← add_assoc]
      congr 1
      fin_cases hf
      · exact v1
      · have := accumulatePh_xAvgSq hN x.base.up x.base.dn x.X dt omega x.hl m₀ m₁ (by omega) (by
          rcases x.base.hu with h | h <;> rcases x.base.hd with h' | h' <;> rw [h, h'] <;> simp) e1 ho
        exact this
      · exact v2
      · exact v3.trans (add_zero _).symm
      · exact v4
      · obtain ⟨m₂, p1, p2, -⟩ := phonon_energy_partial hN x.base.up x.base.dn x.X dt omega x.hl m₀ (by omega)
        rw [← Option.some.inj (e1.symm.trans p1)] at p2
        exact p2 o ho
      · exact v5
    · intro f hf
      obtain ⟨j1, j2⟩ := i6 f hf
      have hk := accumulatePh_keeps hN x.base.up x.base.dn x.X dt omega x.hl m₀ m₁ (by omega) e1 f hf
      refine ⟨fun o ho n hn => ?_, fun z hz => ?_⟩
      · cases n with
        | zero =>
          have hlt : o + (m₀.nsampl + 0) * Norb < m₁.nsampl * Norb := by rw [e2]; nlinarith
          rw [j2 _ (by exact_mod_cast hlt)]
          obtain ⟨-, -, -, -, -, v6, v7⟩ := e5 o ho
          rcases hf with rfl | rfl
          · exact v6
          · exact v7
        | succ n =>
          have h1 := j1 o ho n (Nat.lt_of_succ_lt_succ hn)
          rw [e2, show m₀.nsampl + 1 + n = m₀.nsampl + (n + 1) by ring] at h1
          rw [h1]
          congr 1
          refine hk _ fun o' ho' he => ?_
          have he : o + (m₀.nsampl + (n + 1)) * Norb = o' + m₀.nsampl * Norb := by exact_mod_cast he
          have : o + n * Norb + Norb = o' := by
            have : o + (m₀.nsampl + (n + 1)) * Norb = o + n * Norb + Norb + m₀.nsampl * Norb := by ring
            omega
          omega
      · have h0 : z < (m₁.nsampl * Norb : ℕ) := by
          rw [e2]
          refine hz.trans_le ?_
          exact_mod_cast Nat.mul_le_mul_right _ (Nat.le_succ _)
        rw [j2 z h0]
        refine hk z fun o _ he => ?_
        rw [he] at hz
        have hz : o + m₀.nsampl * Norb < m₀.nsampl * Norb := by exact_mod_cast hz
        omega

/-- **C76.** After any list of samples for which there is space, the normalised phonon data contain the arithmetic means
over the samples, and the series of single samples are stored without normalisation. -/
theorem normalizePh_mean [NeZero N] {Norb Ncell L : ℕ} (hN : N = Ncell * Norb) (dt : ℝ) (omega : ℕ → ℝ)
    (xs : List (PhSample N L)) (maxN : ℕ) (hm : xs.length ≤ maxN) :
    ∃ m, accumulatePhAll Norb Ncell dt omega (PhData.allocate maxN) xs = some m ∧
      (normalizePh Norb m).nsampl = xs.length ∧
      (normalizePh Norb m).sign = (xs.map fun x => x.base.sgn).sum / xs.length ∧
      (∀ o < Norb, ∀ f ∈ [PhF.xAvg, .xAvgSq, .xSqAvg, .vAvg, .vSqAvg, .pe, .nX],
        (normalizePh Norb m).arr f o = (xs.map fun x => x.value Ncell dt omega o f).sum / xs.length) ∧
      ∀ f, f = .iterXAvg ∨ f = .iterX0 → ∀ o < Norb, ∀ n (hn : n < xs.length),
        (normalizePh Norb m).arr f (o + n * Norb : ℕ) = xs[n].value Ncell dt omega o f := by
  obtain ⟨m, e1, e2, e3, e4, e5, e6⟩ := accumulatePhAll_sums hN dt omega xs (PhData.allocate maxN)
    (by simpa [PhData.allocate] using hm)
  have h1 : (1.0 : ℝ) = 1 := by norm_num
  simp only [PhData.allocate, zero_add] at e2 e4 e5 e6
  refine ⟨m, e1, e2, ?_, fun o ho f hf => ?_, fun f hf o ho n hn => ?_⟩
  · unfold normalizePh
    simp only [e2, e4, h1]
    ring
  · have hs : PhF.size Norb m.maxNsampl f = Norb := by fin_cases hf <;> rfl
    have key : (normalizePh Norb m).arr f o = scale (PhF.size Norb m.maxNsampl) (1.0 / m.nsampl) m.arr f o := by
      fin_cases hf <;> rfl
    rw [key]
    unfold scale
    rw [if_pos ⟨by positivity, by rw [hs]; exact_mod_cast ho⟩, e5 o ho f hf, e2, h1]
    ring
  · have key : (normalizePh Norb m).arr f = m.arr f := by rcases hf with rfl | rfl <;> rfl
    rw [key]
    exact (e6 f hf).1 o ho n hn

/-- a non-trivial instance: two samples with different signs -/
example : ∃ xs : List (PhSample 2 3), xs.length = 2 ∧ (xs.map fun x => x.base.sgn) = [1, -1] :=
  ⟨[⟨⟨⟨1, 0, 1⟩, ⟨1, 0, 1⟩, Or.inl rfl, Or.inl rfl⟩, fun l _ => l, 0, by norm_num⟩,
    ⟨⟨⟨1, 0, -1⟩, ⟨1, 0, 1⟩, Or.inr rfl, Or.inl rfl⟩, fun l i => l + i.val, 2, by norm_num⟩], rfl, by
    simp [Sample.sgn]⟩

end Verif.Measurement
