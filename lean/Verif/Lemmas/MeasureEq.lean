import Verif.Lemmas.Measure

/-! # What `AccumulateMeasurement` adds to each entry -/

set_option autoImplicit false

namespace Verif.Measurement

open Matrix Verif.Lapack Verif.TimeFlow Verif.Greens Verif.Mem

variable {N : ℕ}

/-- the maps only contain cell numbers -/
structure Maps.Good (mp : Maps) (Ncell : ℕ) : Prop where
  sum : ∀ k i : ℕ, k < Ncell → i < Ncell → 0 ≤ mp.sum (k + Ncell * i) ∧ mp.sum (k + Ncell * i) < Ncell
  xp1 : ∀ c : ℕ, c < Ncell → 0 ≤ mp.xp1 c ∧ mp.xp1 c < Ncell
  xm1 : ∀ c : ℕ, c < Ncell → 0 ≤ mp.xm1 c ∧ mp.xm1 c < Ncell
  yp1 : ∀ c : ℕ, c < Ncell → 0 ≤ mp.yp1 c ∧ mp.yp1 c < Ncell
  ym1 : ∀ c : ℕ, c < Ncell → 0 ≤ mp.ym1 c ∧ mp.ym1 c < Ncell

/-- the cell at offset `k` from `i` -/
def Maps.add (mp : Maps) (Ncell k i : ℕ) : ℕ := (mp.sum (k + Ncell * i)).toNat

/-- neighbours of a cell as natural numbers -/
structure NbrsN where
  px : ℕ
  mx : ℕ
  py : ℕ
  my : ℕ

def Maps.nbrsN (mp : Maps) (c : ℕ) : NbrsN :=
  ⟨(mp.xp1 c).toNat, (mp.xm1 c).toNat, (mp.yp1 c).toNat, (mp.ym1 c).toNat⟩

def NbrsN.toNbrs (n : NbrsN) : Nbrs := ⟨n.px, n.mx, n.py, n.my⟩

section
variable {mp : Maps} {Ncell : ℕ} (hm : mp.Good Ncell)
include hm

theorem Maps.Good.add_lt {k i : ℕ} (hk : k < Ncell) (hi : i < Ncell) : mp.add Ncell k i < Ncell := by
  have := hm.sum k i hk hi
  unfold Maps.add
  omega

theorem Maps.Good.read_sum {k i : ℕ} (hk : k < Ncell) (hi : i < Ncell) :
    rdInt (Ncell * Ncell) mp.sum (k + Ncell * i) = some (mp.add Ncell k i : ℤ) := by
  have h := hm.sum k i hk hi
  rw [rdInt_eq _ _ _ (by positivity)]
  · congr 1
    unfold Maps.add
    omega
  · have : ((i : ℤ) + 1) * Ncell ≤ Ncell * Ncell :=
      mul_le_mul_of_nonneg_right (by omega) (by positivity)
    nlinarith

theorem Maps.Good.nbrsN_lt {c : ℕ} (hc : c < Ncell) :
    (mp.nbrsN c).px < Ncell ∧ (mp.nbrsN c).mx < Ncell ∧ (mp.nbrsN c).py < Ncell ∧
      (mp.nbrsN c).my < Ncell := by
  have h1 := hm.xp1 c hc
  have h2 := hm.xm1 c hc
  have h3 := hm.yp1 c hc
  have h4 := hm.ym1 c hc
  unfold Maps.nbrsN
  simp only
  omega

theorem Maps.Good.read_nbrs {c : ℕ} (hc : c < Ncell) :
    mp.nbrs Ncell c = some (mp.nbrsN c).toNbrs := by
  have h1 := hm.xp1 c hc
  have h2 := hm.xm1 c hc
  have h3 := hm.yp1 c hc
  have h4 := hm.ym1 c hc
  unfold Maps.nbrs Maps.nbrsN NbrsN.toNbrs
  rw [rdInt_eq _ _ _ (by omega) (by omega), rdInt_eq _ _ _ (by omega) (by omega),
    rdInt_eq _ _ _ (by omega) (by omega), rdInt_eq _ _ _ (by omega) (by omega)]
  simp only [Option.bind_eq_bind, Option.bind_some, Option.pure_def, Option.some.injEq,
    Nbrs.mk.injEq]
  omega

end

section Reads
variable {Norb Ncell : ℕ} [NeZero N] (hN : N = Ncell * Norb)
include hN

/-- `mat[io + N*jp]` -/
theorem read_mat (U : Mat N) {o i p j : ℕ} (ho : o < Norb) (hi : i < Ncell) (hp : p < Norb)
    (hj : j < Ncell) {z : ℤ}
    (hz : z = ((i : ℤ) + Ncell * o) + (Ncell * Norb : ℤ) * ((j : ℤ) + Ncell * p)) :
    flat U z = some (U (siteN N Ncell o i) (siteN N Ncell p j)) := by
  refine flat_apply U _ _ ((i : ℤ) + Ncell * o) ((j : ℤ) + Ncell * p) z ?_ ?_ ?_
  · rw [siteN_val hN ho hi]; push_cast; ring
  · rw [siteN_val hN hp hj]; push_cast; ring
  · rw [hz, hN]; push_cast; ring

end Reads

/-- value of a correlator for the sites `a` and `b`, as written in the code -/
noncomputable def corrVal (U D : Mat N) (same : Prop) [Decidable same] (a b : Fin N) : EqF → ℝ
  | .uu => if same then 1 - U a a else (1 - U a a) * (1 - U b b) - U a b * U b a
  | .dd => if same then 1 - D a a else (1 - D a a) * (1 - D b b) - D a b * D b a
  | .ff => if same then U a a * (1 - U a a) + D a a * (1 - D a a)
      else -(U a b * U b a + D a b * D b a)
  | .zz => if same then U a a - 2 * U a a * D a a + D a a
      else (U a a - D a a) * (U b b - D b b) - (U a b * U b a + D a b * D b a)
  | .xx => if same then U a a - 2 * U a a * D a a + D a a else -(U a b * D b a + D a b * U b a)
  | .ud => (1 - U a a) * (1 - D b b) + (1 - D a a) * (1 - U b b)
  | _ => 0

/-- the fields in the order of the additions -/
def corrFields : List EqF := [.uu, .dd, .ff, .zz, .xx, .ud]

theorem corrAdds_eq [NeZero N] {Norb Ncell : ℕ} (hN : N = Ncell * Norb) {mp : Maps}
    (hm : mp.Good Ncell) (U D : Mat N) (sf : ℝ) {o p i k : ℕ} (ho : o < Norb) (hp : p < Norb)
    (hi : i < Ncell) (hk : k < Ncell) :
    corrAdds Norb Ncell mp (flat U) (flat D) sf o p i k
      = some (corrFields.map fun f => (f, (k : ℤ) + Ncell * (o + Norb * p),
          sf * corrVal U D (k = 0 ∧ o = p) (siteN N Ncell o i)
            (siteN N Ncell p (mp.add Ncell k i)) f)) := by
  have hj := hm.add_lt hk hi
  unfold corrAdds
  simp only [hm.read_sum hk hi, Option.bind_eq_bind, Option.bind_some]
  generalize mp.add Ncell k i = j at hj ⊢
  rw [read_mat hN U ho hi ho hi (by ring), read_mat hN D ho hi ho hi (by ring),
    read_mat hN U hp hj hp hj (by ring), read_mat hN D hp hj hp hj (by ring),
    read_mat hN U ho hi hp hj (by ring), read_mat hN D ho hi hp hj (by ring),
    read_mat hN U hp hj ho hi (by ring), read_mat hN D hp hj ho hi (by ring)]
  simp only [Option.bind_some, Option.pure_def, Option.some.injEq, corrFields, List.map_cons,
    List.map_nil, corrVal]
  by_cases h : k = 0 ∧ o = p
  · simp only [h, and_self, if_true, List.cons_append, List.nil_append]
  · simp only [h, if_false, List.cons_append, List.nil_append]

/-- contribution of a list of additions to different fields at the same index -/
theorem total_fields {A : Type} [DecidableEq A] (fs : List A) (hfs : fs.Nodup) (z₀ : ℤ) (v : A → ℝ)
    (f : A) (z : ℤ) :
    total (fs.map fun f => (f, z₀, v f)) f z = if f ∈ fs ∧ z₀ = z then v f else 0 := by
  induction fs with
  | nil => simp [total_nil]
  | cons g fs ih =>
    rw [List.nodup_cons] at hfs
    rw [List.map_cons, total_cons, ih hfs.2]
    by_cases hg : g = f
    · subst hg
      by_cases hz : z₀ = z <;> simp [hz, hfs.1]
    · by_cases hz : z₀ = z <;> simp [hg, hz, Ne.symm hg]

/-- only the iteration with the right orbitals and offset contributes -/
theorem sum_three {n m : ℕ} {o p k : ℕ} (ho : o < m) (hp : p < m) (hk : k < n)
    (v : ℕ → ℕ → ℕ → ℕ → ℝ) :
    (∑ o' ∈ Finset.range m, ∑ p' ∈ Finset.range m, ∑ i ∈ Finset.range n, ∑ k' ∈ Finset.range n,
      if (k' : ℤ) + n * (o' + m * p') = k + n * (o + m * p) then v o' p' i k' else 0)
      = ∑ i ∈ Finset.range n, v o p i k := by
  have key : ∀ o' ∈ Finset.range m, ∀ p' : ℕ, ∀ k' ∈ Finset.range n,
      ((k' : ℤ) + n * (o' + m * p') = k + n * (o + m * p)) ↔ (k' = k ∧ o' = o ∧ p' = p) := by
    intro o' ho' p' k' hk'
    have h1 := mixed_inj (n := n) (a := k') (a' := k) (b := o' + m * p') (b' := o + m * p)
      (Finset.mem_range.1 hk') hk
    have h2 := mixed_inj (n := m) (a := o') (a' := o) (b := p') (b' := p)
      (Finset.mem_range.1 ho') ho
    push_cast at h1
    rw [h1, ← h2]
    norm_cast
  rw [Finset.sum_eq_single_of_mem o (Finset.mem_range.2 ho)]
  · rw [Finset.sum_eq_single_of_mem p (Finset.mem_range.2 hp)]
    · refine Finset.sum_congr rfl fun i _ => ?_
      rw [Finset.sum_eq_single_of_mem k (Finset.mem_range.2 hk)]
      · simp
      · intro k' hk' hne
        rw [if_neg]
        rw [key o (Finset.mem_range.2 ho) p k' hk']
        tauto
    · intro p' _ hne
      refine Finset.sum_eq_zero fun i _ => Finset.sum_eq_zero fun k' hk' => if_neg ?_
      rw [key o (Finset.mem_range.2 ho) p' k' hk']
      tauto
  · intro o' ho' hne
    refine Finset.sum_eq_zero fun p' _ => Finset.sum_eq_zero fun i _ =>
      Finset.sum_eq_zero fun k' hk' => if_neg ?_
    rw [key o' ho' p' k' hk']
    tauto

theorem corr_total [NeZero N] {Norb Ncell : ℕ} (hN : N = Ncell * Norb) {mp : Maps}
    (hm : mp.Good Ncell) (U D : Mat N) (sf : ℝ) :
    ∃ ws, (loopM Norb fun o => loopM Norb fun p => loopM Ncell fun i => loopM Ncell fun k =>
        corrAdds Norb Ncell mp (flat U) (flat D) sf o p i k) = some ws ∧
      Inside (EqF.size Norb Ncell) ws ∧
      (∀ f z, f ∉ corrFields → total ws f z = 0) ∧
      ∀ f ∈ corrFields, ∀ o p k : ℕ, o < Norb → p < Norb → k < Ncell →
        total ws f (k + Ncell * (o + Norb * p)) = ∑ i ∈ Finset.range Ncell,
          sf * corrVal U D (k = 0 ∧ o = p) (siteN N Ncell o i)
            (siteN N Ncell p (mp.add Ncell k i)) f := by
  refine ⟨_, loopM_eq _ fun o ho => loopM_eq _ fun p hp => loopM_eq _ fun i hi => loopM_eq _
    fun k hk => corrAdds_eq hN hm U D sf ho hp hi hk, ?_, ?_, ?_⟩
  · refine Inside.forLoop fun o ho => Inside.forLoop fun p hp => Inside.forLoop fun i hi =>
      Inside.forLoop fun k hk => ?_
    intro w hw
    obtain ⟨f, hf, rfl⟩ := List.mem_map.1 hw
    have hs : EqF.size Norb Ncell f = Ncell * Norb * Norb := by
      fin_cases hf <;> rfl
    simp only [hs]
    constructor
    · positivity
    · have h1 : o + Norb * p < Norb * Norb := site_lt hp ho
      have h2 : k + Ncell * (o + Norb * p) < Ncell * (Norb * Norb) := site_lt h1 hk
      push_cast [← mul_assoc] at h2
      exact_mod_cast h2.trans_eq (by ring)
  · intro f z hf
    simp only [total_forLoop, total_fields corrFields (by decide)]
    simp [hf]
  · intro f hf o p k ho hp hk
    simp only [total_forLoop, total_fields corrFields (by decide), hf, true_and]
    exact sum_three ho hp hk fun o p i k => sf * corrVal U D (k = 0 ∧ o = p) (siteN N Ncell o i)
      (siteN N Ncell p (mp.add Ncell k i)) f

/-! ## Pairing -/

/-- d-wave and extended s-wave combinations of neighbours with signs `f`, `f'` -/
noncomputable def nbrSum (G : ℕ → ℕ → ℝ) (ts : List (ℝ × ℤ × ℤ)) : ℝ :=
  (ts.map fun t => t.1 * G t.2.1.toNat t.2.2.toNat).sum

/-- value of a pairing correlator as written in the code -/
noncomputable def pairVal (U D : ℕ → ℕ → ℝ) (i j : ℕ) (ni nj : Nbrs) : EqF → ℝ
  | .scSw => U i j * D i j
  | .scDw => 0.25 * U i j * nbrSum D (dwTerms ni nj)
  | .scSx => 0.25 * U i j * nbrSum D (sxTerms ni nj)
  | _ => 0

def pairFields : List EqF := [.scSw, .scDw, .scSx]

theorem terms_nat {n m : NbrsN} {Ncell : ℕ} (hn : n.px < Ncell ∧ n.mx < Ncell ∧ n.py < Ncell ∧
    n.my < Ncell) (hm : m.px < Ncell ∧ m.mx < Ncell ∧ m.py < Ncell ∧ m.my < Ncell)
    (t : ℝ × ℤ × ℤ) (ht : t ∈ dwTerms n.toNbrs m.toNbrs ∨ t ∈ sxTerms n.toNbrs m.toNbrs) :
    ∃ r c : ℕ, r < Ncell ∧ c < Ncell ∧ t.2.1 = r ∧ t.2.2 = c := by
  obtain ⟨a1, a2, a3, a4⟩ := hn
  obtain ⟨b1, b2, b3, b4⟩ := hm
  have : (t.2.1 = n.px ∨ t.2.1 = n.mx ∨ t.2.1 = n.py ∨ t.2.1 = n.my) ∧
      (t.2.2 = m.px ∨ t.2.2 = m.mx ∨ t.2.2 = m.py ∨ t.2.2 = m.my) := by
    simp only [dwTerms, sxTerms, NbrsN.toNbrs, List.mem_cons, List.not_mem_nil, or_false] at ht
    rcases ht with ht | ht <;>
    · rcases ht with h | h | h | h | h | h | h | h | h | h | h | h | h | h | h | h <;> simp [h]
  obtain ⟨h1, h2⟩ := this
  have e1 : ∃ r : ℕ, r < Ncell ∧ t.2.1 = r := by
    rcases h1 with h | h | h | h
    exacts [⟨_, a1, h⟩, ⟨_, a2, h⟩, ⟨_, a3, h⟩, ⟨_, a4, h⟩]
  have e2 : ∃ r : ℕ, r < Ncell ∧ t.2.2 = r := by
    rcases h2 with h | h | h | h
    exacts [⟨_, b1, h⟩, ⟨_, b2, h⟩, ⟨_, b3, h⟩, ⟨_, b4, h⟩]
  obtain ⟨r, hr, hr'⟩ := e1
  obtain ⟨c, hc, hc'⟩ := e2
  exact ⟨r, c, hr, hc, hr', hc'⟩

theorem pairAdds_eq [NeZero N] {Norb Ncell : ℕ} (hN : N = Ncell * Norb) {mp : Maps}
    (hm : mp.Good Ncell) (U D : Mat N) (sf : ℝ) {o i k : ℕ} (ho : o < Norb)
    (hi : i < Ncell) (hk : k < Ncell) :
    pairAdds Norb Ncell mp (flat U) (flat D) sf o i k
      = some (pairFields.map fun f => (f, (k : ℤ) + Ncell * o,
          sf * pairVal (fun a b => U (siteN N Ncell o a) (siteN N Ncell o b))
            (fun a b => D (siteN N Ncell o a) (siteN N Ncell o b)) i (mp.add Ncell k i)
            (mp.nbrsN i).toNbrs (mp.nbrsN (mp.add Ncell k i)).toNbrs f)) := by
  have hj := hm.add_lt hk hi
  unfold pairAdds
  simp only [hm.read_nbrs hi, hm.read_sum hk hi, Option.bind_eq_bind, Option.bind_some]
  generalize mp.add Ncell k i = j at hj ⊢
  simp only [hm.read_nbrs hj, Option.bind_some]
  have hn := hm.nbrsN_lt hi
  have hn' := hm.nbrsN_lt hj
  generalize mp.nbrsN i = n at hn ⊢
  generalize mp.nbrsN j = n' at hn' ⊢
  rw [read_mat hN U ho hi ho hj (by ring), read_mat hN D ho hi ho hj (by ring)]
  rw [sumTerms_eq (fun r c => D (siteN N Ncell o r.toNat) (siteN N Ncell o c.toNat)),
    sumTerms_eq (fun r c => D (siteN N Ncell o r.toNat) (siteN N Ncell o c.toNat))]
  · simp only [Option.bind_some, Option.pure_def, Option.some.injEq, pairFields, List.map_cons,
      List.map_nil, pairVal, nbrSum]
    simp only [mul_assoc]
  · intro t ht
    obtain ⟨r, c, hr, hc, e1, e2⟩ := terms_nat hn hn' t (Or.inr ht)
    simp only [e1, e2, Int.toNat_natCast]
    exact read_mat hN D ho hr ho hc (by ring)
  · intro t ht
    obtain ⟨r, c, hr, hc, e1, e2⟩ := terms_nat hn hn' t (Or.inl ht)
    simp only [e1, e2, Int.toNat_natCast]
    exact read_mat hN D ho hr ho hc (by ring)

theorem sum_two {n m : ℕ} {o k : ℕ} (ho : o < m) (hk : k < n) (v : ℕ → ℕ → ℕ → ℝ) :
    (∑ o' ∈ Finset.range m, ∑ i ∈ Finset.range n, ∑ k' ∈ Finset.range n,
      if (k' : ℤ) + n * o' = k + n * o then v o' i k' else 0)
      = ∑ i ∈ Finset.range n, v o i k := by
  have key : ∀ o' : ℕ, ∀ k' ∈ Finset.range n,
      ((k' : ℤ) + n * o' = k + n * o) ↔ (k' = k ∧ o' = o) := fun o' k' hk' =>
    mixed_inj (Finset.mem_range.1 hk') hk
  rw [Finset.sum_eq_single_of_mem o (Finset.mem_range.2 ho)]
  · refine Finset.sum_congr rfl fun i _ => ?_
    rw [Finset.sum_eq_single_of_mem k (Finset.mem_range.2 hk)]
    · simp
    · intro k' hk' hne
      rw [if_neg]
      rw [key o k' hk']
      tauto
  · intro o' _ hne
    refine Finset.sum_eq_zero fun i _ => Finset.sum_eq_zero fun k' hk' => if_neg ?_
    rw [key o' k' hk']
    tauto

theorem pair_total [NeZero N] {Norb Ncell : ℕ} (hN : N = Ncell * Norb) {mp : Maps}
    (hm : mp.Good Ncell) (U D : Mat N) (sf : ℝ) :
    ∃ ws, (loopM Norb fun o => loopM Ncell fun i => loopM Ncell fun k =>
        pairAdds Norb Ncell mp (flat U) (flat D) sf o i k) = some ws ∧
      Inside (EqF.size Norb Ncell) ws ∧
      (∀ f z, f ∉ pairFields → total ws f z = 0) ∧
      ∀ f ∈ pairFields, ∀ o k : ℕ, o < Norb → k < Ncell →
        total ws f (k + Ncell * o) = ∑ i ∈ Finset.range Ncell,
          sf * pairVal (fun a b => U (siteN N Ncell o a) (siteN N Ncell o b))
            (fun a b => D (siteN N Ncell o a) (siteN N Ncell o b)) i (mp.add Ncell k i)
            (mp.nbrsN i).toNbrs (mp.nbrsN (mp.add Ncell k i)).toNbrs f := by
  refine ⟨_, loopM_eq _ fun o ho => loopM_eq _ fun i hi => loopM_eq _
    fun k hk => pairAdds_eq hN hm U D sf ho hi hk, ?_, ?_, ?_⟩
  · refine Inside.forLoop fun o ho => Inside.forLoop fun i hi => Inside.forLoop fun k hk => ?_
    intro w hw
    obtain ⟨f, hf, rfl⟩ := List.mem_map.1 hw
    have hs : EqF.size Norb Ncell f = Ncell * Norb := by
      fin_cases hf <;> rfl
    simp only [hs]
    constructor
    · positivity
    · exact_mod_cast site_lt ho hk
  · intro f z hf
    simp only [total_forLoop, total_fields pairFields (by decide)]
    simp [hf]
  · intro f hf o k ho hk
    simp only [total_forLoop, total_fields pairFields (by decide), hf, true_and]
    exact sum_two ho hk fun o i k =>
      sf * pairVal (fun a b => U (siteN N Ncell o a) (siteN N Ncell o b))
            (fun a b => D (siteN N Ncell o a) (siteN N Ncell o b)) i (mp.add Ncell k i)
            (mp.nbrsN i).toNbrs (mp.nbrsN (mp.add Ncell k i)).toNbrs f

/-! ## Densities and Green's functions -/

/-- value of a density as written in the code -/
noncomputable def densVal (U D : Mat N) (a : Fin N) : EqF → ℝ
  | .densityU => 1 - U a a
  | .densityD => 1 - D a a
  | .doubleocc => (1 - U a a) * (1 - D a a)
  | _ => 0

def densFields : List EqF := [.densityU, .densityD, .doubleocc]

theorem densityAdds_eq [NeZero N] {Norb Ncell : ℕ} (hN : N = Ncell * Norb) (U D : Mat N) (sf : ℝ) :
    densityAdds Norb Ncell (flat U) (flat D) sf = some (forLoop Norb fun o =>
      densFields.map fun f => (f, (o : ℤ),
        sf * ∑ i ∈ Finset.range Ncell, densVal U D (siteN N Ncell o i) f)) := by
  unfold densityAdds
  refine loopM_eq _ fun o ho => ?_
  simp only [Option.bind_eq_bind]
  rw [sumM_eq (fun i => densVal U D (siteN N Ncell o i) .densityU),
    sumM_eq (fun i => densVal U D (siteN N Ncell o i) .densityD),
    sumM_eq (fun i => densVal U D (siteN N Ncell o i) .doubleocc)]
  · rfl
  all_goals
    intro i hi
    have hu : flat U ((i : ℤ) + Ncell * o + (Ncell * Norb : ℤ) * (i + Ncell * o)) = _ :=
      read_mat hN U ho hi ho hi (by ring)
    have hd : flat D ((i : ℤ) + Ncell * o + (Ncell * Norb : ℤ) * (i + Ncell * o)) = _ :=
      read_mat hN D ho hi ho hi (by ring)
    simp only [hu, hd, Option.bind_some, Option.pure_def, densVal]

theorem density_total [NeZero N] {Norb Ncell : ℕ} (hN : N = Ncell * Norb) (U D : Mat N) (sf : ℝ) :
    ∃ ws, densityAdds Norb Ncell (flat U) (flat D) sf = some ws ∧
      Inside (EqF.size Norb Ncell) ws ∧
      (∀ f z, f ∉ densFields → total ws f z = 0) ∧
      ∀ f ∈ densFields, ∀ o : ℕ, o < Norb → total ws f o =
        sf * ∑ i ∈ Finset.range Ncell, densVal U D (siteN N Ncell o i) f := by
  refine ⟨_, densityAdds_eq hN U D sf, ?_, ?_, ?_⟩
  · refine Inside.forLoop fun o ho => ?_
    intro w hw
    obtain ⟨f, hf, rfl⟩ := List.mem_map.1 hw
    have hs : EqF.size Norb Ncell f = Norb := by fin_cases hf <;> rfl
    simp only [hs]
    omega
  · intro f z hf
    simp only [total_forLoop, total_fields densFields (by decide)]
    simp [hf]
  · intro f hf o ho
    simp only [total_forLoop, total_fields densFields (by decide), hf, true_and, Nat.cast_inj]
    rw [Finset.sum_ite_eq' (Finset.range Norb) o]
    simp [ho]

theorem flat_nat [NeZero N] (U : Mat N) (z : ℕ) (hz : z < N * N) :
    flat U z = some (U (Fin.ofNat N (z % N)) (Fin.ofNat N (z / N))) := by
  have hN := NeZero.pos N
  refine flat_apply U _ _ (z % N : ℕ) (z / N : ℕ) z ?_ ?_ ?_
  · simp [Fin.ofNat]
  · simp only [Fin.ofNat]
    rw [Nat.mod_eq_of_lt (Nat.div_lt_of_lt_mul hz)]
  · have := Nat.mod_add_div z N
    exact_mod_cast this.symm

theorem grfun_total [NeZero N] {Norb Ncell : ℕ} (hN : N = Ncell * Norb) (U D : Mat N) (s : ℝ) :
    ∃ ws, grfunAdds Norb Ncell (flat U) (flat D) s = some ws ∧
      Inside (EqF.size Norb Ncell) ws ∧
      (∀ f z, f ≠ .grfunU → f ≠ .grfunD → total ws f z = 0) ∧
      ∀ a b : Fin N, total ws .grfunU (a.val + N * b.val) = s * U a b ∧
        total ws .grfunD (a.val + N * b.val) = s * D a b := by
  have h1 : ∀ (f : EqF) (V : Mat N), (loopM ((Ncell * Norb) * (Ncell * Norb)) fun z =>
      (flat V z).bind fun v => pure [(f, (z : ℤ), s * v)]) = some (forLoop (N * N) fun z =>
        [(f, (z : ℤ), s * V (Fin.ofNat N (z % N)) (Fin.ofNat N (z / N)))]) := by
    intro f V
    rw [← hN]
    refine loopM_eq _ fun z hz => ?_
    rw [flat_nat V z hz]
    rfl
  have ht : ∀ (f : EqF) (V : Mat N) (a b : Fin N), total (forLoop (N * N) fun z =>
        [(f, (z : ℤ), s * V (Fin.ofNat N (z % N)) (Fin.ofNat N (z / N)))]) f (a.val + N * b.val)
        = s * V a b := by
    intro f V a b
    have hlt : a.val + N * b.val < N * N := site_lt b.2 a.2
    rw [total_forLoop, Finset.sum_eq_single_of_mem (a.val + N * b.val) (Finset.mem_range.2 hlt)]
    · rw [total_cons, total_nil, add_zero, if_pos ⟨rfl, by push_cast; rfl⟩]
      have q1 : Fin.ofNat N ((a.val + N * b.val) % N) = a :=
        Fin.ext (by simp [Fin.ofNat, Nat.add_mul_mod_self_left, Nat.mod_eq_of_lt a.2])
      have q2 : Fin.ofNat N ((a.val + N * b.val) / N) = b := by
        refine Fin.ext ?_
        simp only [Fin.ofNat]
        rw [Nat.add_mul_div_left _ _ (NeZero.pos N), Nat.div_eq_of_lt a.2, zero_add,
          Nat.mod_eq_of_lt b.2]
      rw [q1, q2]
    · intro z _ hne
      rw [total_cons, total_nil, add_zero, if_neg]
      rintro ⟨-, h⟩
      simp only at h
      exact hne (by exact_mod_cast h)
  have hz : ∀ (f g : EqF) (V : Mat N) (z : ℤ), f ≠ g → total (forLoop (N * N) fun z =>
        [(f, (z : ℤ), s * V (Fin.ofNat N (z % N)) (Fin.ofNat N (z / N)))]) g z = 0 := by
    intro f g V z hfg
    simp [total_forLoop, total_cons, total_nil, hfg]
  have hi : ∀ (f : EqF) (V : Mat N), EqF.size Norb Ncell f = N * N →
      Inside (EqF.size Norb Ncell) (forLoop (N * N) fun z =>
        [(f, (z : ℤ), s * V (Fin.ofNat N (z % N)) (Fin.ofNat N (z / N)))]) := by
    intro f V hf
    refine Inside.forLoop fun z hz => ?_
    intro w hw
    rw [List.mem_singleton] at hw
    subst hw
    simp only [hf]
    exact ⟨by omega, by exact_mod_cast hz⟩
  refine ⟨_, ?_, (hi .grfunU U ?_).append (hi .grfunD D ?_), ?_, ?_⟩
  · unfold grfunAdds
    simp only [Option.bind_eq_bind]
    rw [h1 .grfunU U, h1 .grfunD D]
    rfl
  · rw [hN]; simp [EqF.size]
  · rw [hN]; simp [EqF.size]
  · intro f z h h'
    rw [total_append, hz _ _ _ _ h.symm, hz _ _ _ _ h'.symm, add_zero]
  · intro a b
    rw [total_append, total_append, ht, ht, hz _ _ _ _ (by decide), hz _ _ _ _ (by decide)]
    exact ⟨add_zero _, zero_add _⟩

/-! ## The whole function -/

/-- what one call of `AccumulateMeasurement` adds to the arrays -/
structure EqContrib (Norb Ncell : ℕ) (mp : Maps) [NeZero N] (U D : Mat N) (s : ℝ)
    (c : EqF → ℤ → ℝ) : Prop where
  corr : ∀ f ∈ corrFields, ∀ o p k : ℕ, o < Norb → p < Norb → k < Ncell →
    c f (k + Ncell * (o + Norb * p)) = ∑ i ∈ Finset.range Ncell,
      s / Ncell * corrVal U D (k = 0 ∧ o = p) (siteN N Ncell o i)
        (siteN N Ncell p (mp.add Ncell k i)) f
  pair : ∀ f ∈ pairFields, ∀ o k : ℕ, o < Norb → k < Ncell →
    c f (k + Ncell * o) = ∑ i ∈ Finset.range Ncell,
      s / Ncell * pairVal (fun a b => U (siteN N Ncell o a) (siteN N Ncell o b))
        (fun a b => D (siteN N Ncell o a) (siteN N Ncell o b)) i (mp.add Ncell k i)
        (mp.nbrsN i).toNbrs (mp.nbrsN (mp.add Ncell k i)).toNbrs f
  dens : ∀ f ∈ densFields, ∀ o : ℕ, o < Norb → c f o =
    s / Ncell * ∑ i ∈ Finset.range Ncell, densVal U D (siteN N Ncell o i) f
  grfunU : ∀ a b : Fin N, c .grfunU (a.val + N * b.val) = s * U a b
  grfunD : ∀ a b : Fin N, c .grfunD (a.val + N * b.val) = s * D a b

theorem eqAdds_spec [NeZero N] {Norb Ncell : ℕ} (hN : N = Ncell * Norb) {mp : Maps}
    (hm : mp.Good Ncell) (U D : Mat N) (s : ℝ) :
    ∃ ws, eqAdds Norb Ncell mp (flat U) (flat D) s = some ws ∧
      Inside (EqF.size Norb Ncell) ws ∧ EqContrib Norb Ncell mp U D s (total ws) := by
  obtain ⟨a, a1, a2, a3, a4⟩ := density_total hN U D (s / Ncell)
  obtain ⟨b, b1, b2, b3, b4⟩ := grfun_total hN U D s
  obtain ⟨c, c1, c2, c3, c4⟩ := corr_total hN hm U D (s / Ncell)
  obtain ⟨e, e1, e2, e3, e4⟩ := pair_total hN hm U D (s / Ncell)
  refine ⟨a ++ b ++ c ++ e, ?_, ((a2.append b2).append c2).append e2, ?_, ?_, ?_, ?_, ?_⟩
  · unfold eqAdds
    simp only [a1, b1, c1, e1, Option.bind_eq_bind, Option.bind_some, Option.pure_def]
  · intro f hf o p k ho hp hk
    have : f ∉ densFields ∧ f ∉ pairFields ∧ f ≠ .grfunU ∧ f ≠ .grfunD := by
      fin_cases hf <;> decide
    rw [total_append, total_append, total_append, a3 _ _ this.1, b3 _ _ this.2.2.1 this.2.2.2,
      e3 _ _ this.2.1, c4 f hf o p k ho hp hk]
    ring
  · intro f hf o k ho hk
    have : f ∉ densFields ∧ f ∉ corrFields ∧ f ≠ .grfunU ∧ f ≠ .grfunD := by
      fin_cases hf <;> decide
    rw [total_append, total_append, total_append, a3 _ _ this.1, b3 _ _ this.2.2.1 this.2.2.2,
      c3 _ _ this.2.1, e4 f hf o k ho hk]
    ring
  · intro f hf o ho
    have : f ∉ pairFields ∧ f ∉ corrFields ∧ f ≠ .grfunU ∧ f ≠ .grfunD := by
      fin_cases hf <;> decide
    rw [total_append, total_append, total_append, b3 _ _ this.2.2.1 this.2.2.2,
      c3 _ _ this.2.1, e3 _ _ this.1, a4 f hf o ho]
    ring
  · intro x y
    rw [total_append, total_append, total_append, a3 _ _ (by decide), c3 _ _ (by decide),
      e3 _ _ (by decide), (b4 x y).1]
    ring
  · intro x y
    rw [total_append, total_append, total_append, a3 _ _ (by decide), c3 _ _ (by decide),
      e3 _ _ (by decide), (b4 x y).2]
    ring

/-- `AccumulateMeasurement` is defined and adds these values -/
theorem accumulateEq_contrib [NeZero N] {Norb Ncell : ℕ} (hN : N = Ncell * Norb) {mp : Maps}
    (hm : mp.Good Ncell) (Gu Gd : GreensFn N) :
    ∃ c, EqContrib Norb Ncell mp Gu.mat Gd.mat ((Gu.sgndet * Gd.sgndet : ℤ) : ℝ) c ∧
      ∀ m : EqData, accumulateEq Norb Ncell mp Gu Gd m = some
        { arr := fun f z => m.arr f z + c f z
          sign := m.sign + ((Gu.sgndet * Gd.sgndet : ℤ) : ℝ)
          nsampl := m.nsampl + 1 } := by
  obtain ⟨ws, h1, h2, h3⟩ := eqAdds_spec hN hm Gu.mat Gd.mat ((Gu.sgndet * Gd.sgndet : ℤ) : ℝ)
  refine ⟨total ws, h3, fun m => ?_⟩
  unfold accumulateEq
  simp only [h1, Option.bind_eq_bind, Option.bind_some, execute_eq _ m.arr ws h2, Option.pure_def]

end Verif.Measurement
