import Verif.Model.MeasurementFull
import Verif.Lemmas.MeasureUneq

/-! # What the functions of `measurement_full.c` add to each entry -/

set_option autoImplicit false

namespace Verif.Measurement.Full

open Matrix Verif.Lapack Verif.TimeFlow Verif.Greens Verif.Mem

variable {N : ℕ}

/-! ## Sums in which one term is not zero -/

theorem pick1 {n : ℕ} {a : ℕ} (ha : a < n) (c : ℕ → Prop) [DecidablePred c]
    (h : ∀ i < n, (c i ↔ i = a)) (v : ℕ → ℝ) :
    (∑ i ∈ Finset.range n, if c i then v i else 0) = v a := by
  rw [Finset.sum_eq_single_of_mem a (Finset.mem_range.2 ha)]
  · exact if_pos ((h a ha).2 rfl)
  · intro i hi hne
    exact if_neg fun hc => hne ((h i (Finset.mem_range.1 hi)).1 hc)

theorem pick2 {n m : ℕ} {a b : ℕ} (ha : a < n) (hb : b < m) (c : ℕ → ℕ → Prop)
    [∀ i j, Decidable (c i j)] (h : ∀ i < n, ∀ j < m, (c i j ↔ i = a ∧ j = b)) (v : ℕ → ℕ → ℝ) :
    (∑ i ∈ Finset.range n, ∑ j ∈ Finset.range m, if c i j then v i j else 0) = v a b := by
  rw [Finset.sum_eq_single_of_mem a (Finset.mem_range.2 ha)]
  · exact pick1 hb (c a) (fun j hj => by rw [h a ha j hj]; tauto) _
  · intro i hi hne
    refine Finset.sum_eq_zero fun j hj => if_neg ?_
    rw [h i (Finset.mem_range.1 hi) j (Finset.mem_range.1 hj)]
    tauto

theorem pick3 {n m k : ℕ} {a b e : ℕ} (ha : a < n) (hb : b < m) (he : e < k)
    (c : ℕ → ℕ → ℕ → Prop) [∀ i j l, Decidable (c i j l)]
    (h : ∀ i < n, ∀ j < m, ∀ l < k, (c i j l ↔ i = a ∧ j = b ∧ l = e)) (v : ℕ → ℕ → ℕ → ℝ) :
    (∑ i ∈ Finset.range n, ∑ j ∈ Finset.range m, ∑ l ∈ Finset.range k,
      if c i j l then v i j l else 0) = v a b e := by
  rw [Finset.sum_eq_single_of_mem a (Finset.mem_range.2 ha)]
  · exact pick2 hb he (c a) (fun j hj l hl => by rw [h a ha j hj l hl]; tauto) _
  · intro i hi hne
    refine Finset.sum_eq_zero fun j hj => Finset.sum_eq_zero fun l hl => if_neg ?_
    rw [h i (Finset.mem_range.1 hi) j (Finset.mem_range.1 hj) l (Finset.mem_range.1 hl)]
    tauto

theorem pick4 {n m k r : ℕ} {a b e g : ℕ} (ha : a < n) (hb : b < m) (he : e < k) (hg : g < r)
    (c : ℕ → ℕ → ℕ → ℕ → Prop) [∀ i j l q, Decidable (c i j l q)]
    (h : ∀ i < n, ∀ j < m, ∀ l < k, ∀ q < r, (c i j l q ↔ i = a ∧ j = b ∧ l = e ∧ q = g))
    (v : ℕ → ℕ → ℕ → ℕ → ℝ) :
    (∑ i ∈ Finset.range n, ∑ j ∈ Finset.range m, ∑ l ∈ Finset.range k, ∑ q ∈ Finset.range r,
      if c i j l q then v i j l q else 0) = v a b e g := by
  rw [Finset.sum_eq_single_of_mem a (Finset.mem_range.2 ha)]
  · exact pick3 hb he hg (c a) (fun j hj l hl q hq => by rw [h a ha j hj l hl q hq]; tauto) _
  · intro i hi hne
    refine Finset.sum_eq_zero fun j hj => Finset.sum_eq_zero fun l hl =>
      Finset.sum_eq_zero fun q hq => if_neg ?_
    rw [h i (Finset.mem_range.1 hi) j (Finset.mem_range.1 hj) l (Finset.mem_range.1 hl) q
      (Finset.mem_range.1 hq)]
    tauto

/-- two digits determine each other -/
theorem idx2 {n i a j b : ℕ} (hi : i < n) (ha : a < n) :
    ((i : ℤ) + n * j = a + n * b) ↔ i = a ∧ j = b := mixed_inj hi ha

/-- three digits -/
theorem idx3 {n m i a j b l e : ℕ} (hi : i < n) (ha : a < n) (hj : j < m) (hb : b < m) :
    ((i : ℤ) + n * j + n * m * l = a + n * b + n * m * e) ↔ i = a ∧ j = b ∧ l = e := by
  have h1 := idx2 (n := n) (j := j + m * l) (b := b + m * e) hi ha
  have h2 : j + m * l = b + m * e ↔ j = b ∧ l = e := by
    have := idx2 (n := m) (j := l) (b := e) hj hb
    rw [← this]
    norm_cast
  rw [h2] at h1
  rw [← h1]
  push_cast
  constructor <;> intro h <;> linarith

/-! ## Copies of whole arrays -/

/-- `cblas_daxpy` of an array that can be read completely -/
theorem axpy_total {A : Type} [DecidableEq A] (f : A) (n : ℕ) (rd : ℤ → Option ℝ)
    (h : ∀ z : ℕ, z < n → ∃ v, rd z = some v) (s : ℝ) :
    ∃ ws : List (Measurement.Add A), (loopM n fun z => (rd (z : ℤ)).bind fun v =>
        some [(f, (z : ℤ), s * v)]) = some ws ∧
      (∀ size : A → ℤ, (n : ℤ) ≤ size f → Inside size ws) ∧
      (∀ g z, g ≠ f → total ws g z = 0) ∧
      ∀ z : ℕ, z < n → ∀ v, rd z = some v → total ws f z = s * v := by
  refine ⟨_, loopM_eq (fun z => [(f, (z : ℤ), s * (rd z).getD 0)]) fun z hz => ?_, ?_, ?_, ?_⟩
  · obtain ⟨v, hv⟩ := h z hz
    rw [hv]
    rfl
  · intro size hs
    refine Inside.forLoop fun z hz w hw => ?_
    rw [List.mem_singleton] at hw
    subst hw
    simp only
    constructor <;> omega
  · intro g z hg
    simp [total_forLoop, total_cons, total_nil, Ne.symm hg]
  · intro z hz v hv
    simp only [total_forLoop, total_cons, total_nil, add_zero, true_and]
    rw [pick1 hz (fun i => (i : ℤ) = z) (fun i _ => by norm_cast) fun i => s * (rd i).getD 0, hv]
    rfl

/-! ## Reading -/

section Reads
variable {Norb Ncell : ℕ} [NeZero N] (hN : N = Ncell * Norb)
include hN

/-- `mat[i + N*j]` -/
theorem read_site (U : Mat N) (i j : ℕ) (hi : i < Ncell * Norb) (hj : j < Ncell * Norb) :
    flat U ((i : ℤ) + (Ncell * Norb : ℤ) * j) = some (U (Fin.ofNat N i) (Fin.ofNat N j)) := by
  refine flat_apply U _ _ i j _ ?_ ?_ ?_
  · simp only [Fin.ofNat]; rw [Nat.mod_eq_of_lt (by omega)]
  · simp only [Fin.ofNat]; rw [Nat.mod_eq_of_lt (by omega)]
  · rw [hN]; push_cast; ring

theorem ofNat_eq_iff {i j : ℕ} (hi : i < Ncell * Norb) (hj : j < Ncell * Norb) :
    Fin.ofNat N i = Fin.ofNat N j ↔ i = j := by
  rw [Fin.ext_iff]
  simp only [Fin.ofNat]
  rw [Nat.mod_eq_of_lt (by omega), Nat.mod_eq_of_lt (by omega)]

end Reads

theorem ofNat_val [NeZero N] (a : Fin N) : Fin.ofNat N a.val = a :=
  Fin.ext (Nat.mod_eq_of_lt a.2)

/-! ## Equal time measurements -/

theorem densityAdds_eq [NeZero N] {Norb Ncell : ℕ} (hN : N = Ncell * Norb) (U D : Mat N) (s : ℝ)
    {i : ℕ} (hi : i < Ncell * Norb) :
    densityAdds Norb Ncell (flat U) (flat D) s i
      = some (densFields.map fun f => (f, (i : ℤ), s * densVal U D (Fin.ofNat N i) f)) := by
  unfold densityAdds
  simp only [read_site hN U i i hi hi, read_site hN D i i hi hi, Option.bind_eq_bind,
    Option.bind_some, Option.pure_def, densFields, List.map_cons, List.map_nil, densVal]
  simp only [mul_assoc]

theorem corrAdds_eq [NeZero N] {Norb Ncell : ℕ} (hN : N = Ncell * Norb) (U D : Mat N) (s : ℝ)
    {i j : ℕ} (hi : i < Ncell * Norb) (hj : j < Ncell * Norb) :
    corrAdds Norb Ncell (flat U) (flat D) s i j
      = some (corrFields.map fun f => (f, (i : ℤ) + (Ncell * Norb : ℤ) * j,
          s * corrVal U D (i = j) (Fin.ofNat N i) (Fin.ofNat N j) f)) := by
  unfold corrAdds
  simp only [read_site hN U i i hi hi, read_site hN D i i hi hi, read_site hN U j j hj hj,
    read_site hN D j j hj hj, read_site hN U i j hi hj, read_site hN D i j hi hj,
    read_site hN U j i hj hi, read_site hN D j i hj hi, Option.bind_eq_bind,
    Option.bind_some, Option.pure_def, Option.some.injEq, corrFields, List.map_cons,
    List.map_nil, corrVal]
  by_cases h : i = j
  · simp only [h, if_true, List.cons_append, List.nil_append]
  · simp only [h, if_false, List.cons_append, List.nil_append]

theorem pairAdds_eq [NeZero N] {Norb Ncell : ℕ} (hN : N = Ncell * Norb) {mp mp' : Maps}
    (hm : mp'.Good Ncell) (he : ∀ c, mp.nbrs Ncell c = mp'.nbrs Ncell c) (U D : Mat N) (s : ℝ)
    {o i j : ℕ} (ho : o < Norb) (hi : i < Ncell) (hj : j < Ncell) :
    pairAdds Norb Ncell mp (flat U) (flat D) s o i j
      = some (pairFields.map fun f => (f, (i : ℤ) + Ncell * j + Ncell * Ncell * o,
          s * pairVal (fun a b => U (siteN N Ncell o a) (siteN N Ncell o b))
            (fun a b => D (siteN N Ncell o a) (siteN N Ncell o b)) i j
            (mp'.nbrsN i).toNbrs (mp'.nbrsN j).toNbrs f)) := by
  unfold pairAdds
  simp only [he, hm.read_nbrs hi, hm.read_nbrs hj, Option.bind_eq_bind, Option.bind_some]
  have hn := hm.nbrsN_lt hi
  have hn' := hm.nbrsN_lt hj
  generalize mp'.nbrsN i = n at hn ⊢
  generalize mp'.nbrsN j = n' at hn' ⊢
  rw [read_mat hN U ho hi ho hj (by ring), read_mat hN D ho hi ho hj (by ring)]
  rw [sumTerms_eq (fun r c => D (siteN N Ncell o r.toNat) (siteN N Ncell o c.toNat)),
    sumTerms_eq (fun r c => D (siteN N Ncell o r.toNat) (siteN N Ncell o c.toNat))]
  · simp only [Option.bind_some, Option.pure_def, Option.some.injEq, pairFields, List.map_cons,
      List.map_nil, pairVal, nbrSum]
    simp only [mul_assoc]
  · intro t ht
    obtain ⟨r, c, hr, hc, e1, e2⟩ := terms_nat hn hn' t (Or.inr ht)
    simp only [e1, e2, Int.toNat_natCast]
    exact read_mat hN D ho hr ho hc (by ring)
  · intro t ht
    obtain ⟨r, c, hr, hc, e1, e2⟩ := terms_nat hn hn' t (Or.inl ht)
    simp only [e1, e2, Int.toNat_natCast]
    exact read_mat hN D ho hr ho hc (by ring)

/-- what one call of `AccumulateMeasurement` adds to the arrays -/
structure EqContrib (Norb Ncell : ℕ) (mp : Maps) [NeZero N] (U D : Mat N) (s : ℝ)
    (c : EqF → ℤ → ℝ) : Prop where
  corr : ∀ f ∈ corrFields, ∀ a b : Fin N,
    c f (a.val + N * b.val) = s * corrVal U D (a.val = b.val) a b f
  pair : ∀ f ∈ pairFields, ∀ o i j : ℕ, o < Norb → i < Ncell → j < Ncell →
    c f (i + Ncell * j + Ncell * Ncell * o)
      = s * pairVal (fun a b => U (siteN N Ncell o a) (siteN N Ncell o b))
        (fun a b => D (siteN N Ncell o a) (siteN N Ncell o b)) i j
        (mp.nbrsN i).toNbrs (mp.nbrsN j).toNbrs f
  dens : ∀ f ∈ densFields, ∀ a : Fin N, c f a.val = s * densVal U D a f
  grfunU : ∀ a b : Fin N, c .grfunU (a.val + N * b.val) = s * U a b
  grfunD : ∀ a b : Fin N, c .grfunD (a.val + N * b.val) = s * D a b

theorem density_total [NeZero N] {Norb Ncell : ℕ} (hN : N = Ncell * Norb) (U D : Mat N) (s : ℝ) :
    ∃ ws, (loopM (Ncell * Norb) fun i => densityAdds Norb Ncell (flat U) (flat D) s i) = some ws ∧
      Inside (eqSize Norb Ncell) ws ∧
      (∀ f z, f ∉ densFields → total ws f z = 0) ∧
      ∀ f ∈ densFields, ∀ a : Fin N, total ws f a.val = s * densVal U D a f := by
  refine ⟨_, loopM_eq _ fun i hi => densityAdds_eq hN U D s hi, ?_, ?_, ?_⟩
  · refine Inside.forLoop fun i hi w hw => ?_
    obtain ⟨f, hf, rfl⟩ := List.mem_map.1 hw
    have hs : eqSize Norb Ncell f = Ncell * Norb := by fin_cases hf <;> rfl
    simp only [hs]
    exact ⟨by omega, by exact_mod_cast hi⟩
  · intro f z hf
    simp only [total_forLoop, total_fields densFields (by decide)]
    simp [hf]
  · intro f hf a
    simp only [total_forLoop, total_fields densFields (by decide), hf, true_and]
    have ha : a.val < Ncell * Norb := hN ▸ a.2
    rw [pick1 ha (fun i => (i : ℤ) = a.val) (fun i _ => by norm_cast)
      fun i => s * densVal U D (Fin.ofNat N i) f, ofNat_val]

theorem corr_total [NeZero N] {Norb Ncell : ℕ} (hN : N = Ncell * Norb) (U D : Mat N) (s : ℝ) :
    ∃ ws, (loopM (Ncell * Norb) fun i => loopM (Ncell * Norb) fun j =>
        corrAdds Norb Ncell (flat U) (flat D) s i j) = some ws ∧
      Inside (eqSize Norb Ncell) ws ∧
      (∀ f z, f ∉ corrFields → total ws f z = 0) ∧
      ∀ f ∈ corrFields, ∀ a b : Fin N,
        total ws f (a.val + N * b.val) = s * corrVal U D (a.val = b.val) a b f := by
  refine ⟨_, loopM_eq _ fun i hi => loopM_eq _ fun j hj => corrAdds_eq hN U D s hi hj, ?_, ?_, ?_⟩
  · refine Inside.forLoop fun i hi => Inside.forLoop fun j hj w hw => ?_
    obtain ⟨f, hf, rfl⟩ := List.mem_map.1 hw
    have hs : eqSize Norb Ncell f = (Ncell * Norb) * (Ncell * Norb) := by fin_cases hf <;> rfl
    simp only [hs]
    exact ⟨by positivity, by exact_mod_cast site_lt hj hi⟩
  · intro f z hf
    simp only [total_forLoop, total_fields corrFields (by decide)]
    simp [hf]
  · intro f hf a b
    simp only [total_forLoop, total_fields corrFields (by decide), hf, true_and]
    have ha : a.val < Ncell * Norb := hN ▸ a.2
    have hb : b.val < Ncell * Norb := hN ▸ b.2
    have hZ : (N : ℤ) = Ncell * Norb := by exact_mod_cast hN
    rw [pick2 ha hb (fun i j => (i : ℤ) + (Ncell * Norb : ℤ) * j = a.val + N * b.val)
      (fun i hi j _ => by
        have := idx2 (j := j) (b := b.val) hi ha
        push_cast at this
        rw [hZ]
        exact this)
      fun i j => s * corrVal U D (i = j) (Fin.ofNat N i) (Fin.ofNat N j) f, ofNat_val, ofNat_val]

theorem pair_total [NeZero N] {Norb Ncell : ℕ} (hN : N = Ncell * Norb) {mp mp' : Maps}
    (hm : mp'.Good Ncell) (he : ∀ c, mp.nbrs Ncell c = mp'.nbrs Ncell c) (U D : Mat N) (s : ℝ) :
    ∃ ws, (loopM Norb fun o => loopM Ncell fun i => loopM Ncell fun j =>
        pairAdds Norb Ncell mp (flat U) (flat D) s o i j) = some ws ∧
      Inside (eqSize Norb Ncell) ws ∧
      (∀ f z, f ∉ pairFields → total ws f z = 0) ∧
      ∀ f ∈ pairFields, ∀ o i j : ℕ, o < Norb → i < Ncell → j < Ncell →
        total ws f (i + Ncell * j + Ncell * Ncell * o)
          = s * pairVal (fun a b => U (siteN N Ncell o a) (siteN N Ncell o b))
            (fun a b => D (siteN N Ncell o a) (siteN N Ncell o b)) i j
            (mp'.nbrsN i).toNbrs (mp'.nbrsN j).toNbrs f := by
  refine ⟨_, loopM_eq _ fun o ho => loopM_eq _ fun i hi => loopM_eq _
    fun j hj => pairAdds_eq hN hm he U D s ho hi hj, ?_, ?_, ?_⟩
  · refine Inside.forLoop fun o ho => Inside.forLoop fun i hi => Inside.forLoop fun j hj w hw => ?_
    obtain ⟨f, hf, rfl⟩ := List.mem_map.1 hw
    have hs : eqSize Norb Ncell f = Ncell * Ncell * Norb := by fin_cases hf <;> rfl
    simp only [hs]
    refine ⟨by positivity, ?_⟩
    have h1 : i + Ncell * j < Ncell * Ncell := site_lt hj hi
    have h2 : (i + Ncell * j) + (Ncell * Ncell) * o < (Ncell * Ncell) * Norb := site_lt ho h1
    exact_mod_cast h2
  · intro f z hf
    simp only [total_forLoop, total_fields pairFields (by decide)]
    simp [hf]
  · intro f hf o i j ho hi hj
    simp only [total_forLoop, total_fields pairFields (by decide), hf, true_and]
    exact pick3 ho hi hj (fun o' i' j' => (i' : ℤ) + Ncell * j' + Ncell * Ncell * o'
        = i + Ncell * j + Ncell * Ncell * o)
      (fun o' _ i' hi' j' hj' => by rw [idx3 hi' hi hj' hj]; tauto)
      fun o i j => s * pairVal (fun a b => U (siteN N Ncell o a) (siteN N Ncell o b))
            (fun a b => D (siteN N Ncell o a) (siteN N Ncell o b)) i j
            (mp'.nbrsN i).toNbrs (mp'.nbrsN j).toNbrs f

theorem grfun_total [NeZero N] {Norb Ncell : ℕ} (hN : N = Ncell * Norb) (U D : Mat N) (s : ℝ) :
    ∃ ws, grfunAdds Norb Ncell (flat U) (flat D) s = some ws ∧
      Inside (eqSize Norb Ncell) ws ∧
      (∀ f z, f ≠ .grfunU → f ≠ .grfunD → total ws f z = 0) ∧
      ∀ a b : Fin N, total ws .grfunU (a.val + N * b.val) = s * U a b ∧
        total ws .grfunD (a.val + N * b.val) = s * D a b := by
  have hr : ∀ V : Mat N, ∀ z : ℕ, z < (Ncell * Norb) * (Ncell * Norb) → ∃ v, flat V z = some v :=
    fun V z hz => ⟨_, flat_nat V z (by rw [hN]; exact hz)⟩
  obtain ⟨a, a1, a2, a3, a4⟩ := axpy_total EqF.grfunU _ (flat U) (hr U) s
  obtain ⟨b, b1, b2, b3, b4⟩ := axpy_total EqF.grfunD _ (flat D) (hr D) s
  refine ⟨a ++ b, ?_, (a2 _ ?_).append (b2 _ ?_), ?_, ?_⟩
  · unfold grfunAdds
    simp only [Option.bind_eq_bind, Option.pure_def]
    rw [a1, Option.bind_some, b1, Option.bind_some]
  · simp [eqSize]
  · simp [eqSize]
  · intro f z h h'
    rw [total_append, a3 _ _ h, b3 _ _ h', add_zero]
  · intro x y
    have hlt : x.val + N * y.val < (Ncell * Norb) * (Ncell * Norb) := by
      rw [← hN]; exact site_lt y.2 x.2
    have hx : ∀ V : Mat N, flat V ((x.val + N * y.val : ℕ) : ℤ) = some (V x y) := fun V =>
      flat_apply V x y x.val y.val _ rfl rfl (by push_cast; ring)
    rw [total_append, total_append, b3 .grfunU _ (by decide), a3 .grfunD _ (by decide)]
    have h1 := a4 _ hlt _ (hx U)
    have h2 := b4 _ hlt _ (hx D)
    push_cast at h1 h2
    rw [h1, h2]
    exact ⟨add_zero _, zero_add _⟩

theorem eqAdds_spec [NeZero N] {Norb Ncell : ℕ} (hN : N = Ncell * Norb) {mp mp' : Maps}
    (hm : mp'.Good Ncell) (he : ∀ c, mp.nbrs Ncell c = mp'.nbrs Ncell c) (U D : Mat N) (s : ℝ) :
    ∃ ws, eqAdds Norb Ncell mp (flat U) (flat D) s = some ws ∧
      Inside (eqSize Norb Ncell) ws ∧ EqContrib Norb Ncell mp' U D s (total ws) := by
  obtain ⟨a, a1, a2, a3, a4⟩ := density_total hN U D s
  obtain ⟨b, b1, b2, b3, b4⟩ := grfun_total hN U D s
  obtain ⟨c, c1, c2, c3, c4⟩ := corr_total hN U D s
  obtain ⟨e, e1, e2, e3, e4⟩ := pair_total hN hm he U D s
  refine ⟨a ++ b ++ c ++ e, ?_, ((a2.append b2).append c2).append e2, ?_, ?_, ?_, ?_, ?_⟩
  · unfold eqAdds
    simp only [a1, b1, c1, e1, Option.bind_eq_bind, Option.bind_some, Option.pure_def]
  · intro f hf x y
    have : f ∉ densFields ∧ f ∉ pairFields ∧ f ≠ .grfunU ∧ f ≠ .grfunD := by
      fin_cases hf <;> decide
    rw [total_append, total_append, total_append, a3 _ _ this.1, b3 _ _ this.2.2.1 this.2.2.2,
      e3 _ _ this.2.1, c4 f hf x y]
    ring
  · intro f hf o i j ho hi hj
    have : f ∉ densFields ∧ f ∉ corrFields ∧ f ≠ .grfunU ∧ f ≠ .grfunD := by
      fin_cases hf <;> decide
    rw [total_append, total_append, total_append, a3 _ _ this.1, b3 _ _ this.2.2.1 this.2.2.2,
      c3 _ _ this.2.1, e4 f hf o i j ho hi hj]
    ring
  · intro f hf x
    have : f ∉ pairFields ∧ f ∉ corrFields ∧ f ≠ .grfunU ∧ f ≠ .grfunD := by
      fin_cases hf <;> decide
    rw [total_append, total_append, total_append, b3 _ _ this.2.2.1 this.2.2.2,
      c3 _ _ this.2.1, e3 _ _ this.1, a4 f hf x]
    ring
  · intro x y
    rw [total_append, total_append, total_append, a3 _ _ (by decide), c3 _ _ (by decide),
      e3 _ _ (by decide), (b4 x y).1]
    ring
  · intro x y
    rw [total_append, total_append, total_append, a3 _ _ (by decide), c3 _ _ (by decide),
      e3 _ _ (by decide), (b4 x y).2]
    ring

/-- `AccumulateMeasurement` is defined and adds these values -/
theorem accumulateEq_contrib [NeZero N] {Norb Ncell : ℕ} (hN : N = Ncell * Norb) {mp mp' : Maps}
    (hm : mp'.Good Ncell) (he : ∀ c, mp.nbrs Ncell c = mp'.nbrs Ncell c) (Gu Gd : GreensFn N) :
    ∃ c, EqContrib Norb Ncell mp' Gu.mat Gd.mat ((Gu.sgndet * Gd.sgndet : ℤ) : ℝ) c ∧
      ∀ m : EqData, accumulateEq Norb Ncell mp Gu Gd m = some
        { arr := fun f z => m.arr f z + c f z
          sign := m.sign + ((Gu.sgndet * Gd.sgndet : ℤ) : ℝ)
          nsampl := m.nsampl + 1 } := by
  obtain ⟨ws, h1, h2, h3⟩ := eqAdds_spec hN hm he Gu.mat Gd.mat ((Gu.sgndet * Gd.sgndet : ℤ) : ℝ)
  refine ⟨total ws, h3, fun m => ?_⟩
  unfold accumulateEq
  simp only [h1, Option.bind_eq_bind, Option.bind_some, execute_eq _ m.arr ws h2, Option.pure_def]

/-! ## Unequal time measurements -/

/-- the fields with correlations in the order of the additions -/
def ucFields : List UneqF := [.nn, .zz, .xx]

/-- the fields with pairing and Raman correlations -/
def upFields : List UneqF := [.scSw, .scDw, .scSx, .b1g, .b2g]

section UReads
variable {Norb Ncell : ℕ} [NeZero N] (hN : N = Ncell * Norb) (L : ℕ) (g : TimeG N)
include hN

theorem uread_tau0 {l i j : ℕ} (hl : l < L) (hi : i < Ncell * Norb) (hj : j < Ncell * Norb) :
    (g.cur L).tau0 ((i : ℤ) + (Ncell * Norb : ℤ) * (l + L * j))
      = some (g.t0 l (Fin.ofNat N i) (Fin.ofNat N j)) := by
  refine cur_tau0 L g l hl _ _ _ ?_
  simp only [Fin.ofNat]
  rw [Nat.mod_eq_of_lt (by omega), Nat.mod_eq_of_lt (by omega), hN]
  push_cast
  ring

theorem uread_zt {l i j : ℕ} (hl : l < L) (hi : i < Ncell * Norb) (hj : j < Ncell * Norb) :
    (g.cur L).zerotau ((i : ℤ) + (Ncell * Norb : ℤ) * (j + (Ncell * Norb : ℤ) * l))
      = some (g.zt l (Fin.ofNat N i) (Fin.ofNat N j)) := by
  refine cur_zt L g l hl _ _ _ ?_
  simp only [Fin.ofNat]
  rw [Nat.mod_eq_of_lt (by omega), Nat.mod_eq_of_lt (by omega), hN]
  push_cast
  ring

theorem uread_eq {l i j : ℕ} (hl : l < L) (hi : i < Ncell * Norb) (hj : j < Ncell * Norb) :
    (g.cur L).eqlt ((i : ℤ) + (Ncell * Norb : ℤ) * (j + (Ncell * Norb : ℤ) * l))
      = some (g.eq l (Fin.ofNat N i) (Fin.ofNat N j)) := by
  refine cur_eq L g l hl _ _ _ ?_
  simp only [Fin.ofNat]
  rw [Nat.mod_eq_of_lt (by omega), Nat.mod_eq_of_lt (by omega), hN]
  push_cast
  ring

theorem uread_eq0 {i : ℕ} (hL : 0 < L) (hi : i < Ncell * Norb) :
    (g.cur L).eqlt ((i : ℤ) + (Ncell * Norb : ℤ) * i)
      = some (g.eq 0 (Fin.ofNat N i) (Fin.ofNat N i)) := by
  have := uread_eq hN L g hL hi hi
  simpa using this

end UReads

theorem uneqCorrAdds_eq [NeZero N] {Norb Ncell L : ℕ} (hN : N = Ncell * Norb) (u d : TimeG N) (s : ℝ)
    {l i j : ℕ} (hl : l < L) (hi : i < Ncell * Norb) (hj : j < Ncell * Norb) :
    uneqCorrAdds Norb Ncell L (u.cur L) (d.cur L) s l i j
      = some (ucFields.map fun f => (f,
          (i : ℤ) + (Ncell * Norb : ℤ) * j + (Ncell * Norb : ℤ) * (Ncell * Norb : ℤ) * l,
          s * ucorrVal u d l (i = j ∧ l = 0) (Fin.ofNat N i) (Fin.ofNat N j) f)) := by
  unfold uneqCorrAdds
  simp only [Option.bind_eq_bind, uread_eq hN L u hl hi hi, uread_eq hN L d hl hi hi,
    Option.bind_some]
  by_cases h : i = j ∧ l = 0
  · rw [if_pos h]
    obtain ⟨h1, h2⟩ := h
    subst h1 h2
    simp [uneqSameAdds, ucFields, ucorrVal]
  · rw [if_neg h]
    have hL : 0 < L := by omega
    unfold uneqDiffAdds
    simp only [Option.bind_eq_bind, uread_eq0 hN L u hL hj, uread_eq0 hN L d hL hj,
      uread_tau0 hN L u hl hi hj, uread_tau0 hN L d hl hi hj, uread_zt hN L u hl hj hi,
      uread_zt hN L d hl hj hi, Option.bind_some, Option.pure_def, ucFields, List.map_cons,
      List.map_nil, ucorrVal, h, if_false]

theorem uneqPairAdds_eq [NeZero N] {Norb Ncell L : ℕ} (hN : N = Ncell * Norb) {mp mp' : Maps}
    (hm : mp'.Good Ncell) (he : ∀ c, mp.nbrs Ncell c = mp'.nbrs Ncell c)
    (he' : ∀ n, mp.diag Ncell n = mp'.diag Ncell n) (u d : TimeG N) (s : ℝ) {l o i j : ℕ}
    (hl : l < L) (ho : o < Norb) (hi : i < Ncell) (hj : j < Ncell) :
    uneqPairAdds Norb Ncell L mp (u.cur L) (d.cur L) s l o i j
      = some (upFields.map fun f => (f, (i : ℤ) + Ncell * j + Ncell * Ncell * (o + Norb * l),
          s * upairVal (u.base Ncell l o) (d.base Ncell l o) l i j
            (mp'.nbrsN i) (mp'.nbrsN j) (mp'.diagN (mp'.nbrsN i)) (mp'.diagN (mp'.nbrsN j)) f)) := by
  unfold uneqPairAdds
  have hn := hm.nbrsN_lt hi
  have hn' := hm.nbrsN_lt hj
  simp (maxSteps := 2000000) only [he, he', hm.read_nbrs hi, hm.read_nbrs hj, Option.bind_eq_bind,
    Option.bind_some, hm.read_diag hn.1 hn.2.1, hm.read_diag hn'.1 hn'.2.1]
  have hd := hm.diagN_lt hn.1 hn.2.1
  have hd' := hm.diagN_lt hn'.1 hn'.2.1
  generalize mp'.diagN (mp'.nbrsN i) = g at hd ⊢
  generalize mp'.diagN (mp'.nbrsN j) = g' at hd' ⊢
  generalize mp'.nbrsN i = n at hn ⊢
  generalize mp'.nbrsN j = n' at hn' ⊢
  have ru := reads_base (L := L) hN u hl ho
  have rd := reads_base (L := L) hN d hl ho
  generalize (u.cur L).base Norb Ncell L l o = bu at ru ⊢
  generalize (d.cur L).base Norb Ncell L l o = bd at rd ⊢
  generalize u.base Ncell l o = u' at ru ⊢
  generalize d.base Ncell l o = d' at rd ⊢
  rw [(ru i j hi hj).1, (rd i j hi hj).1]
  have s1 : sumTerms (dwTerms n.toNbrs n'.toNbrs) bd.t0 = _ :=
    sumTerms_nat (fun x y hx hy => (rd x y hx hy).1) fun t h => terms_nat hn hn' t (Or.inl h)
  have s2 : sumTerms (sxTerms n.toNbrs n'.toNbrs) bd.t0 = _ :=
    sumTerms_nat (fun x y hx hy => (rd x y hx hy).1) fun t h => terms_nat hn hn' t (Or.inr h)
  have s3 : sumTerms (b1gTerms n.toNbrs n'.toNbrs) (ramanTerm bu bd l i j) = _ :=
    sumTerms_nat (fun x y hx hy => ramanTerm_eq ru rd l hi hj hx hy)
      fun t h => terms_nat hn hn' t (Or.inl h)
  have s4 : sumTerms (b2gTerms g.toDiag g'.toDiag) (ramanTerm bu bd l i j) = _ :=
    sumTerms_nat (fun x y hx hy => ramanTerm_eq ru rd l hi hj hx hy)
      fun t h => diag_terms_nat hd hd' t h
  rw [s1, s2, s3, s4]
  simp only [Option.bind_some, Option.pure_def, Option.some.injEq, upFields, List.map_cons,
    List.map_nil, upairVal]
  simp only [mul_assoc]

/-- what one call of `AccumulateUnequalTimeMeasurement` adds to the arrays -/
structure UneqContrib (Norb Ncell L : ℕ) (mp : Maps) [NeZero N] (u d : TimeG N) (s : ℝ)
    (c : UneqF → ℤ → ℝ) : Prop where
  corr : ∀ f ∈ ucFields, ∀ l : ℕ, l < L → ∀ a b : Fin N,
    c f (a.val + N * b.val + N * N * l) = s * ucorrVal u d l (a.val = b.val ∧ l = 0) a b f
  pair : ∀ f ∈ upFields, ∀ l o i j : ℕ, l < L → o < Norb → i < Ncell → j < Ncell →
    c f (i + Ncell * j + Ncell * Ncell * (o + Norb * l))
      = s * upairVal (u.base Ncell l o) (d.base Ncell l o) l i j
        (mp.nbrsN i) (mp.nbrsN j) (mp.diagN (mp.nbrsN i)) (mp.diagN (mp.nbrsN j)) f
  green : ∀ l : ℕ, l < L → ∀ a b : Fin N,
    c .gtau0U (a.val + N * (l + L * b.val)) = s * u.t0 l a b ∧
    c .g0tauU (a.val + N * (b.val + N * l)) = s * u.zt l a b ∧
    c .geqltU (a.val + N * (b.val + N * l)) = s * u.eq l a b ∧
    c .gtau0D (a.val + N * (l + L * b.val)) = s * d.t0 l a b ∧
    c .g0tauD (a.val + N * (b.val + N * l)) = s * d.zt l a b ∧
    c .geqltD (a.val + N * (b.val + N * l)) = s * d.eq l a b

theorem three_digits {n m k z : ℕ} (hn : 0 < n) (hm : 0 < m) (hz : z < n * m * k) :
    z % n < n ∧ z / n % m < m ∧ z / n / m < k ∧ z = z % n + n * (z / n % m + m * (z / n / m)) := by
  refine ⟨Nat.mod_lt _ hn, Nat.mod_lt _ hm, ?_, ?_⟩
  · rw [Nat.div_div_eq_div_mul]
    exact Nat.div_lt_of_lt_mul hz
  · rw [Nat.mod_add_div, Nat.mod_add_div]

theorem three_lt {n m k a b e : ℕ} (ha : a < n) (hb : b < m) (he : e < k) :
    a + n * (b + m * e) < n * m * k := by
  rw [Nat.mul_assoc]
  exact site_lt (site_lt he hb) ha

theorem green_total [NeZero N] {Norb Ncell L : ℕ} (hN : N = Ncell * Norb) (g : TimeG N)
    (f1 f2 f3 : UneqF) (h12 : f1 ≠ f2) (h13 : f1 ≠ f3) (h23 : f2 ≠ f3) (s : ℝ) :
    ∃ ws, greenAdds Norb Ncell L (g.cur L) f1 f2 f3 s = some ws ∧
      (∀ size : UneqF → ℤ, (N * L * N : ℕ) ≤ size f1 → (N * N * L : ℕ) ≤ size f2 →
        (N * N * L : ℕ) ≤ size f3 → Inside size ws) ∧
      (∀ f z, f ≠ f1 → f ≠ f2 → f ≠ f3 → total ws f z = 0) ∧
      ∀ l : ℕ, l < L → ∀ a b : Fin N,
        total ws f1 (a.val + N * (l + L * b.val)) = s * g.t0 l a b ∧
        total ws f2 (a.val + N * (b.val + N * l)) = s * g.zt l a b ∧
        total ws f3 (a.val + N * (b.val + N * l)) = s * g.eq l a b := by
  have hN0 : 0 < N := NeZero.pos N
  have r1 : ∀ z : ℕ, z < N * L * N → ∃ v, (g.cur L).tau0 z = some v := by
    intro z hz
    have hL : 0 < L := by
      rcases Nat.eq_zero_or_pos L with h | h
      · simp [h] at hz
      · exact h
    obtain ⟨h1, h2, h3, h4⟩ := three_digits hN0 hL hz
    exact ⟨_, cur_tau0 L g _ h2 ⟨_, h1⟩ ⟨_, h3⟩ z (by exact_mod_cast h4)⟩
  have r2 : ∀ z : ℕ, z < N * N * L → (∃ v, (g.cur L).zerotau z = some v) ∧
      ∃ v, (g.cur L).eqlt z = some v := by
    intro z hz
    obtain ⟨h1, h2, h3, h4⟩ := three_digits hN0 hN0 hz
    exact ⟨⟨_, cur_zt L g _ h3 ⟨_, h1⟩ ⟨_, h2⟩ z (by exact_mod_cast h4)⟩,
      ⟨_, cur_eq L g _ h3 ⟨_, h1⟩ ⟨_, h2⟩ z (by exact_mod_cast h4)⟩⟩
  obtain ⟨a, a1, a2, a3, a4⟩ := axpy_total f1 _ (g.cur L).tau0 r1 s
  obtain ⟨b, b1, b2, b3, b4⟩ := axpy_total f2 _ (g.cur L).zerotau (fun z hz => (r2 z hz).1) s
  obtain ⟨e, e1, e2, e3, e4⟩ := axpy_total f3 _ (g.cur L).eqlt (fun z hz => (r2 z hz).2) s
  refine ⟨a ++ b ++ e, ?_, fun size s1 s2 s3 => ((a2 _ s1).append (b2 _ s2)).append (e2 _ s3),
    ?_, ?_⟩
  · unfold greenAdds
    rw [← hN]
    simp only [Option.bind_eq_bind, Option.pure_def]
    rw [a1, Option.bind_some, b1, Option.bind_some, e1, Option.bind_some]
  · intro f z h1 h2 h3
    rw [total_append, total_append, a3 _ _ h1, b3 _ _ h2, e3 _ _ h3]
    simp
  · intro l hl x y
    have i1 := three_lt x.2 hl y.2
    have i2 := three_lt x.2 y.2 hl
    have v1 := a4 _ i1 _ (cur_tau0 L g l hl x y _ (by push_cast; rfl))
    have v2 := b4 _ i2 _ (cur_zt L g l hl x y _ (by push_cast; rfl))
    have v3 := e4 _ i2 _ (cur_eq L g l hl x y _ (by push_cast; rfl))
    push_cast at v1 v2 v3
    refine ⟨?_, ?_, ?_⟩
    · rw [total_append, total_append, v1, b3 _ _ h12, e3 _ _ h13]
      ring
    · rw [total_append, total_append, v2, a3 _ _ h12.symm, e3 _ _ h23]
      ring
    · rw [total_append, total_append, v3, a3 _ _ h13.symm, b3 _ _ h23.symm]
      ring

theorem rest_total [NeZero N] {Norb Ncell L : ℕ} (hN : N = Ncell * Norb) {mp mp' : Maps}
    (hm : mp'.Good Ncell) (he : ∀ c, mp.nbrs Ncell c = mp'.nbrs Ncell c)
    (he' : ∀ n, mp.diag Ncell n = mp'.diag Ncell n) (u d : TimeG N) (s : ℝ) :
    ∃ ws, (loopM L fun l => (loopM (Ncell * Norb) fun i => loopM (Ncell * Norb) fun j =>
          uneqCorrAdds Norb Ncell L (u.cur L) (d.cur L) s l i j).bind fun a =>
        (loopM Norb fun o => loopM Ncell fun i => loopM Ncell fun j =>
          uneqPairAdds Norb Ncell L mp (u.cur L) (d.cur L) s l o i j).bind fun b =>
        some (a ++ b)) = some ws ∧
      Inside (uneqSize Norb Ncell L) ws ∧
      (∀ f z, f ∉ ucFields → f ∉ upFields → total ws f z = 0) ∧
      (∀ f ∈ ucFields, ∀ l : ℕ, l < L → ∀ a b : Fin N, total ws f (a.val + N * b.val + N * N * l)
        = s * ucorrVal u d l (a.val = b.val ∧ l = 0) a b f) ∧
      ∀ f ∈ upFields, ∀ l o i j : ℕ, l < L → o < Norb → i < Ncell → j < Ncell →
        total ws f (i + Ncell * j + Ncell * Ncell * (o + Norb * l))
          = s * upairVal (u.base Ncell l o) (d.base Ncell l o) l i j
            (mp'.nbrsN i) (mp'.nbrsN j) (mp'.diagN (mp'.nbrsN i)) (mp'.diagN (mp'.nbrsN j)) f := by
  refine ⟨_, loopM_eq (fun l =>
      (forLoop (Ncell * Norb) fun i => forLoop (Ncell * Norb) fun j =>
        ucFields.map fun f => (f,
          (i : ℤ) + (Ncell * Norb : ℤ) * j + (Ncell * Norb : ℤ) * (Ncell * Norb : ℤ) * l,
          s * ucorrVal u d l (i = j ∧ l = 0) (Fin.ofNat N i) (Fin.ofNat N j) f)) ++
      (forLoop Norb fun o => forLoop Ncell fun i => forLoop Ncell fun j =>
        upFields.map fun f => (f, (i : ℤ) + Ncell * j + Ncell * Ncell * (o + Norb * l),
          s * upairVal (u.base Ncell l o) (d.base Ncell l o) l i j
            (mp'.nbrsN i) (mp'.nbrsN j) (mp'.diagN (mp'.nbrsN i)) (mp'.diagN (mp'.nbrsN j)) f)))
      (fun l hl => ?_), ?_, ?_, ?_, ?_⟩
  · have h1 : (loopM (Ncell * Norb) fun i => loopM (Ncell * Norb) fun j =>
        uneqCorrAdds Norb Ncell L (u.cur L) (d.cur L) s l i j) = _ :=
      loopM_eq _ fun i hi => loopM_eq _ fun j hj => uneqCorrAdds_eq hN u d s hl hi hj
    have h2 : (loopM Norb fun o => loopM Ncell fun i => loopM Ncell fun j =>
        uneqPairAdds Norb Ncell L mp (u.cur L) (d.cur L) s l o i j) = _ :=
      loopM_eq _ fun o ho => loopM_eq _ fun i hi => loopM_eq _ fun j hj =>
        uneqPairAdds_eq hN hm he he' u d s hl ho hi hj
    simp only [h1, h2, Option.bind_some]
  · refine Inside.forLoop fun l hl => Inside.append ?_ ?_
    · refine Inside.forLoop fun i hi => Inside.forLoop fun j hj w hw => ?_
      obtain ⟨f, hf, rfl⟩ := List.mem_map.1 hw
      have hs : uneqSize Norb Ncell L f = (Ncell * Norb) * (Ncell * Norb) * L := by
        fin_cases hf <;> rfl
      simp only [hs]
      refine ⟨by positivity, ?_⟩
      have h3 := three_lt hi hj hl
      have h4 : ((i + Ncell * Norb * (j + Ncell * Norb * l) : ℕ) : ℤ)
        < ((Ncell * Norb * (Ncell * Norb) * L : ℕ) : ℤ) := by exact_mod_cast h3
      push_cast at h4
      linarith
    · refine Inside.forLoop fun o ho => Inside.forLoop fun i hi => Inside.forLoop fun j hj w hw => ?_
      obtain ⟨f, hf, rfl⟩ := List.mem_map.1 hw
      have hs : uneqSize Norb Ncell L f = Ncell * Ncell * Norb * L := by fin_cases hf <;> rfl
      simp only [hs]
      refine ⟨by positivity, ?_⟩
      have h3 := three_lt (site_lt hj hi) ho hl
      have h4 : ((i + Ncell * j + Ncell * Ncell * (o + Norb * l) : ℕ) : ℤ)
        < ((Ncell * Ncell * Norb * L : ℕ) : ℤ) := by exact_mod_cast h3
      push_cast at h4
      linarith
  · intro f z h h'
    simp only [total_forLoop, total_append, total_fields ucFields (by decide),
      total_fields upFields (by decide), h, h', false_and, if_false, Finset.sum_const_zero,
      add_zero]
  · intro f hf l hl a b
    have hf' : f ∉ upFields := by fin_cases hf <;> decide
    simp only [total_forLoop, total_append, total_fields ucFields (by decide),
      total_fields upFields (by decide), hf, hf', true_and, false_and, if_false,
      Finset.sum_const_zero, add_zero]
    have ha : a.val < Ncell * Norb := hN ▸ a.2
    have hb : b.val < Ncell * Norb := hN ▸ b.2
    have hZ : (N : ℤ) = Ncell * Norb := by exact_mod_cast hN
    rw [pick3 hl ha hb (fun l' i j => (i : ℤ) + (Ncell * Norb : ℤ) * j
        + (Ncell * Norb : ℤ) * (Ncell * Norb : ℤ) * l' = a.val + N * b.val + N * N * l)
      (fun l' _ i hi j hj => by
        have := idx3 (l := l') (e := l) hi ha hj hb
        push_cast at this
        rw [hZ, this]
        tauto)
      fun l i j => s * ucorrVal u d l (i = j ∧ l = 0) (Fin.ofNat N i) (Fin.ofNat N j) f,
      ofNat_val, ofNat_val]
  · intro f hf l o i j hl ho hi hj
    have hf' : f ∉ ucFields := by fin_cases hf <;> decide
    simp only [total_forLoop, total_append, total_fields ucFields (by decide),
      total_fields upFields (by decide), hf, hf', true_and, false_and, if_false,
      Finset.sum_const_zero, zero_add]
    exact pick4 hl ho hi hj (fun l' o' i' j' => (i' : ℤ) + Ncell * j'
        + Ncell * Ncell * (o' + Norb * l') = i + Ncell * j + Ncell * Ncell * (o + Norb * l))
      (fun l' _ o' ho' i' hi' j' hj' => by
        have h1 := idx3 (l := o' + Norb * l') (e := o + Norb * l) hi' hi hj' hj
        have h2 : o' + Norb * l' = o + Norb * l ↔ o' = o ∧ l' = l := by
          have := idx2 (n := Norb) (j := l') (b := l) ho' ho
          rw [← this]
          norm_cast
        rw [h2] at h1
        push_cast at h1
        rw [h1]
        tauto)
      fun l o i j => s * upairVal (u.base Ncell l o) (d.base Ncell l o) l i j
        (mp'.nbrsN i) (mp'.nbrsN j) (mp'.diagN (mp'.nbrsN i)) (mp'.diagN (mp'.nbrsN j)) f

theorem uneqAdds_spec [NeZero N] {Norb Ncell L : ℕ} (hN : N = Ncell * Norb) {mp mp' : Maps}
    (hm : mp'.Good Ncell) (he : ∀ c, mp.nbrs Ncell c = mp'.nbrs Ncell c)
    (he' : ∀ n, mp.diag Ncell n = mp'.diag Ncell n) (u d : TimeG N) (s : ℝ) :
    ∃ ws, uneqAdds Norb Ncell L mp (u.cur L) (d.cur L) s = some ws ∧
      Inside (uneqSize Norb Ncell L) ws ∧ UneqContrib Norb Ncell L mp' u d s (total ws) := by
  obtain ⟨a, a1, a2, a3, a4⟩ := green_total (L := L) hN u .gtau0U .g0tauU .geqltU (by decide)
    (by decide) (by decide) s
  obtain ⟨b, b1, b2, b3, b4⟩ := green_total (L := L) hN d .gtau0D .g0tauD .geqltD (by decide)
    (by decide) (by decide) s
  obtain ⟨c, c1, c2, c3, c4, c5⟩ := rest_total (L := L) hN hm he he' u d s
  refine ⟨a ++ b ++ c, ?_, ((a2 _ ?_ ?_ ?_).append (b2 _ ?_ ?_ ?_)).append c2, ?_, ?_, ?_⟩
  · unfold uneqAdds
    simp only [Option.bind_eq_bind, Option.pure_def] at c1 ⊢
    rw [a1, b1, c1]
    rfl
  any_goals
    have hZ : (N : ℤ) = Ncell * Norb := by exact_mod_cast hN
    push_cast
    rw [hZ]
    exact le_of_eq rfl
  · intro f hf l hl x y
    have : (f ≠ .gtau0U ∧ f ≠ .g0tauU ∧ f ≠ .geqltU) ∧ f ≠ .gtau0D ∧ f ≠ .g0tauD ∧ f ≠ .geqltD := by
      fin_cases hf <;> decide
    rw [total_append, total_append, a3 _ _ this.1.1 this.1.2.1 this.1.2.2,
      b3 _ _ this.2.1 this.2.2.1 this.2.2.2, c4 f hf l hl x y]
    ring
  · intro f hf l o i j hl ho hi hj
    have : (f ≠ .gtau0U ∧ f ≠ .g0tauU ∧ f ≠ .geqltU) ∧ f ≠ .gtau0D ∧ f ≠ .g0tauD ∧ f ≠ .geqltD := by
      fin_cases hf <;> decide
    rw [total_append, total_append, a3 _ _ this.1.1 this.1.2.1 this.1.2.2,
      b3 _ _ this.2.1 this.2.2.1 this.2.2.2, c5 f hf l o i j hl ho hi hj]
    ring
  · intro l hl x y
    obtain ⟨p1, p2, p3⟩ := a4 l hl x y
    obtain ⟨q1, q2, q3⟩ := b4 l hl x y
    refine ⟨?_, ?_, ?_, ?_, ?_, ?_⟩
    · rw [total_append, total_append, p1, b3 _ _ (by decide) (by decide) (by decide),
        c3 _ _ (by decide) (by decide)]
      ring
    · rw [total_append, total_append, p2, b3 _ _ (by decide) (by decide) (by decide),
        c3 _ _ (by decide) (by decide)]
      ring
    · rw [total_append, total_append, p3, b3 _ _ (by decide) (by decide) (by decide),
        c3 _ _ (by decide) (by decide)]
      ring
    · rw [total_append, total_append, q1, a3 _ _ (by decide) (by decide) (by decide),
        c3 _ _ (by decide) (by decide)]
      ring
    · rw [total_append, total_append, q2, a3 _ _ (by decide) (by decide) (by decide),
        c3 _ _ (by decide) (by decide)]
      ring
    · rw [total_append, total_append, q3, a3 _ _ (by decide) (by decide) (by decide),
        c3 _ _ (by decide) (by decide)]
      ring

/-- `AccumulateUnequalTimeMeasurement` is defined and adds these values -/
theorem accumulateUneq_contrib [NeZero N] {Norb Ncell L : ℕ} (hN : N = Ncell * Norb) {mp mp' : Maps}
    (hm : mp'.Good Ncell) (he : ∀ c, mp.nbrs Ncell c = mp'.nbrs Ncell c)
    (he' : ∀ n, mp.diag Ncell n = mp'.diag Ncell n) (u d : TimeG N) (s : ℝ) :
    ∃ c, UneqContrib Norb Ncell L mp' u d s c ∧
      ∀ m : UneqData, accumulateUneq Norb Ncell L mp s (u.cur L) (d.cur L) m = some
        { arr := fun f z => m.arr f z + c f z
          sign := m.sign + s
          nsampl := m.nsampl + 1 } := by
  obtain ⟨ws, h1, h2, h3⟩ := uneqAdds_spec (L := L) hN hm he he' u d s
  refine ⟨total ws, h3, fun m => ?_⟩
  unfold accumulateUneq
  simp only [h1, Option.bind_eq_bind, Option.bind_some, execute_eq _ m.arr ws h2, Option.pure_def]

end Verif.Measurement.Full
