import Verif.Model.RoundedUneq
import Verif.Props.BlockCyclic
import Verif.Props.RoundedGreens

/-! # Property C117, first part: `BlockCyclicInverse` in rounded arithmetic -/

set_option autoImplicit false

namespace Verif.Rounded

open Filter Topology Matrix Verif.Lapack Verif.TimeFlow Verif.Greens Verif.Ultra Verif.BlockCyclic

/-! ## Specification -/

/-- the calls of BLAS and LAPACK for matrices with at most `S` rows and columns have errors of at most `u b^k` for matrices with
entries of at most `b`, provided `b^k` is at most `1 / u` (no overflow) and triangular matrices to be inverted have a determinant of
at least `1 / b` -/
structure BlockArith.Within (bl : BlockArith) (S k : ℕ) (u : ℝ) : Prop where
  geqrf : ∀ {m c : ℕ} (b : ℝ) (A : Matrix (Fin m) (Fin c) ℝ), m ≤ S → c ≤ m → 1 ≤ b → b ^ k * u ≤ 1 → Below b A →
    NearQR u (u * b ^ k) A (bl.geqrf A).1 (bl.geqrf A).2
  ormqrL : ∀ {m c r : ℕ} (b : ℝ) (F : Matrix (Fin m) (Fin r) ℝ) (tau : Fin r → ℝ) (C : Matrix (Fin m) (Fin c) ℝ), m ≤ S → c ≤ S →
    r ≤ m → 1 ≤ b → b ^ k * u ≤ 1 → Below b F → (∀ i, |tau i| ≤ b) → Below b C →
    Near (u * b ^ k) (bl.ormqrL F tau C) ((qMat F tau)ᵀ * C)
  ormqrR : ∀ {m c r : ℕ} (b : ℝ) (F : Matrix (Fin c) (Fin r) ℝ) (tau : Fin r → ℝ) (C : Matrix (Fin m) (Fin c) ℝ), m ≤ S → c ≤ S →
    r ≤ c → 1 ≤ b → b ^ k * u ≤ 1 → Below b F → (∀ i, |tau i| ≤ b) → Below b C →
    Near (u * b ^ k) (bl.ormqrR F tau C) (C * (qMat F tau)ᵀ)
  trtri : ∀ {m : ℕ} (b : ℝ) (M : Mat m), m ≤ S → 1 ≤ b → b ^ k * u ≤ 1 → Below b M → 1 ≤ b * |(upper M).det| →
    Near (u * b ^ k) (upper (bl.trtri M)) (upper M)⁻¹
  trmmL : ∀ {m c : ℕ} (b α : ℝ) (T : Mat m) (B : Matrix (Fin m) (Fin c) ℝ), m ≤ S → c ≤ S → 1 ≤ b → b ^ k * u ≤ 1 → |α| ≤ b →
    Below b T → Below b B → Near (u * b ^ k) (bl.trmmL α T B) (α • (upper T * B))
  trmmR : ∀ {m c : ℕ} (b : ℝ) (B : Matrix (Fin m) (Fin c) ℝ) (T : Mat c), m ≤ S → c ≤ S → 1 ≤ b → b ^ k * u ≤ 1 →
    Below b B → Below b T → Near (u * b ^ k) (bl.trmmR B T) (B * upper T)
  gemmAcc : ∀ {m l c : ℕ} (b : ℝ) (X : Matrix (Fin m) (Fin l) ℝ) (Y : Matrix (Fin l) (Fin c) ℝ) (Z : Matrix (Fin m) (Fin c) ℝ),
    m ≤ S → l ≤ S → c ≤ S → 1 ≤ b → b ^ k * u ≤ 1 → Below b X → Below b Y → Below b Z →
    Near (u * b ^ k) (bl.gemmAcc X Y Z) (X * Y + Z)

/-! ## Limits of computations which may fail -/

section slim

variable {ι : Type} {U : Ultrafilter ι} {X Y : Type}

/-- where the exact computation succeeds, the computations succeed eventually, with related results -/
def SLim (U : Ultrafilter ι) (R : (ι → X) → X → Prop) (F : ι → Option X) (F₀ : Option X) : Prop :=
  ∀ x₀, F₀ = some x₀ → ∃ x, (∀ᶠ t in (U : Filter ι), F t = some (x t)) ∧ R x x₀

theorem SLim.bind {R : (ι → X) → X → Prop} {S : (ι → Y) → Y → Prop} {F : ι → Option X} {F₀ : Option X} (h : SLim U R F F₀)
    {G : ι → X → Option Y} {G₀ : X → Option Y} (hG : ∀ x x₀, R x x₀ → SLim U S (fun t => G t (x t)) (G₀ x₀)) :
    SLim U S (fun t => (F t).bind (G t)) (F₀.bind G₀) := by
  intro y₀ hy
  obtain ⟨x₀, h1, h2⟩ := Option.bind_eq_some_iff.1 hy
  obtain ⟨x, h3, h4⟩ := h x₀ h1
  obtain ⟨y, h5, h6⟩ := hG x x₀ h4 y₀ h2
  refine ⟨y, ?_, h6⟩
  filter_upwards [h3, h5] with t a b
  rw [a, Option.bind_some]
  exact b

theorem SLim.pure {R : (ι → X) → X → Prop} {x : ι → X} {x₀ : X} (h : R x x₀) : SLim U R (fun t => some (x t)) (some x₀) := by
  intro y hy
  obtain rfl := Option.some.inj hy
  exact ⟨x, Eventually.of_forall fun _ => rfl, h⟩

theorem SLim.none {R : (ι → X) → X → Prop} (F : ι → Option X) : SLim U R F none := by
  rintro y h
  cases h

theorem SLim.const (o : Option X) : SLim U (fun x x₀ => x = fun _ => x₀) (fun _ => o) o := by
  rintro y rfl
  exact ⟨fun _ => y, Eventually.of_forall fun _ => rfl, rfl⟩

theorem SLim.foldlM {A : Type} {R : (ι → X) → X → Prop} {f : ι → X → A → Option X} {f₀ : X → A → Option X} (l : List A)
    (hf : ∀ i ∈ l, ∀ a a₀, R a a₀ → SLim U R (fun t => f t (a t) i) (f₀ a₀ i)) {a : ι → X} {a₀ : X} (h : R a a₀) :
    SLim U R (fun t => l.foldlM (f t) (a t)) (l.foldlM f₀ a₀) := by
  induction l generalizing a a₀ with
  | nil => exact SLim.pure h
  | cons i l ih =>
    simp only [List.foldlM_cons, Option.bind_eq_bind]
    exact (hf i (List.mem_cons_self) a a₀ h).bind fun b b₀ hb => ih (fun j hj => hf j (List.mem_cons_of_mem _ hj)) hb

/-- buffers whose entries converge -/
def BLim (U : Ultrafilter ι) (A : ι → Buf) (A₀ : Buf) : Prop := ∀ x, Tendsto (fun t => A t x) U (𝓝 (A₀ x))

theorem BLim.const (A : Buf) : BLim U (fun _ => A) A := fun _ => tendsto_const_nhds

theorem load_lim {A : ι → Buf} {A₀ : Buf} (h : BLim U A A₀) (size : ℕ) (a : ℤ) (ld m k : ℕ) :
    SLim U (MLim U) (fun t => load size (A t) a ld m k) (load size A₀ a ld m k) := by
  unfold load
  split
  · exact SLim.pure fun i j => h _
  · exact SLim.none _

theorem save_lim {m k : ℕ} {A : ι → Buf} {A₀ : Buf} (h : BLim U A A₀) {M : ι → Matrix (Fin m) (Fin k) ℝ}
    {M₀ : Matrix (Fin m) (Fin k) ℝ} (hM : MLim U M M₀) (size : ℕ) (a : ℤ) (ld : ℕ) :
    SLim U (BLim U) (fun t => save size (A t) a ld (M t)) (save size A₀ a ld M₀) := by
  unfold save
  split
  · refine SLim.pure fun x => ?_
    unfold store
    split
    · exact hM _ _
    · exact h x
  · exact SLim.none _

theorem loadTau_lim {A : ι → Buf} {A₀ : Buf} (h : BLim U A A₀) (size : ℕ) (a : ℤ) (k : ℕ) :
    SLim U (fun (x : ι → Fin k → ℝ) x₀ => ∀ j, Tendsto (fun t => x t j) U (𝓝 (x₀ j))) (fun t => loadTau size (A t) a k) (loadTau size A₀ a k) := by
  unfold loadTau
  simp only [Option.bind_eq_bind]
  exact (load_lim h _ _ _ _ _).bind fun T T₀ hT => SLim.pure fun j => hT j 0

end slim

/-! ## Limits of the calls -/

section calls

variable {ι : Type} {U : Ultrafilter ι}

/-- calls which become exact along the ultrafilter -/
structure BAlong (U : Ultrafilter ι) (bl : ι → BlockArith) (S k : ℕ) (u : ι → ℝ) : Prop where
  null : Tendsto u U (𝓝 0)
  within : ∀ᶠ t in (U : Filter ι), (bl t).Within S k (u t)

theorem MLim.upper {m c : ℕ} {A : ι → Matrix (Fin m) (Fin c) ℝ} {A₀ : Matrix (Fin m) (Fin c) ℝ} (h : MLim U A A₀) :
    MLim U (fun t => upper (A t)) (Lapack.upper A₀) := by
  intro i j
  simp only [Lapack.upper, of_apply]
  split
  · exact h i j
  · exact tendsto_const_nhds

theorem houseVec_ge_one {m c : ℕ} (F : Matrix (Fin m) (Fin c) ℝ) (i : Fin c) (hi : i.val < m) :
    1 ≤ houseVec F i ⬝ᵥ houseVec F i := by
  unfold dotProduct
  have h := Finset.single_le_sum (f := fun r => houseVec F i r * houseVec F i r) (fun r _ => mul_self_nonneg _)
    (Finset.mem_univ (⟨i, hi⟩ : Fin m))
  have e : houseVec F i ⟨i, hi⟩ = 1 := by simp [houseVec]
  simp only [e] at h
  linarith

theorem houseVec_lim {m c : ℕ} {F : ι → Matrix (Fin m) (Fin c) ℝ} {F₀ : Matrix (Fin m) (Fin c) ℝ}
    (h : ∀ r i, i.val < r.val → Tendsto (fun t => F t r i) U (𝓝 (F₀ r i))) (i : Fin c) (r : Fin m) :
    Tendsto (fun t => houseVec (F t) i r) U (𝓝 (houseVec F₀ i r)) := by
  unfold houseVec
  split
  · exact tendsto_const_nhds
  · split
    · exact tendsto_const_nhds
    · exact h r i (by omega)

theorem qMat_mlim {m c : ℕ} {F : ι → Matrix (Fin m) (Fin c) ℝ} {F₀ : Matrix (Fin m) (Fin c) ℝ} {tau : ι → Fin c → ℝ}
    {tau₀ : Fin c → ℝ} (h : ∀ r i, i.val < r.val → Tendsto (fun t => F t r i) U (𝓝 (F₀ r i)))
    (ht : ∀ i, Tendsto (fun t => tau t i) U (𝓝 (tau₀ i))) : MLim U (fun t => qMat (F t) (tau t)) (qMat F₀ tau₀) := by
  unfold qMat
  refine mlim_list _ _ (fun i => ?_) _
  unfold reflector
  refine (MLim.const 1).sub fun a b => ?_
  simp only [Matrix.smul_apply, vecMulVec_apply, smul_eq_mul]
  exact (ht i).mul ((houseVec_lim h i a).mul (houseVec_lim h i b))

/-- limits of QR decompositions are QR decompositions, in packed format -/
theorem packed_lim {m c : ℕ} (hmc : c ≤ m) {u : ι → ℝ} {A F : ι → Matrix (Fin m) (Fin c) ℝ} {tau : ι → Fin c → ℝ}
    {A₀ : Matrix (Fin m) (Fin c) ℝ} {e : ℝ} (hu : Tendsto u U (𝓝 0)) (hA : MLim U A A₀)
    (h : ∀ᶠ t in (U : Filter ι), NearQR (u t) (u t * e) (A t) (F t) (tau t)) :
    ∃ F₀ tau₀, IsQR A₀ F₀ tau₀ ∧ MLim U F F₀ ∧ ∀ i, Tendsto (fun t => tau t i) U (𝓝 (tau₀ i)) := by
  have hlow : ∀ (r : Fin m) (i : Fin c), ∃ x, i.val < r.val → Tendsto (fun t => F t r i) U (𝓝 x) := by
    intro r i
    by_cases hi : i.val < r.val
    · obtain ⟨x, hx⟩ := exists_lim (U := U) (f := fun t => F t r i) (b := 2) (h.mono fun t ht => (ht.refl i).2 r hi)
      exact ⟨x, fun _ => hx⟩
    · exact ⟨0, fun h' => absurd h' hi⟩
  choose low hlow using hlow
  have hv : ∀ i, Tendsto (fun t => houseVec (F t) i ⬝ᵥ houseVec (F t) i) U
      (𝓝 (houseVec (Matrix.of low) i ⬝ᵥ houseVec (Matrix.of low) i)) := by
    intro i
    unfold dotProduct
    have hh := houseVec_lim (F₀ := Matrix.of low) hlow i
    exact tendsto_finsetSum _ fun r _ => (hh r).mul (hh r)
  have htau : ∀ i, ∃ x, Tendsto (fun t => tau t i) U (𝓝 x) ∧
      (x = 0 ∨ x * (houseVec (Matrix.of low) i ⬝ᵥ houseVec (Matrix.of low) i) = 2) := by
    intro i
    have hor : ∀ᶠ t in (U : Filter ι), tau t i = 0 ∨ |tau t i * (houseVec (F t) i ⬝ᵥ houseVec (F t) i) - 2| ≤ u t :=
      h.mono fun t ht => (ht.refl i).1
    rcases Ultrafilter.eventually_or.1 hor with h0 | h2
    · refine ⟨0, ?_, Or.inl rfl⟩
      refine tendsto_const_nhds.congr' ?_
      filter_upwards [h0] with t ht
      exact ht.symm
    · have hlim : Tendsto (fun t => tau t i * (houseVec (F t) i ⬝ᵥ houseVec (F t) i)) U (𝓝 2) :=
        lim_of_near (c := 1) hu tendsto_const_nhds (by simpa using h2)
      have h1 : 1 ≤ houseVec (Matrix.of low) i ⬝ᵥ houseVec (Matrix.of low) i :=
        houseVec_ge_one _ i (lt_of_lt_of_le i.2 hmc)
      have hdiv := hlim.div (hv i) (by linarith)
      refine ⟨_, hdiv.congr' (Eventually.of_forall fun t => ?_), Or.inr ?_⟩
      · have := houseVec_ge_one (F t) i (lt_of_lt_of_le i.2 hmc)
        simp only [Pi.div_apply]
        rw [mul_div_assoc, div_self (by linarith), mul_one]
      · rw [div_mul_cancel₀]
        linarith
  choose tau₀ ht1 ht2 using htau
  have hQ : MLim U (fun t => qMat (F t) (tau t)) (qMat (Matrix.of low) tau₀) := qMat_mlim hlow ht1
  have hgood : GoodTau (Matrix.of low) tau₀ := ht2
  have hdet : (qMat (Matrix.of low) tau₀).det ≠ 0 := by
    intro h0
    have := congrArg det (qMat_orthogonal hgood)
    rw [det_mul, det_transpose, h0, det_one] at this
    norm_num at this
  have hQR : MLim U (fun t => qMat (F t) (tau t) * upper (F t)) A₀ := by
    refine mlim_of_near (c := e) hu hA ?_
    filter_upwards [h] with t ht
    exact ht.eq
  have hR : MLim U (fun t => upper (F t)) ((qMat (Matrix.of low) tau₀)⁻¹ * A₀) := by
    refine ((hQ.inv hdet).mul hQR).congr' ?_
    filter_upwards [hQ.det.eventually_ne hdet] with t ht
    rw [← Matrix.mul_assoc, Matrix.nonsing_inv_mul _ (IsUnit.mk0 _ ht), Matrix.one_mul]
  set R := (qMat (Matrix.of low) tau₀)⁻¹ * A₀ with hRdef
  set F₀ : Matrix (Fin m) (Fin c) ℝ := Matrix.of fun r i => if r.val ≤ i.val then R r i else low r i with hF₀
  have hlow' : ∀ (r : Fin m) (i : Fin c), i.val < r.val → Matrix.of low r i = F₀ r i := by
    intro r i hi
    rw [hF₀, of_apply, of_apply, if_neg (by omega)]
  have hup : upper F₀ = R := by
    ext r i
    by_cases hri : r.val ≤ i.val
    · rw [upper, of_apply, if_pos hri, hF₀, of_apply, if_pos hri]
    · have h0 := hR r i
      simp only [upper, of_apply, if_neg hri] at h0 ⊢
      exact tendsto_nhds_unique tendsto_const_nhds h0
  refine ⟨F₀, tau₀, ⟨?_, ?_⟩, ?_, ht1⟩
  · exact goodTau_congr hlow' hgood
  · rw [← qMat_congr tau₀ hlow', hup, hRdef, ← Matrix.mul_assoc, Matrix.mul_nonsing_inv _ (IsUnit.mk0 _ hdet), Matrix.one_mul]
  · intro r i
    by_cases hri : r.val ≤ i.val
    · have := hR r i
      simp only [upper, of_apply, if_pos hri] at this
      rw [hF₀, of_apply, if_pos hri]
      exact this
    · rw [hF₀, of_apply, if_neg hri]
      exact hlow r i (by omega)

variable {bl : ι → BlockArith} {S k : ℕ} {u : ι → ℝ} (h : BAlong U bl S k u)
include h

/-- pairs of buffers -/
def PLim (U : Ultrafilter ι) (x : ι → Buf × Buf) (x₀ : Buf × Buf) : Prop :=
  BLim U (fun t => (x t).1) x₀.1 ∧ BLim U (fun t => (x t).2) x₀.2

theorem dgeqrf_lim {m c : ℕ} (hm : m ≤ S) (hc : c ≤ m) {A tau : ι → Buf} {A₀ tau₀ : Buf} (hA : BLim U A A₀) (ht : BLim U tau tau₀)
    (size tsize : ℕ) (a s : ℤ) (ld : ℕ) :
    ∃ alg : QRAlg m c, SLim U (PLim U) (fun t => dgeqrf (bl t) m c size tsize (A t) (tau t) a s ld)
      (BlockCyclic.dgeqrf alg size tsize A₀ tau₀ a s ld) := by
  obtain ⟨base⟩ := qrAlg_exists m c
  unfold dgeqrf BlockCyclic.dgeqrf
  simp only [Option.bind_eq_bind]
  by_cases hf : Fits size a ld m c
  · set M : ι → Matrix (Fin m) (Fin c) ℝ := fun t => view (A t) a.toNat ld m c with hMdef
    set M₀ := view A₀ a.toNat ld m c with hM₀
    have hM : MLim U M M₀ := fun i j => hA _
    have hq : ∀ᶠ t in (U : Filter ι), NearQR (u t) (u t * bnd M₀ ^ k) (M t) ((bl t).geqrf (M t)).1 ((bl t).geqrf (M t)).2 := by
      filter_upwards [h.within, hM.below, small h.null (bnd M₀ ^ k)] with t a b d
      exact a.geqrf _ _ hm hc (one_le_bnd _) d b
    obtain ⟨F₀, t₀, q1, q2, q3⟩ := packed_lim hc h.null hM hq
    classical
    refine ⟨⟨fun K => if K = M₀ then (F₀, t₀) else base.run K, fun K => ?_⟩, ?_⟩
    · by_cases hK : K = M₀
      · rw [if_pos hK, hK]
        exact q1
      · rw [if_neg hK]
        exact base.spec K
    · have e : ∀ t, load size (A t) a ld m c = some (M t) := fun t => if_pos hf
      have e₀ : load size A₀ a ld m c = some M₀ := if_pos hf
      simp only [e, e₀, Option.bind_some, if_true]
      refine (save_lim hA q2 _ _ _).bind fun A' A₀' hA' => ?_
      have q4 : MLim U (fun t => Matrix.of fun (j : Fin c) (_ : Fin 1) => ((bl t).geqrf (M t)).2 j)
          (Matrix.of fun (j : Fin c) (_ : Fin 1) => t₀ j) := fun j _ => q3 j
      exact (save_lim ht q4 _ _ _).bind fun T' T₀' hT' => SLim.pure ⟨hA', hT'⟩
  · refine ⟨base, ?_⟩
    have e₀ : load size A₀ a ld m c = none := if_neg hf
    rw [e₀]
    exact SLim.none _

omit h in
/-- bound for the scalar factors -/
theorem tau_below {c : ℕ} {tau : ι → Fin c → ℝ} {tau₀ : Fin c → ℝ} (ht : ∀ i, Tendsto (fun t => tau t i) U (𝓝 (tau₀ i))) :
    ∃ b : ℝ, 0 ≤ b ∧ ∀ᶠ t in (U : Filter ι), ∀ i, |tau t i| ≤ b := by
  refine ⟨∑ i, (|tau₀ i| + 1), Finset.sum_nonneg fun i _ => by positivity, ?_⟩
  rw [eventually_all]
  intro i
  filter_upwards [bounded_of_lim (ht i)] with t a
  exact a.trans (Finset.single_le_sum (f := fun i => |tau₀ i| + 1) (fun i _ => by positivity) (Finset.mem_univ i))

theorem dormqrL_lim {m c r : ℕ} (hm : m ≤ S) (hc : c ≤ S) (hr : r ≤ m) {A tau : ι → Buf} {A₀ tau₀ : Buf} (hA : BLim U A A₀)
    (ht : BLim U tau tau₀) (size tsize : ℕ) (q s a : ℤ) (ld : ℕ) :
    SLim U (BLim U) (fun t => dormqrL (bl t) m c r size tsize (A t) (tau t) q s a ld)
      (BlockCyclic.dormqrL m c r size tsize A₀ tau₀ q s a ld) := by
  unfold dormqrL BlockCyclic.dormqrL
  simp only [Option.bind_eq_bind]
  refine (load_lim hA _ _ _ _ _).bind fun F F₀ hF => ?_
  refine (loadTau_lim ht _ _ _).bind fun tv tv₀ htv => ?_
  refine (load_lim hA _ _ _ _ _).bind fun C C₀ hC => ?_
  refine save_lim hA ?_ _ _ _
  obtain ⟨b, hb, hb'⟩ := tau_below htv
  have f1 := one_le_bnd F₀
  have c1 := one_le_bnd C₀
  refine mlim_of_near (c := (b + bnd F₀ + bnd C₀) ^ k) h.null ((qMat_mlim (fun r i _ => hF r i) htv).transpose.mul hC) ?_
  filter_upwards [h.within, hb', hF.below, hC.below, small h.null ((b + bnd F₀ + bnd C₀) ^ k)] with t a1 a2 a3 a4 a5
  exact a1.ormqrL _ _ _ _ hm hc hr (by linarith) a5 (a3.mono (by linarith)) (fun i => (a2 i).trans (by linarith)) (a4.mono (by linarith))

theorem dormqrR_lim {m c r : ℕ} (hm : m ≤ S) (hc : c ≤ S) (hr : r ≤ c) {A Q tau : ι → Buf} {A₀ Q₀ tau₀ : Buf} (hA : BLim U A A₀)
    (hQ : BLim U Q Q₀) (ht : BLim U tau tau₀) (size qsize tsize : ℕ) (s a : ℤ) (ldq ld : ℕ) :
    SLim U (BLim U) (fun t => dormqrR (bl t) m c r size qsize tsize (A t) (Q t) (tau t) s a ldq ld)
      (BlockCyclic.dormqrR m c r size qsize tsize A₀ Q₀ tau₀ s a ldq ld) := by
  unfold dormqrR BlockCyclic.dormqrR
  simp only [Option.bind_eq_bind]
  refine (load_lim hQ _ _ _ _ _).bind fun F F₀ hF => ?_
  refine (loadTau_lim ht _ _ _).bind fun tv tv₀ htv => ?_
  refine (load_lim hA _ _ _ _ _).bind fun C C₀ hC => ?_
  refine save_lim hA ?_ _ _ _
  obtain ⟨b, hb, hb'⟩ := tau_below htv
  have f1 := one_le_bnd F₀
  have c1 := one_le_bnd C₀
  refine mlim_of_near (c := (b + bnd F₀ + bnd C₀) ^ k) h.null (hC.mul (qMat_mlim (fun r i _ => hF r i) htv).transpose) ?_
  filter_upwards [h.within, hb', hF.below, hC.below, small h.null ((b + bnd F₀ + bnd C₀) ^ k)] with t a1 a2 a3 a4 a5
  exact a1.ormqrR _ _ _ _ hm hc hr (by linarith) a5 (a3.mono (by linarith)) (fun i => (a2 i).trans (by linarith)) (a4.mono (by linarith))

theorem dtrtri_lim {m : ℕ} (hm : m ≤ S) {A : ι → Buf} {A₀ : Buf} (hA : BLim U A A₀) (size : ℕ) (a : ℤ) (ld : ℕ) :
    SLim U (BLim U) (fun t => dtrtri (bl t) m size (A t) a ld) (BlockCyclic.dtrtri m size A₀ a ld) := by
  unfold dtrtri BlockCyclic.dtrtri
  simp only [Option.bind_eq_bind]
  refine (load_lim hA _ _ _ _ _).bind fun M M₀ hM => ?_
  by_cases hd : (upper M₀).det = 0
  · rw [if_pos hd]
    exact SLim.none _
  rw [if_neg hd]
  have hup := MLim.upper hM
  have hne : ∀ᶠ t in (U : Filter ι), ¬ ∃ i, M t i i = 0 := by
    filter_upwards [hup.det.eventually_ne hd] with t ht
    rintro ⟨i, hi⟩
    apply ht
    rw [det_upper]
    exact Finset.prod_eq_zero (Finset.mem_univ i) hi
  have m1 := one_le_bnd M₀
  have hp : 0 ≤ 2 / |(upper M₀).det| := by positivity
  have hinv : MLim U (fun t => upper ((bl t).trtri (M t))) (upper M₀)⁻¹ := by
    refine mlim_of_near (c := (2 / |(upper M₀).det| + bnd M₀) ^ k) h.null (hup.inv hd) ?_
    filter_upwards [h.within, hM.below, away hup.det hd, small h.null ((2 / |(upper M₀).det| + bnd M₀) ^ k)] with t a1 a2 a3 a4
    exact a1.trtri _ _ hm (by linarith) a4 (a2.mono (by linarith)) (a3.trans (mul_le_mul_of_nonneg_right (by linarith) (abs_nonneg _)))
  have hres : MLim U (fun t => Matrix.of fun i j => if i.val ≤ j.val then (bl t).trtri (M t) i j else M t i j)
      (Matrix.of fun i j => if i.val ≤ j.val then (upper M₀)⁻¹ i j else M₀ i j) := by
    intro i j
    simp only [of_apply]
    by_cases hij : i.val ≤ j.val
    · simp only [if_pos hij]
      have := hinv i j
      simp only [upper, of_apply, if_pos hij] at this
      exact this
    · simp only [if_neg hij]
      exact hM i j
  intro x₀ hx₀
  obtain ⟨x, hx, hx'⟩ := save_lim hA hres size a ld x₀ hx₀
  refine ⟨x, ?_, hx'⟩
  filter_upwards [hx, hne] with t a1 a2
  rw [if_neg a2]
  exact a1

theorem dtrmmL_lim {m c : ℕ} (hm : m ≤ S) (hc : c ≤ S) (α : ℝ) {A : ι → Buf} {A₀ : Buf} (hA : BLim U A A₀) (size : ℕ) (q a : ℤ) (ld : ℕ) :
    SLim U (BLim U) (fun t => dtrmmL (bl t) m c size α (A t) q a ld) (BlockCyclic.dtrmmL m c size α A₀ q a ld) := by
  unfold dtrmmL BlockCyclic.dtrmmL
  simp only [Option.bind_eq_bind]
  refine (load_lim hA _ _ _ _ _).bind fun T T₀ hT => ?_
  refine (load_lim hA _ _ _ _ _).bind fun B B₀ hB => ?_
  refine save_lim hA ?_ _ _ _
  have f1 := one_le_bnd T₀
  have c1 := one_le_bnd B₀
  have p1 := abs_nonneg α
  have hl : MLim U (fun t => α • (upper (T t) * B t)) (α • (upper T₀ * B₀)) := by
    intro i j
    simp only [Matrix.smul_apply, smul_eq_mul]
    exact ((MLim.upper hT).mul hB i j).const_mul α
  refine mlim_of_near (c := (|α| + bnd T₀ + bnd B₀) ^ k) h.null hl ?_
  filter_upwards [h.within, hT.below, hB.below, small h.null ((|α| + bnd T₀ + bnd B₀) ^ k)] with t a1 a3 a4 a5
  exact a1.trmmL _ _ _ _ hm hc (by linarith) a5 (by linarith) (a3.mono (by linarith)) (a4.mono (by linarith))

theorem dtrmmR_lim {m c : ℕ} (hm : m ≤ S) (hc : c ≤ S) {A : ι → Buf} {A₀ : Buf} (hA : BLim U A A₀) (size : ℕ) (q a : ℤ) (ld : ℕ) :
    SLim U (BLim U) (fun t => dtrmmR (bl t) m c size (A t) q a ld) (BlockCyclic.dtrmmR m c size A₀ q a ld) := by
  unfold dtrmmR BlockCyclic.dtrmmR
  simp only [Option.bind_eq_bind]
  refine (load_lim hA _ _ _ _ _).bind fun T T₀ hT => ?_
  refine (load_lim hA _ _ _ _ _).bind fun B B₀ hB => ?_
  refine save_lim hA ?_ _ _ _
  have f1 := one_le_bnd T₀
  have c1 := one_le_bnd B₀
  refine mlim_of_near (c := (bnd T₀ + bnd B₀) ^ k) h.null (hB.mul (MLim.upper hT)) ?_
  filter_upwards [h.within, hT.below, hB.below, small h.null ((bnd T₀ + bnd B₀) ^ k)] with t a1 a3 a4 a5
  exact a1.trmmR _ _ _ hm hc (by linarith) a5 (a4.mono (by linarith)) (a3.mono (by linarith))

theorem dgemmAcc_lim {m l c : ℕ} (hm : m ≤ S) (hl : l ≤ S) (hc : c ≤ S) {A : ι → Buf} {A₀ : Buf} (hA : BLim U A A₀) (size : ℕ)
    (x y z : ℤ) (ld : ℕ) :
    SLim U (BLim U) (fun t => dgemmAcc (bl t) m l c size (A t) x y z ld) (BlockCyclic.dgemmAcc m l c size A₀ x y z ld) := by
  unfold dgemmAcc BlockCyclic.dgemmAcc
  simp only [Option.bind_eq_bind]
  refine (load_lim hA _ _ _ _ _).bind fun X X₀ hX => ?_
  refine (load_lim hA _ _ _ _ _).bind fun Y Y₀ hY => ?_
  refine (load_lim hA _ _ _ _ _).bind fun Z Z₀ hZ => ?_
  refine save_lim hA ?_ _ _ _
  have f1 := one_le_bnd X₀
  have c1 := one_le_bnd Y₀
  have z1 := one_le_bnd Z₀
  refine mlim_of_near (c := (bnd X₀ + bnd Y₀ + bnd Z₀) ^ k) h.null ((hX.mul hY).add hZ) ?_
  filter_upwards [h.within, hX.below, hY.below, hZ.below, small h.null ((bnd X₀ + bnd Y₀ + bnd Z₀) ^ k)] with t a1 a2 a3 a4 a5
  exact a1.gemmAcc _ _ _ _ hm hl hc (by linarith) a5 (a2.mono (by linarith)) (a3.mono (by linarith)) (a4.mono (by linarith))

omit h in
theorem moveLower_lim {A Q : ι → Buf} {A₀ Q₀ : Buf} (hA : BLim U A A₀) (hQ : BLim U Q Q₀) (m c size qsize : ℕ) (a : ℤ) (lda ldq : ℕ) :
    SLim U (PLim U) (fun t => moveLower m c size qsize (A t) (Q t) a lda ldq) (moveLower m c size qsize A₀ Q₀ a lda ldq) := by
  unfold moveLower
  simp only [Option.bind_eq_bind]
  refine (load_lim hA _ _ _ _ _).bind fun F F₀ hF => ?_
  refine (load_lim hQ _ _ _ _ _).bind fun G G₀ hG => ?_
  have h1 : MLim U (fun t => Matrix.of fun (i : Fin m) (j : Fin c) => if j.val < i.val then F t i j else G t i j)
      (Matrix.of fun (i : Fin m) (j : Fin c) => if j.val < i.val then F₀ i j else G₀ i j) := by
    intro i j
    simp only [of_apply]
    split
    · exact hF i j
    · exact hG i j
  have h2 : MLim U (fun t => Matrix.of fun (i : Fin m) (j : Fin c) => if j.val < i.val then 0 else F t i j)
      (Matrix.of fun (i : Fin m) (j : Fin c) => if j.val < i.val then 0 else F₀ i j) := by
    intro i j
    simp only [of_apply]
    split
    · exact tendsto_const_nhds
    · exact hF i j
  refine (save_lim hQ h1 _ _ _).bind fun Q' Q₀' hQ' => ?_
  exact (save_lim hA h2 _ _ _).bind fun A' A₀' hA' => SLim.pure ⟨hA', hQ'⟩

/-! ## `BlockCyclicInverse` -/

variable {n p : ℕ}

theorem qrStep_lim (hp : 2 * n ≤ S) {s : ι → Buf × Buf} {s₀ : Buf × Buf} (hs : PLim U s s₀) (i : ℕ) :
    ∃ alg : QRs n, SLim U (PLim U) (fun t => qrStep (bl t) n p (s t) i) (BlockCyclic.qrStep alg p s₀ i) := by
  obtain ⟨alg, ha⟩ := dgeqrf_lim h (m := 2 * n) (c := 1 * n) hp (by omega) hs.1 hs.2 (n * p * (n * p)) (n * p)
    ((1 + (n * p : ℕ)) * i * n) (i * n) (n * p)
  refine ⟨⟨alg, (qrAlg_exists _ _).some⟩, ?_⟩
  unfold qrStep BlockCyclic.qrStep
  simp only [Option.bind_eq_bind]
  refine ha.bind fun x x₀ hx => ?_
  refine (dormqrL_lim h hp (by omega) (by omega) hx.1 hx.2 _ _ _ _ _ _).bind fun A A₀ hA => ?_
  refine (dormqrL_lim h hp (by omega) (by omega) hA hx.2 _ _ _ _ _ _).bind fun B B₀ hB => ?_
  exact SLim.pure ⟨hB, hx.2⟩

theorem triStep_lim (hp : 2 ≤ p) (hS : n * p ≤ S) {A : ι → Buf} {A₀ : Buf} (hA : BLim U A A₀) (i : ℕ) :
    SLim U (BLim U) (fun t => triStep (bl t) n p (A t) i) (BlockCyclic.triStep n p A₀ i) := by
  have h1 : 1 * n ≤ S := by nlinarith
  have h2 : (p - i - 2) * n ≤ S := by
    refine le_trans ?_ hS
    rw [mul_comm]
    exact Nat.mul_le_mul_left _ (by omega)
  unfold triStep BlockCyclic.triStep
  simp only [Option.bind_eq_bind]
  refine (dtrtri_lim h h1 hA _ _ _).bind fun A A₀ hA => ?_
  refine (dtrmmL_lim h h1 h1 _ hA _ _ _ _).bind fun A A₀ hA => ?_
  refine (dtrmmL_lim h h1 h1 _ hA _ _ _ _).bind fun A A₀ hA => ?_
  refine (dgemmAcc_lim h h1 h1 h2 hA _ _ _ _ _).bind fun A A₀ hA => ?_
  exact dtrmmR_lim h h1 h1 hA _ _ _ _

theorem blockCyclicTri_lim (hp : 2 ≤ p) (hS : n * p ≤ S) {A : ι → Buf} {A₀ : Buf} (hA : BLim U A A₀) :
    SLim U (BLim U) (fun t => blockCyclicTri (bl t) n p (A t)) (BlockCyclic.blockCyclicTri n p A₀) := by
  have h1 : 1 * n ≤ S := by nlinarith
  have h3 : (p - 3) * n ≤ S := by
    refine le_trans ?_ hS
    rw [mul_comm]
    exact Nat.mul_le_mul_left _ (by omega)
  unfold blockCyclicTri BlockCyclic.blockCyclicTri
  by_cases h2 : p ≤ 2
  · simp only [if_pos h2]
    exact dtrtri_lim h (by rw [mul_comm]; exact hS) hA _ _ _
  · simp only [if_neg h2, Option.bind_eq_bind]
    refine (dtrtri_lim h (by nlinarith) hA _ _ _).bind fun A A₀ hA => ?_
    by_cases h4 : p > 3
    · simp only [if_pos h4]
      refine (dtrmmR_lim h h3 h1 hA _ _ _ _).bind fun A A₀ hA => ?_
      exact SLim.foldlM _ (fun i _ A A₀ hA => triStep_lim h hp hS hA i) hA
    · simp only [if_neg h4]
      exact SLim.pure hA

theorem rotStep_lim (hp : 2 ≤ p) (hS : n * p ≤ S) {tau : ι → Buf} {tau₀ : Buf} (ht : BLim U tau tau₀) {s : ι → Buf × Buf}
    {s₀ : Buf × Buf} (hs : PLim U s s₀) (i : ℕ) :
    SLim U (PLim U) (fun t => rotStep (bl t) n p (tau t) (s t) i) (BlockCyclic.rotStep n p tau₀ s₀ i) := by
  unfold rotStep BlockCyclic.rotStep
  simp only [Option.bind_eq_bind]
  refine (moveLower_lim hs.1 hs.2 _ _ _ _ _ _ _).bind fun x x₀ hx => ?_
  refine (dormqrR_lim h (by rw [mul_comm]; exact hS) (by nlinarith) (by omega) hx.1 hx.2 ht _ _ _ _ _ _ _).bind fun A A₀ hA => ?_
  exact SLim.pure ⟨hA, hx.2⟩

theorem blockCyclicRot_lim (hp : 2 ≤ p) (hS : n * p ≤ S) {A tau : ι → Buf} {A₀ tau₀ : Buf} (hA : BLim U A A₀) (ht : BLim U tau tau₀) :
    SLim U (BLim U) (fun t => blockCyclicRot (bl t) n p (A t) (tau t)) (BlockCyclic.blockCyclicRot n p A₀ tau₀) := by
  unfold blockCyclicRot BlockCyclic.blockCyclicRot
  simp only [Option.bind_eq_bind]
  refine (moveLower_lim hA (BLim.const _) _ _ _ _ _ _ _).bind fun x x₀ hx => ?_
  refine (dormqrR_lim h (by rw [mul_comm]; exact hS) (by nlinarith) (by omega) hx.1 hx.2 ht _ _ _ _ _ _ _).bind fun A A₀ hA => ?_
  refine (SLim.foldlM (R := PLim U) (a := fun t => (A t, (x t).2)) (a₀ := (A₀, x₀.2)) _
    (fun i _ s s₀ hs => rotStep_lim h hp hS ht hs i) ⟨hA, hx.2⟩).bind fun s s₀ hs => ?_
  exact SLim.pure hs.1

theorem qrLoop_lim (hS : 2 * n ≤ S) {f₀ : ℕ → ℕ → Mat n} (hf : Cyclic p f₀) {A tau : ι → Buf} {A₀ tau₀ : Buf} (hA : BLim U A A₀)
    (ht : BLim U tau tau₀) (hr : Rep p A₀ f₀) (m : ℕ) (hm : m ≤ p - 2) :
    ∃ s s₀ f, (∀ᶠ t in (U : Filter ι), (List.range m).foldlM (qrStep (bl t) n p) (A t, tau t) = some (s t)) ∧ PLim U s s₀ ∧
      Rep p s₀.1 f ∧ QRInv p f₀ m f s₀.2 := by
  induction m with
  | zero => exact ⟨fun t => (A t, tau t), (A₀, tau₀), f₀, Eventually.of_forall fun t => rfl, ⟨hA, ht⟩, hr, qrInv_start hf tau₀⟩
  | succ m ih =>
    obtain ⟨s, s₀, f, e1, l1, r1, i1⟩ := ih (by omega)
    obtain ⟨alg, ha⟩ := qrStep_lim h (p := p) hS l1 m
    obtain ⟨A2, tau2, f2, e2, r2, i2⟩ := qrStep_inv alg f₀ (by omega) r1 i1
    obtain ⟨x, hx, lx⟩ := ha _ e2
    refine ⟨x, (A2, tau2), f2, ?_, lx, r2, i2⟩
    filter_upwards [e1, hx] with t a b
    rw [List.range_succ, List.foldlM_append, a]
    simp only [Option.bind_eq_bind, Option.bind_some, List.foldlM_cons, List.foldlM_nil, b, Option.pure_def]

/-- C117: the inverse of a block cyclic matrix in rounded arithmetic converges to the inverse -/
theorem inverse_lim (hp : 2 ≤ p) (hS : n * p ≤ S) {f₀ : ℕ → ℕ → Mat n} (hf : Cyclic p f₀) (hdet : (mk p p f₀).det ≠ 0)
    {H tau : ι → Buf} {H₀ tau₀ : Buf} (hH : BLim U H H₀) (ht : BLim U tau tau₀) (hr : Rep p H₀ f₀) :
    ∃ X X₀ g, (∀ᶠ t in (U : Filter ι), blockCyclicInverse (bl t) n p (H t) (tau t) = some (X t)) ∧ BLim U X X₀ ∧
      Rep p X₀ g ∧ mk p p g = (mk p p f₀)⁻¹ := by
  have h2 : 2 * n ≤ S := by nlinarith
  obtain ⟨s, s₀, f, e1, l1, r1, i1⟩ := qrLoop_lim h h2 hf hH ht hr (p - 2) le_rfl
  obtain ⟨alg, ha⟩ := dgeqrf_lim h (m := 2 * n) (c := 2 * n) h2 le_rfl l1.1 l1.2 (n * p * (n * p)) (n * p)
    ((1 + (n * p : ℕ)) * (p - 2) * n) ((p - 2 : ℕ) * n) (n * p)
  obtain ⟨A2, tau2, f2, e2, r2, d2⟩ := qrLast_done alg hp r1 i1
  obtain ⟨x, hx, lx⟩ := ha _ e2
  obtain ⟨A3, A4, g, e3, e4, r4, v4⟩ := inverse_of_qr hp hdet r2 d2
  obtain ⟨y, hy, ly⟩ := blockCyclicTri_lim h hp hS lx.1 _ e3
  obtain ⟨z, hz, lz⟩ := blockCyclicRot_lim h hp hS ly lx.2 _ e4
  refine ⟨z, A4, g, ?_, lz, r4, v4⟩
  filter_upwards [e1, hx, hy, hz] with t a b c d
  unfold blockCyclicInverse blockCyclicQR
  simp only [Option.bind_eq_bind, a, Option.bind_some, b, c, d]

end calls

end Verif.Rounded
