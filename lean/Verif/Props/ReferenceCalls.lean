import Verif.Props.ReferenceQR
import Verif.Props.ReferenceLU
import Verif.Props.RoundedAllExists

/-!
# Property C120: the textbook algorithms of BLAS and LAPACK are accurate enough

`refArith_within` and `refBlocks_within`: in an arithmetic with relative errors of at most `u`, the algorithms of
`Verif/Model/Reference.lean` meet the requirements of properties C114 and C117, with an accuracy `e` which tends to zero with `u`.
`program_reference`: the runs of the program with these algorithms come close to the expectation values in the Hubbard model.
-/

set_option autoImplicit false

namespace Verif.Reference

open Filter Matrix Verif.Lapack Verif.Rounded Verif.Scale Verif.Ultra

/-! ## Uniform bounds -/

theorem FlOps.Relative.nonneg {op : FlOps} {u : ℝ} (h : op.Relative u) : 0 ≤ u := by
  have := (abs_nonneg _).trans (h.add 1 0)
  simpa using this

theorem itemP {X : Type} (P : ℝ → X → Prop) (Q : ℕ → FlOps → ℝ → ℝ → X → Prop)
    (mono : ∀ k l op u b x, 0 ≤ u → 1 ≤ b → k ≤ l → Q k op u b x → Q l op u b x)
    (h : ∀ (S : Scale ℕ) (op : ℕ → FlOps) (x : ℕ → X), Ops S op → (∀ n, P (S.b n) (x n)) →
      ∃ k, ∀ᶠ n in (S.U : Filter ℕ), Q k (op n) (S.u n) (S.b n) (x n)) :
    ∃ K₀ : ℕ, ∀ K ≥ K₀, ∀ (op : FlOps) (u b : ℝ) (x : X), op.Relative u → 1 ≤ b → P b x → u * w K b ≤ 1 → Q K op u b x := by
  obtain ⟨k, hk⟩ := Scale.uniform (T := FlOps × ℝ × ℝ × X) (fun t => t.2.1) (fun t => t.2.2.1)
    (fun t => t.1.Relative t.2.1 ∧ 1 ≤ t.2.2.1 ∧ P t.2.2.1 t.2.2.2) (fun k t => Q k t.1 t.2.1 t.2.2.1 t.2.2.2)
    (fun t ht => ht.1.nonneg) (fun t ht => ht.2.1) (fun k l t ht hkl hq => mono k l _ _ _ _ ht.1.nonneg ht.2.1 hkl hq)
    (fun f S hu hb hf => by
      obtain ⟨k, hk⟩ := h S (fun n => (f n).1) (fun n => (f n).2.2.2) (fun n => by
        rw [hu]
        exact (hf n).1) (fun n => by
        rw [hb]
        exact (hf n).2.2)
      refine ⟨k, hk.mono fun n hn => ?_⟩
      rw [hu, hb] at hn
      exact hn)
  refine ⟨k, fun K hK op u b x ho hb hP hs => mono k K _ _ _ _ ho.nonneg hb hK (hk (op, u, b, x) ⟨ho, hb, hP⟩ ?_)⟩
  exact (mul_le_mul_of_nonneg_left (w_mono hK hb) ho.nonneg).trans hs

theorem near_of_sim {S : Scale ℕ} {m c : ℕ} {A B : ℕ → Matrix (Fin m) (Fin c) ℝ} (h : S.MSim A B) :
    ∃ k, ∀ᶠ n in (S.U : Filter ℕ), Near (S.u n * w k (S.b n)) (A n) (B n) := by
  choose k hk using fun i j => (h i j).2
  refine ⟨∑ i, ∑ j, k i j, ?_⟩
  have := eventually_all.2 fun i => eventually_all.2 fun j => hk i j
  refine this.mono fun n hn i j => (hn i j).trans (mul_le_mul_of_nonneg_left (w_mono ?_ (S.b1 n)) (S.u0 n))
  exact (Finset.single_le_sum (f := fun j => k i j) (fun _ _ => Nat.zero_le _) (Finset.mem_univ j)).trans
    (Finset.single_le_sum (f := fun i => ∑ j, k i j) (fun _ _ => Nat.zero_le _) (Finset.mem_univ i))

/-- the accuracy `e` of the calls -/
structure Accuracy (K : ℕ) (u e : ℝ) : Prop where
  nonneg : 0 ≤ e
  le : K * u ≤ e ^ K

section accuracy

variable {K : ℕ} {u e b : ℝ} (h : Accuracy K u e) (hb : 1 ≤ b) (hbe : b * e ≤ 1)
include h hb hbe

theorem Accuracy.small : u * w K b ≤ 1 := by
  have h1 : (b * e) ^ K ≤ 1 := pow_le_one₀ (mul_nonneg (by linarith) h.nonneg) hbe
  rw [mul_pow] at h1
  have h2 := mul_le_mul_of_nonneg_left h.le (show 0 ≤ b ^ K by positivity)
  unfold w
  linarith [mul_comm (b ^ K) (K * u), mul_assoc (K : ℝ) u (b ^ K), mul_left_comm u (K : ℝ) (b ^ K)]

theorem Accuracy.le_self (hK : K ≠ 0) : K * u ≤ e := by
  have h1 : e ≤ 1 := by nlinarith [h.nonneg]
  exact h.le.trans (pow_le_of_le_one h.nonneg h1 hK)

theorem Accuracy.error (hK : K ≠ 0) : u * w K b ≤ e * b ^ K := by
  have := mul_le_mul_of_nonneg_right (h.le_self hb hbe hK) (show 0 ≤ b ^ K by positivity)
  unfold w
  linarith [mul_assoc (K : ℝ) u (b ^ K), mul_left_comm u (K : ℝ) (b ^ K)]

end accuracy

theorem item {X : Type} {m c : ℕ} (P : ℝ → X → Prop) (lhs : FlOps → X → Matrix (Fin m) (Fin c) ℝ) (rhs : X → Matrix (Fin m) (Fin c) ℝ)
    (h : ∀ (S : Scale ℕ) (op : ℕ → FlOps) (x : ℕ → X), Ops S op → (∀ n, P (S.b n) (x n)) →
      S.MSim (fun n => lhs (op n) (x n)) fun n => rhs (x n)) :
    ∃ K₀ : ℕ, ∀ K ≥ K₀, ∀ (op : FlOps) (u e b : ℝ) (x : X), op.Relative u → Accuracy K u e → 1 ≤ b → b * e ≤ 1 → P b x →
      Near (e * b ^ K) (lhs op x) (rhs x) := by
  obtain ⟨k, hk⟩ := itemP P (fun k op u b x => Near (u * w k b) (lhs op x) (rhs x))
    (fun k l op u b x hu hb hkl hq => Near.mono hq (mul_le_mul_of_nonneg_left (w_mono hkl hb) hu))
    fun S op x ho hP => near_of_sim (h S op x ho hP)
  refine ⟨k + 1, fun K hK op u e b x ho ha hb hbe hP => ?_⟩
  exact Near.mono (hk K (by omega) op u b x ho hb hP (ha.small hb hbe)) (ha.error hb hbe (by omega))

theorem sizes (S : ℕ) (Q : ℕ → ℕ → ℕ → ℕ → Prop) (h : ∀ m l c, ∃ K₀, ∀ K ≥ K₀, Q m l c K) :
    ∃ K₀, ∀ K ≥ K₀, ∀ m ≤ S, ∀ l ≤ S, ∀ c ≤ S, Q m l c K := by
  choose f hf using h
  refine ⟨(Finset.range (S + 1) ×ˢ Finset.range (S + 1) ×ˢ Finset.range (S + 1)).sup fun p => f p.1 p.2.1 p.2.2,
    fun K hK m hm l hl c hc => hf m l c K ?_⟩
  refine le_trans (Finset.le_sup (f := fun p : ℕ × ℕ × ℕ => f p.1 p.2.1 p.2.2) (b := (m, l, c)) ?_) hK
  simp only [Finset.mem_product, Finset.mem_range]
  omega

/-! ## Moderate data -/

section data

variable {S : Scale ℕ} {m c : ℕ}

theorem mod_of_le {x : ℕ → ℝ} (h : ∀ n, |x n| ≤ S.b n) : S.Mod x :=
  Mod.b.mono (Eventually.of_forall fun n => (h n).trans (le_abs_self _))

theorem mmod_of_below {A : ℕ → Matrix (Fin m) (Fin c) ℝ} (h : ∀ n, Below (S.b n) (A n)) : S.MMod A :=
  fun i j => mod_of_le fun n => h n i j

theorem inv_of_le {x : ℕ → ℝ} (h : ∀ n, 1 ≤ S.b n * |x n|) : (∀ᶠ n in (S.U : Filter ℕ), x n ≠ 0) ∧ S.Mod fun n => (x n)⁻¹ := by
  have h0 : ∀ n, x n ≠ 0 := fun n e => by
    have := h n
    rw [e, abs_zero, mul_zero] at this
    linarith
  refine ⟨Eventually.of_forall h0, mod_of_le fun n => ?_⟩
  rw [abs_inv, inv_le_iff_one_le_mul₀ (abs_pos.2 (h0 n))]
  exact h n

theorem reflMod_of_reflects {k : ℕ} {F : ℕ → Matrix (Fin m) (Fin k) ℝ} {tau : ℕ → Fin k → ℝ} (hk : k ≤ m)
    (h : ∀ n, Reflects 1 (F n) (tau n)) : ReflMod S F tau := fun i => by
  refine ⟨Mod.of_le 3 (Eventually.of_forall fun n => ?_), fun r hr => Mod.of_le 2 (Eventually.of_forall fun n => ?_)⟩
  · rcases (h n i).1 with e | e
    · rw [e]
      norm_num
    · have h1 := houseVec_ge_one (F n) i (by omega)
      set q := houseVec (F n) i ⬝ᵥ houseVec (F n) i
      have h2 := abs_le.1 e
      have h3 : 0 < tau n i := by
        by_contra hn
        nlinarith
      rw [abs_of_pos h3]
      push_cast
      nlinarith
  · exact_mod_cast (h n i).2 r hr

end data

/-! ## QR decompositions -/

theorem geqrf_item (m c : ℕ) : ∃ K₀ : ℕ, ∀ K ≥ K₀, ∀ (op : FlOps) (u e b : ℝ) (A : Matrix (Fin m) (Fin c) ℝ), op.Relative u →
    Accuracy K u e → 1 ≤ b → b * e ≤ 1 → Below b A → NearQR e (e * b ^ K) A (geqrf op c m A).1 (geqrf op c m A).2 := by
  obtain ⟨k, hk⟩ := itemP (X := Matrix (Fin m) (Fin c) ℝ) (fun b A => Below b A)
    (fun k op u b A => Reflects (k * u) (geqrf op c m A).1 (geqrf op c m A).2 ∧
      Near (u * w k b) (qMat (geqrf op c m A).1 (geqrf op c m A).2 * upper (geqrf op c m A).1) A)
    (fun k l op u b x hu hb hkl hq => ⟨hq.1.mono (mul_le_mul_of_nonneg_right (by exact_mod_cast hkl) hu),
      Near.mono hq.2 (mul_le_mul_of_nonneg_left (w_mono hkl hb) hu)⟩)
    fun S op A ho hP => by
      obtain ⟨⟨k, hk⟩, hQ⟩ := geqrf_spec ho c m A (mmod_of_below hP)
      obtain ⟨l, hl⟩ := near_of_sim hQ
      refine ⟨k + l, ?_⟩
      filter_upwards [hk, hl] with n h1 h2
      exact ⟨h1.mono (mul_le_mul_of_nonneg_right (by push_cast; linarith [(Nat.cast_nonneg l : (0 : ℝ) ≤ l)]) (S.u0 n)),
        Near.mono h2 (mul_le_mul_of_nonneg_left (w_mono (by omega) (S.b1 n)) (S.u0 n))⟩
  refine ⟨k + 1, fun K hK op u e b A ho ha hb hbe hP => ?_⟩
  obtain ⟨h1, h2⟩ := hk K (by omega) op u b A ho hb hP (ha.small hb hbe)
  exact ⟨h1.mono (ha.le_self hb hbe (by omega)), Near.mono h2 (ha.error hb hbe (by omega))⟩

/-! ## The requirements of property C114 -/

theorem ops_within {op : FlOps} {K : ℕ} {u e : ℝ} (ho : op.Relative u) (ha : Accuracy K u e) (hK : 2 ≤ K) : op.toOps.Within e := by
  have key : ∀ b : ℝ, 1 ≤ b → b * e ≤ 1 → 2 * u ≤ e := fun b hb hbe =>
    (mul_le_mul_of_nonneg_right (by exact_mod_cast hK) ho.nonneg).trans (ha.le_self hb hbe (by omega))
  have hu := ho.nonneg
  constructor
  · intro b x y hb hbe hx hy
    have h1 := mul_le_mul_of_nonneg_left ((abs_add_le x y).trans (add_le_add hx hy)) hu
    have h2 := mul_le_mul_of_nonneg_right (key b hb hbe) (show 0 ≤ b by linarith)
    linarith [ho.add x y]
  · intro b x y hb hbe hx hy
    have h1 := mul_le_mul_of_nonneg_left ((abs_sub x y).trans (add_le_add hx hy)) hu
    have h2 := mul_le_mul_of_nonneg_right (key b hb hbe) (show 0 ≤ b by linarith)
    linarith [ho.sub x y]
  · intro b x y hb hbe hx hy
    have h1 := mul_le_mul_of_nonneg_left (mul_le_mul hx hy (abs_nonneg _) (show 0 ≤ b by linarith)) hu
    have h2 := mul_le_mul_of_nonneg_right (key b hb hbe) (sq_nonneg b)
    have h3 := ho.mul x y
    rw [abs_mul] at h3
    nlinarith [mul_nonneg hu (sq_nonneg b)]
  · intro b x y hb hbe hx hy
    have h0 : 0 < |y| := by
      rcases (abs_nonneg y).eq_or_lt with e | e
      · rw [← e, mul_zero] at hy
        linarith
      · exact e
    have h1 : |x / y| ≤ b * b := by
      rw [abs_div, div_le_iff₀ h0]
      nlinarith
    have h2 := mul_le_mul_of_nonneg_left h1 hu
    have h3 := mul_le_mul_of_nonneg_right (key b hb hbe) (sq_nonneg b)
    nlinarith [ho.div x y, mul_nonneg hu (sq_nonneg b)]

/-- C120: The textbook algorithms for square matrices meet the requirements of property C114. -/
theorem refArith_within (N : ℕ) : ∃ K₀ : ℕ, ∀ K ≥ K₀, ∀ (op : FlOps) (u e : ℝ) (piv : Mat N → Equiv.Perm (Fin N)), op.Relative u →
    Accuracy K u e → (refArith op piv).Within K e := by
  obtain ⟨k1, h1⟩ := item (X := Mat N × Mat N) (fun b x => Below b x.1 ∧ Below b x.2) (fun op x => gemmAcc op.toOps x.1 x.2 0)
    (fun x => x.1 * x.2) fun S op x ho hP => by
      have := sim_gemmAcc ho (mmod_of_below fun n => (hP n).1) (mmod_of_below fun n => (hP n).2) (Z := fun _ => (0 : Mat N))
        fun i j => Mod.const 0
      simpa only [add_zero] using this
  obtain ⟨k2, h2⟩ := item (X := Mat N × Mat N) (fun b x => Below b x.1 ∧ Below b x.2) (fun op x => trmm op.toOps x.1 x.2)
    (fun x => upper x.1 * x.2) fun S op x ho hP => sim_trmm ho (mmod_of_below fun n => (hP n).1) (mmod_of_below fun n => (hP n).2)
  obtain ⟨k3, h3⟩ := item (X := ℝ × (Fin N → ℝ) × (Fin N → ℝ) × Mat N)
    (fun b x => |x.1| ≤ b ∧ (∀ i, |x.2.1 i| ≤ b) ∧ (∀ i, |x.2.2.1 i| ≤ b) ∧ Below b x.2.2.2)
    (fun op x => ger op.toOps x.1 x.2.1 x.2.2.1 x.2.2.2) (fun x => x.2.2.2 + x.1 • vecMulVec x.2.1 x.2.2.1) fun S op x ho hP =>
      sim_ger ho (mod_of_le fun n => (hP n).1) (fun i => mod_of_le fun n => (hP n).2.1 i) (fun i => mod_of_le fun n => (hP n).2.2.1 i)
        (mmod_of_below fun n => (hP n).2.2.2)
  obtain ⟨k4, h4⟩ := geqrf_item N N
  obtain ⟨k5, h5⟩ := item (X := Mat N × (Fin N → ℝ) × Mat N) (fun b x => Reflects 1 x.1 x.2.1 ∧ Below b x.2.2)
    (fun op x => ormqr op.toOps x.1 x.2.1 x.2.2) (fun x => x.2.2 * qMat x.1 x.2.1) fun S op x ho hP =>
      sim_ormqr ho (reflMod_of_reflects le_rfl fun n => (hP n).1) (mmod_of_below fun n => (hP n).2)
  obtain ⟨k6, h6⟩ := item (X := Mat N × (Fin N → ℝ) × Mat N) (fun b x => Reflects 1 x.1 x.2.1 ∧ Below b x.2.2)
    (fun op x => ormqrT op.toOps x.1 x.2.1 x.2.2) (fun x => x.2.2 * (qMat x.1 x.2.1)ᵀ) fun S op x ho hP =>
      sim_ormqrT ho (reflMod_of_reflects le_rfl fun n => (hP n).1) (mmod_of_below fun n => (hP n).2)
  obtain ⟨k7, h7⟩ := item (X := Mat N) (fun b A => Below b A)
    (fun op A => pivMat (getrf op.toOps N A).2 * unitLower (getrf op.toOps N A).1 * upper (getrf op.toOps N A).1) (fun A => A)
    fun S op x ho hP => (getrf_spec ho N x (mmod_of_below hP)).2
  obtain ⟨k8, h8⟩ := item (X := Mat N × Mat N) (fun b x => Below b x.1 ∧ Below b x.2 ∧ 1 ≤ b * |x.1.det|)
    (fun op x => x.1 * getrs op.toOps (getrf op.toOps N x.1).1 (getrf op.toOps N x.1).2 x.2) (fun x => x.2)
    fun S op x ho hP => getrs_spec ho (mmod_of_below fun n => (hP n).1) (mmod_of_below fun n => (hP n).2.1)
      (inv_of_le fun n => (hP n).2.2).1 (inv_of_le fun n => (hP n).2.2).2
  refine ⟨k1 + k2 + k3 + k4 + k5 + k6 + k7 + k8 + 2, fun K hK op u e piv ho ha => ?_⟩
  exact {
    ops := ops_within ho ha (by omega)
    gemm := fun b A B hb hbe hA hB => h1 K (by omega) op u e b (A, B) ho ha hb hbe ⟨hA, hB⟩
    trmm := fun b F T hb hbe hA hB => h2 K (by omega) op u e b (F, T) ho ha hb hbe ⟨hA, hB⟩
    ger := fun b α x y A hb hbe hα hx hy hA => h3 K (by omega) op u e b (α, x, y, A) ho ha hb hbe ⟨hα, hx, hy, hA⟩
    geqp3 := fun b A hb hbe hA => h4 K (by omega) op u e b (A.submatrix id (piv A)) ho ha hb hbe fun i j => hA _ _
    geqrf := fun b A hb hbe hA => h4 K (by omega) op u e b A ho ha hb hbe hA
    ormqr := fun b F tau C hb hbe hF hC => h5 K (by omega) op u e b (F, tau, C) ho ha hb hbe ⟨hF, hC⟩
    ormqrT := fun b F tau C hb hbe hF hC => h6 K (by omega) op u e b (F, tau, C) ho ha hb hbe ⟨hF, hC⟩
    getrf := fun b A hb hbe hA _ => h7 K (by omega) op u e b A ho ha hb hbe hA
    getrs := fun b A G hb hbe hA hG hd => h8 K (by omega) op u e b (A, G) ho ha hb hbe ⟨hA, hG, hd⟩ }

/-! ## The requirements of property C117 -/

/-- C120: The textbook algorithms for rectangular matrices meet the requirements of property C117. -/
theorem refBlocks_within (S : ℕ) : ∃ K₀ : ℕ, ∀ K ≥ K₀, ∀ (op : FlOps) (u e : ℝ), op.Relative u → Accuracy K u e →
    (refBlocks op).Within S K e := by
  obtain ⟨k1, h1⟩ := sizes S _ fun m _ c => geqrf_item m c
  obtain ⟨k2, h2⟩ := sizes S _ fun m c r => item (X := Matrix (Fin m) (Fin r) ℝ × (Fin r → ℝ) × Matrix (Fin m) (Fin c) ℝ)
    (fun b x => Below b x.1 ∧ (∀ i, |x.2.1 i| ≤ b) ∧ Below b x.2.2) (fun op x => ormqrL op.toOps x.1 x.2.1 x.2.2)
    (fun x => (qMat x.1 x.2.1)ᵀ * x.2.2) fun S op x ho hP =>
      sim_ormqrL ho (fun i => ⟨mod_of_le fun n => (hP n).2.1 i, fun r _ => mod_of_le fun n => (hP n).1 r i⟩)
        (mmod_of_below fun n => (hP n).2.2)
  obtain ⟨k3, h3⟩ := sizes S _ fun m c r => item (X := Matrix (Fin c) (Fin r) ℝ × (Fin r → ℝ) × Matrix (Fin m) (Fin c) ℝ)
    (fun b x => Below b x.1 ∧ (∀ i, |x.2.1 i| ≤ b) ∧ Below b x.2.2) (fun op x => ormqrT op.toOps x.1 x.2.1 x.2.2)
    (fun x => x.2.2 * (qMat x.1 x.2.1)ᵀ) fun S op x ho hP =>
      sim_ormqrT ho (fun i => ⟨mod_of_le fun n => (hP n).2.1 i, fun r _ => mod_of_le fun n => (hP n).1 r i⟩)
        (mmod_of_below fun n => (hP n).2.2)
  obtain ⟨k4, h4⟩ := sizes S _ fun m _ _ => item (X := Mat m) (fun b M => Below b M ∧ 1 ≤ b * |(upper M).det|)
    (fun op M => upper (trtri op.toOps m M)) (fun M => (upper M)⁻¹) fun S op x ho hP =>
      trtri_spec ho (mmod_of_below fun n => (hP n).1) (inv_of_le fun n => (hP n).2).1 (inv_of_le fun n => (hP n).2).2
  obtain ⟨k5, h5⟩ := sizes S _ fun m c _ => item (X := ℝ × Mat m × Matrix (Fin m) (Fin c) ℝ)
    (fun b x => |x.1| ≤ b ∧ Below b x.2.1 ∧ Below b x.2.2) (fun op x => trmmL op.toOps x.1 x.2.1 x.2.2)
    (fun x => x.1 • (upper x.2.1 * x.2.2)) fun S op x ho hP =>
      sim_trmmL ho (mod_of_le fun n => (hP n).1) (mmod_of_below fun n => (hP n).2.1) (mmod_of_below fun n => (hP n).2.2)
  obtain ⟨k6, h6⟩ := sizes S _ fun m c _ => item (X := Matrix (Fin m) (Fin c) ℝ × Mat c) (fun b x => Below b x.1 ∧ Below b x.2)
    (fun op x => trmmR op.toOps x.1 x.2) (fun x => x.1 * upper x.2) fun S op x ho hP =>
      sim_trmmR ho (mmod_of_below fun n => (hP n).2) (mmod_of_below fun n => (hP n).1)
  obtain ⟨k7, h7⟩ := sizes S _ fun m l c => item
    (X := Matrix (Fin m) (Fin l) ℝ × Matrix (Fin l) (Fin c) ℝ × Matrix (Fin m) (Fin c) ℝ)
    (fun b x => Below b x.1 ∧ Below b x.2.1 ∧ Below b x.2.2) (fun op x => gemmAcc op.toOps x.1 x.2.1 x.2.2)
    (fun x => x.1 * x.2.1 + x.2.2) fun S op x ho hP =>
      sim_gemmAcc ho (mmod_of_below fun n => (hP n).1) (mmod_of_below fun n => (hP n).2.1) (mmod_of_below fun n => (hP n).2.2)
  refine ⟨k1 + k2 + k3 + k4 + k5 + k6 + k7 + 1, fun K hK op u e ho ha => ?_⟩
  have H : ∀ b : ℝ, 1 ≤ b → b ^ K * e ≤ 1 → b * e ≤ 1 := fun b hb h =>
    (mul_le_mul_of_nonneg_right (le_self_pow₀ hb (by omega)) ha.nonneg).trans h
  exact {
    geqrf := fun {m c} b A hm hc hb hbe hA => h1 K (by omega) m hm m hm c (hc.trans hm) op u e b A ho ha hb (H b hb hbe) hA
    ormqrL := fun {m c r} b F tau C hm hc hr hb hbe hF ht hC =>
      h2 K (by omega) m hm c hc r (hr.trans hm) op u e b (F, tau, C) ho ha hb (H b hb hbe) ⟨hF, ht, hC⟩
    ormqrR := fun {m c r} b F tau C hm hc hr hb hbe hF ht hC =>
      h3 K (by omega) m hm c hc r (hr.trans hc) op u e b (F, tau, C) ho ha hb (H b hb hbe) ⟨hF, ht, hC⟩
    trtri := fun {m} b M hm hb hbe hM hd => h4 K (by omega) m hm m hm m hm op u e b M ho ha hb (H b hb hbe) ⟨hM, hd⟩
    trmmL := fun {m c} b α T B hm hc hb hbe hα hT hB =>
      h5 K (by omega) m hm c hc m hm op u e b (α, T, B) ho ha hb (H b hb hbe) ⟨hα, hT, hB⟩
    trmmR := fun {m c} b B T hm hc hb hbe hB hT => h6 K (by omega) m hm c hc m hm op u e b (B, T) ho ha hb (H b hb hbe) ⟨hB, hT⟩
    gemmAcc := fun {m l c} b X Y Z hm hl hc hb hbe hX hY hZ =>
      h7 K (by omega) m hm l hl c hc op u e b (X, Y, Z) ho ha hb (H b hb hbe) ⟨hX, hY, hZ⟩ }

/-- the accuracy can be made as small as desired -/
theorem accuracy_exists (K : ℕ) (hK : K ≠ 0) {u : ℝ} (hu : 0 ≤ u) : ∃ e, Accuracy K u e ∧ e ^ K = K * u := by
  have h := Real.rpow_inv_natCast_pow (show 0 ≤ (K : ℝ) * u by positivity) hK
  exact ⟨(K * u) ^ ((K : ℝ)⁻¹), ⟨Real.rpow_nonneg (by positivity) _, h.ge⟩, h⟩

/-! ## Examples -/

/-- rounding after every operation -/
noncomputable def flOpsSqrt (fl : ℝ → ℝ) : FlOps := { flOps fl with sqrt := fun x => fl (Real.sqrt x) }

theorem flOpsSqrt_relative {fl : ℝ → ℝ} {u : ℝ} (h : ∀ x, |fl x - x| ≤ u * |x|) : (flOpsSqrt fl).Relative u :=
  ⟨fun _ _ => h _, fun _ _ => h _, fun _ _ => h _, fun _ _ => h _, fun x => by
    have := h (Real.sqrt x)
    rwa [abs_of_nonneg (Real.sqrt_nonneg x)] at this⟩

/-- non-vacuity: an arithmetic with rounding errors whose calls have any given accuracy -/
example (N S : ℕ) {e : ℝ} (he : 0 < e) : ∃ (op : FlOps) (K : ℕ), op.add 1 1 ≠ 2 ∧ (refArith op (N := N) fun _ => 1).Within K e ∧
    (refBlocks op).Within S K e := by
  obtain ⟨k, hk⟩ := refArith_within N
  obtain ⟨l, hl⟩ := refBlocks_within S
  have hp : (0 : ℝ) < (k + l + 1 : ℕ) := by exact_mod_cast Nat.succ_pos _
  set u : ℝ := e ^ (k + l + 1) / (k + l + 1 : ℕ) with hu
  have hu0 : 0 < u := by positivity
  have hr : (flOpsSqrt fun x => (1 + u) * x).Relative u := flOpsSqrt_relative fun x => by
    rw [show (1 + u) * x - x = u * x by ring, abs_mul, abs_of_pos hu0]
  have ha : Accuracy (k + l + 1) u e := ⟨he.le, by
    rw [hu]
    exact (mul_div_cancel₀ _ hp.ne').le⟩
  refine ⟨_, k + l + 1, ?_, hk _ (by omega) _ u e _ hr ha, hl _ (by omega) _ u e hr ha⟩
  show (1 + u) * (1 + 1) ≠ 2
  intro h
  linarith

/-! ## The program -/

section program

open MeasureTheory Verif.MonteCarlo Verif.Greens Verif.Measurement Verif.Main Verif.Progress Verif.Random Verif.Params Verif.Rough
open Verif.Fock Verif.Stratonovich

variable {σ : Type} [MeasurableSpace σ] {P : Measure σ} {N : ℕ} {M : Type}

/-- The program calls the textbook algorithms, in an arithmetic with relative errors of at most `u`. If the tables have errors of at
most `u`, the quotients of two recorded quantities come as close to `T` as desired; the number of sweeps may grow as a power of
`1 / u`. -/
def AccurateRef [NeZero N] (P : Measure σ) (sys : Sys σ N M) (cfg : Cfg) (ms : Arith N → BlockArith → Meas N M) (φ ψ : M → ℝ)
    (T : ℝ) : Prop :=
  ∀ ε : ℝ, 0 < ε → ∃ (u₀ C : ℝ) (K : ℕ), 0 < u₀ ∧ 0 < C ∧
    ∀ (u : ℝ) (op : FlOps) (piv : Mat N → Equiv.Perm (Fin N)) (tab : Tables N) (n : ℕ), op.Relative u → tab.Within sys u → 0 < n →
      (cfg.nequil.toNat + n : ℝ) ^ K * u ≤ u₀ →
      ∀ (s : ℕ → Fin N → Fin 2) (meas : M), φ meas = 0 → ψ meas = 0 → ∃ v, start (refArith op piv) sys cfg tab s meas = some v ∧
        ∀ p : Prog, P.real {r | ¬ ∃ R, simLoop (roughBody (numerics (refArith op piv) sys cfg tab (ms (refArith op piv) (refBlocks op)))
            sys.rng cfg.L) (fun _ => false) (cfg.nequil.toNat + n) 0 ⟨r, s, v⟩ p = some R ∧
          |φ R.state.num.meas / ψ R.state.num.meas - T| < ε} ≤ C / n

theorem accurateRef_of_all [NeZero N] {sys : Sys σ N M} {cfg : Cfg} {S : ℕ} {ms : Arith N → BlockArith → Meas N M} {φ ψ : M → ℝ} {T : ℝ}
    (h : AccurateAll P sys cfg S ms φ ψ T) : AccurateRef P sys cfg ms φ ψ T := by
  intro ε hε
  obtain ⟨k, hk⟩ := refArith_within N
  obtain ⟨l, hl⟩ := refBlocks_within S
  set K := k + l + 1 with hK
  obtain ⟨u₀, C, hu₀, hC, H⟩ := h K ε hε
  have hp : (0 : ℝ) < K := by exact_mod_cast Nat.succ_pos _
  refine ⟨min 1 (u₀ ^ K) / K, C, K, by positivity, hC, fun u op piv tab n ho ht hn hs => ?_⟩
  have hu := ho.nonneg
  obtain ⟨e, ha, he⟩ := accuracy_exists K (by omega) hu
  rw [le_div_iff₀ hp] at hs
  set q : ℝ := (cfg.nequil.toNat + n : ℝ) with hq
  have hq1 : 1 ≤ q := by
    have : (1 : ℝ) ≤ n := by exact_mod_cast hn
    have := Nat.cast_nonneg (α := ℝ) cfg.nequil.toNat
    linarith
  have hs' : (q * e) ^ K ≤ min 1 (u₀ ^ K) := by
    rw [mul_pow, he]
    linarith [mul_assoc (q ^ K) u K, mul_comm u (K : ℝ)]
  have h1 : q * e ≤ u₀ := le_of_pow_le_pow_left₀ (by omega) hu₀.le (hs'.trans (min_le_right _ _))
  have h2 : q * e ≤ 1 := le_of_pow_le_pow_left₀ (n := K) (by omega) zero_le_one (by
    rw [one_pow]
    exact hs'.trans (min_le_left _ _))
  have h3 : u ≤ e := by
    refine le_trans ?_ (ha.le_self hq1 h2 (by omega))
    exact le_mul_of_one_le_left hu (by exact_mod_cast Nat.succ_pos _)
  exact H e (refArith op piv) (refBlocks op) tab n ha.nonneg (hk K (by omega) op u e piv ho ha) (hl K (by omega) op u e ho ha)
    (ht.mono h3) hn h1

variable {mc : Machine} {p : SimParams ℝ}

/-- C120: A run without phonons, with or without unequal time measurements, in an arithmetic with rounding errors from beginning to
end, where the calls of BLAS and LAPACK are the textbook algorithms: every result comes close to the expectation value in the
Hubbard model. -/
theorem program_reference [NeZero (sites p)] (hmc : mc.Rounds) (hv : Admissible p) (hg : Guards p)
    (hN : sites p < 2 ^ 31) (fnbase : String) (rng : Rng σ) (hlaw : rng.Lawful (sites p))
    (hP : rng.Ideal (sites p) P) (sys : Sys Seed (sites p) MeasData) (hsys : sysOf mc p = some sys)
    (hw : ∀ s, sys.weight p.L.toNat s (fun _ _ => 1) ≠ 0)
    (hr : ∀ i : Fin (sites p), p.U ((i.val / (p.Nx.toNat * p.Ny.toNat) : ℕ) : ℤ) = 0 ∨
      ∀ l < p.L.toNat, ∀ x : Field p.L.toNat (sites p),
        sys.weight p.L.toNat (Fock.extend (flipAt l i x)) (fun _ _ => 1)
          ≠ sys.weight p.L.toNat (Fock.extend x) (fun _ _ => 1))
    (hnq : 0 ≤ p.nequil) (hnw : p.nwraps ≤ p.L) (h2 : 2 * p.prodBlen ≤ p.L) :
    let L := p.L.toNat
    let cfg := (mkSetup mc p fnbase).cfg
    let sys' := sys.withRng rng
    let ms := roundMeasAll p.Norb.toNat (p.Nx.toNat * p.Ny.toNat) L (Maps.construct p.Nx.toNat p.Ny.toNat p.pbcShift mc.maps)
      mc.tau mc.green sys.meas
    (0 < p.neqlt → p.neqlt ≤ p.L →
        EqHolds p.Nx.toNat p.Ny.toNat p.Norb.toNat p.pbcShift 0 (thermalMean (hubbardStep p) L) fun f z v =>
          AccurateRef P sys' cfg ms (fun m => m.eq.arr f z) (fun m => m.eq.sign) v) ∧
      (0 < p.nuneqlt →
        UneqHolds p.Nx.toNat p.Ny.toNat p.Norb.toNat L p.pbcShift 0 (p.Nx.toNat = 1 ↔ p.Ny.toNat = 1)
          (thermalPair (hubbardStep p) L) fun f z v =>
          AccurateRef P sys' cfg ms (fun m => m.uneq.arr f z) (fun m => m.uneq.sign) v) := by
  intro L cfg sys' ms
  obtain ⟨h3, h4⟩ := program_rounded_all hmc hv hg hN fnbase rng hlaw hP sys hsys hw hr hnq hnw h2
  exact ⟨fun a b => (h3 a b).mono fun f z v h => accurateRef_of_all h, fun a => (h4 a).mono fun f z v h => accurateRef_of_all h⟩

/-- non-vacuity: one site with interaction and two time slices, and unequal time measurements in every sweep; the Green's function for
a time difference of one slice is computed accurately -/
example : ∃ mc : Machine, ∃ sys : Sys Seed (sites exU) MeasData, mc.Rounds ∧ sysOf mc exU = some sys ∧
    ∃ T, AccurateRef (independent (drawDist (sites exU))) (sys.withRng (idealRng (sites exU))) (mkSetup mc exU "").cfg
      (roundMeasAll 1 1 2 (Maps.construct 1 1 0 mc.maps) mc.tau mc.green sys.meas)
      (fun m => m.uneq.arr .gtau0U 1) (fun m => m.uneq.sign) T := by
  obtain ⟨mc, hmc⟩ := machine_exists
  obtain ⟨sys, hsys, hok, -⟩ := sys_defined hmc exU_admissible exU_guards.U exU_guards.shift (by decide) ""
  have hdiag : ∀ i j, i ≠ j → bondMatrix exU i j = 0 := fun i j h => absurd (Subsingleton.elim (α := Fin 1) i j) h
  obtain ⟨ho, hD⟩ := program_describes exU_admissible exU_guards sys hsys
  obtain ⟨-, hr⟩ := atomic_conditions exU_admissible exU_guards hdiag (by decide) sys hsys
  have key := (program_reference hmc exU_admissible exU_guards (by decide) "" _ (idealRng_lawful _)
    (idealRng_ideal _) sys hsys
    (fun s => weight_one_site hmc exU_admissible exU_guards rfl sys hsys _ s _ fun _ _ => one_pos) (fun i => by
      rcases hr i with h | h
      · left
        rw [← ho i]
        exact (decoupled_iff hD (by norm_num [exU, exP]) i).1 h
      · exact Or.inr h)
    (by decide) (by decide) (by decide)).2 (by decide)
  exact ⟨mc, sys, hmc, hsys, _, key.corr .gtau0U (by simp) 1 0 0 (by decide) (by decide) (by decide) 0 0⟩

end program

end Verif.Reference
