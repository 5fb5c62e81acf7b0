import Verif.Lemmas.Random

set_option autoImplicit false

/-! # Properties C01–C04 of the random number generator -/

namespace Verif.Random

/-! ## C01: bounded draws -/

/-- C01 (range): `Random_GetBoundedUint` only returns values below the bound. -/
theorem boundedUint_lt (bound : BitVec 64) (hb : bound ≠ 0#64) (sd sd' : Seed) (r : BitVec 64)
    (h : boundedUint bound sd = some (r, sd')) : r.toNat < bound.toNat := by
  have h0 : bound.toNat ≠ 0 := fun h => hb (BitVec.eq_of_toNat_eq (by simpa using h))
  have key : ∀ (sd : Seed) (res : BitVec 64 × Seed), boundedUint bound sd = some res →
      res.1.toNat < bound.toNat := by
    apply boundedUint.partial_correctness
    intro f ih sd res hres
    generalize getUint sd = d at hres
    by_cases hc : thresh bound ≤ d.1
    · rw [if_pos hc, Option.some.injEq] at hres
      rw [← hres, BitVec.toNat_umod]
      exact Nat.mod_lt _ (Nat.pos_of_ne_zero h0)
    · rw [if_neg hc] at hres
      exact ih _ _ hres
  exact key sd (r, sd') h


/-- C01 (first accepted draw): the call returns iff some raw draw of the stream reaches the
threshold, and then it returns the first such draw modulo the bound, having consumed exactly the
draws up to it. -/
theorem boundedUint_iff (bound : BitVec 64) (sd sd' : Seed) (r : BitVec 64) :
    boundedUint bound sd = some (r, sd') ↔
      ∃ n, (∀ m < n, outputAt sd m < thresh bound) ∧ thresh bound ≤ outputAt sd n ∧
        r = outputAt sd n % bound ∧ sd' = stateAt sd (n + 1) := by
  constructor
  · intro h
    obtain ⟨n, h1, h2, h3⟩ := first_of_boundedUint _ _ _ h
    rw [Prod.mk.injEq] at h3
    exact ⟨n, fun m hm => BitVec.not_le.mp (h1 m hm), h2, h3.1, h3.2⟩
  · rintro ⟨n, h1, h2, rfl, rfl⟩
    exact boundedUint_of_first _ _ _ (fun m hm => BitVec.not_le.mpr (h1 m hm)) h2

/-- C01 (no bias): each result `v < bound` is produced by exactly `2^64 / bound` of the `2^64` raw
draws that the loop accepts. -/
theorem boundedUint_unbiased (bound : BitVec 64) (hb : bound ≠ 0#64) (v : BitVec 64)
    (hv : v < bound) :
    Nat.card {r : BitVec 64 // thresh bound ≤ r ∧ r % bound = v} = 2 ^ 64 / bound.toNat := by
  have h0 : 0 < bound.toNat := by
    rcases Nat.eq_zero_or_pos bound.toNat with h | h
    · exact absurd (BitVec.eq_of_toNat_eq (by simpa using h)) hb
    · exact h
  have ht := thresh_toNat bound hb
  have hvl : v.toNat < bound.toNat := hv
  set c := if v.toNat < (thresh bound).toNat then 1 else 0 with hc
  have hiff := fun r => accepted_iff bound.toNat (thresh bound).toNat v.toNat r h0 ht hvl
  rw [← Nat.card_fin (2 ^ 64 / bound.toNat)]
  symm
  refine Nat.card_eq_of_bijective (fun k : Fin (2 ^ 64 / bound.toNat) =>
    (⟨BitVec.ofNat 64 (bound.toNat * (k + c) + v.toNat), ?_⟩ :
      {r : BitVec 64 // thresh bound ≤ r ∧ r % bound = v})) ⟨?_, ?_⟩
  · obtain ⟨h1, h2, h3⟩ := (hiff (bound.toNat * (k + c) + v.toNat)).2 ⟨k, k.2, rfl⟩
    constructor
    · rw [BitVec.le_def, BitVec.toNat_ofNat, Nat.mod_eq_of_lt h1]; exact h2
    · apply BitVec.eq_of_toNat_eq
      rw [BitVec.toNat_umod, BitVec.toNat_ofNat, Nat.mod_eq_of_lt h1]; exact h3
  · intro k k' hkk
    have h1 := ((hiff (bound.toNat * (k + c) + v.toNat)).2 ⟨k, k.2, rfl⟩).1
    have h2 := ((hiff (bound.toNat * (k' + c) + v.toNat)).2 ⟨k', k'.2, rfl⟩).1
    have h3 := congrArg (fun z => (z.1 : BitVec 64).toNat) hkk
    simp only [BitVec.toNat_ofNat] at h3
    rw [Nat.mod_eq_of_lt h1, Nat.mod_eq_of_lt h2] at h3
    have h4 : bound.toNat * (k + c) = bound.toNat * (k' + c) := by omega
    have := Nat.eq_of_mul_eq_mul_left h0 h4
    exact Fin.ext (by omega)
  · rintro ⟨r, h1, h2⟩
    have h3 : r.toNat % bound.toNat = v.toNat := by rw [← BitVec.toNat_umod, h2]
    obtain ⟨k, hk, hr⟩ := (hiff r.toNat).1 ⟨r.isLt, h1, h3⟩
    refine ⟨⟨k, hk⟩, Subtype.ext ?_⟩
    apply BitVec.eq_of_toNat_eq
    simp only [BitVec.toNat_ofNat]
    rw [← hr, Nat.mod_eq_of_lt r.isLt]

/-- C01 (few rejections): fewer than half of the raw draws are below the threshold. -/
theorem boundedUint_rejects_few (bound : BitVec 64) (hb : bound ≠ 0#64) :
    (thresh bound).toNat < 2 ^ 63 := by
  have h0 : bound.toNat ≠ 0 := fun h => hb (BitVec.eq_of_toNat_eq (by simpa using h))
  rw [thresh_toNat bound hb]
  have hlt := bound.isLt
  by_cases h : bound.toNat ≤ 2 ^ 63
  · exact lt_of_lt_of_le (Nat.mod_lt _ (Nat.pos_of_ne_zero h0)) h
  · have : 2 ^ 64 % bound.toNat = 2 ^ 64 - bound.toNat := by
      rw [Nat.mod_eq_sub_mod (by omega), Nat.mod_eq_of_lt (by omega)]
    omega

/-- non-vacuity: with bound 3 the threshold is 1, so 0 is rejected and 1 gives the result 1 -/
example : thresh 3#64 = 1#64 ∧ (3#64 : BitVec 64) ≠ 0#64 ∧ (2#64 : BitVec 64) < 3#64 := by decide


/-- non-vacuity: a call with bound 3 on a freshly seeded generator returns -/
example : ∃ r sd', boundedUint 3#64 (seedInit 1#64) = some (r, sd') :=
  ⟨_, _, (boundedUint_iff _ _ _ _).2 ⟨0, by simp, by decide, rfl, rfl⟩⟩

/-! ## C02: shuffling -/

/-- C02 (permutation): whatever the array held before and whatever state the generator is in, if
`Random_Shuffle` returns then the first `n` entries are a permutation of `0..n-1`, and memory
outside these entries is unchanged.  (`n < 2^31` since it is an `int`.) -/
theorem shuffle_isPerm (sd sd' : Seed) (n : ℕ) (hn : n < 2 ^ 31) (seq seq' : ℕ → ℤ)
    (h : shuffle sd n seq = some (seq', sd')) :
    (∀ v : ℕ, v < n → ∃! k, k < n ∧ seq' k = (v : ℤ)) ∧
    (∀ k < n, ∃ v : ℕ, v < n ∧ seq' k = (v : ℤ)) ∧
    (∀ k, n ≤ k → seq' k = seq k) := by
  obtain ⟨d, hd, rfl⟩ := shuffleLoop_spec n 0 sd sd' seq seq' (fun _ => 0) (by omega) (by simp) h
  rw [Nat.zero_add] at hd ⊢
  have := isPermArray_draws seq d n hd
  exact ⟨this.1, this.2, fun k hk => shuffleDraws_outside seq d n hd k hk⟩

/-- C02 (initial content is irrelevant): two shuffles from the same generator state give the same
permutation whatever the array held. -/
theorem shuffle_indep (sd sd' sd'' : Seed) (n : ℕ) (hn : n < 2 ^ 31)
    (seq₁ seq₂ out₁ out₂ : ℕ → ℤ)
    (h₁ : shuffle sd n seq₁ = some (out₁, sd')) (h₂ : shuffle sd n seq₂ = some (out₂, sd'')) :
    sd' = sd'' ∧ ∀ k < n, out₁ k = out₂ k := by
  have key : ∀ (k i : ℕ) (s : Seed) (a b : ℕ → ℤ) (ra rb : (ℕ → ℤ) × Seed), i + k < 2 ^ 31 →
      (∀ m < i, a m = b m) → shuffleLoop k i s a = some ra → shuffleLoop k i s b = some rb →
      ra.2 = rb.2 ∧ ∀ m < i + k, ra.1 m = rb.1 m := by
    intro k
    induction k with
    | zero =>
      intro i s a b ra rb _ hab ha hb
      simp only [shuffleLoop, Option.some.injEq] at ha hb
      subst ha; subst hb
      exact ⟨rfl, by simpa using hab⟩
    | succ k ih =>
      intro i s a b ra rb hik hab ha hb
      rw [shuffleLoop] at ha hb
      cases hbu : boundedUint (BitVec.ofNat 64 (i + 1)) s with
      | none => rw [hbu] at ha; simp at ha
      | some res =>
        obtain ⟨j, s1⟩ := res
        rw [hbu] at ha hb
        simp only [Option.bind_eq_bind, Option.bind_some] at ha hb
        have hne : BitVec.ofNat 64 (i + 1) ≠ 0#64 := by
          intro h
          have := congrArg BitVec.toNat h
          rw [BitVec.toNat_ofNat, Nat.mod_eq_of_lt (by omega)] at this
          simp at this
        have hj := boundedUint_lt _ hne _ _ _ hbu
        rw [BitVec.toNat_ofNat, Nat.mod_eq_of_lt (by omega)] at hj
        have := ih (i + 1) s1 _ _ ra rb (by omega) ?_ ha hb
        · refine ⟨this.1, fun m hm => this.2 m (by omega)⟩
        · intro m hm
          rw [shuffleStep_apply _ _ _ _ (by omega), shuffleStep_apply _ _ _ _ (by omega)]
          split
          · rfl
          · split
            · exact hab _ (by omega)
            · exact hab _ (by omega)
  have := key n 0 sd seq₁ seq₂ _ _ (by omega) (by simp) h₁ h₂
  simpa using this

/-- C02 (uniformity): for every permutation `f` of `0..n-1` there is exactly one list of draws
`d 0, …, d (n-1)` with `d i < i + 1` that produces it.  Together with C01 (all values of a bounded
draw are equally likely) all `n!` permutations are equally likely. -/
theorem shuffle_bijective (seq : ℕ → ℤ) (n : ℕ) (f : ℕ → ℤ)
    (hf : (∀ v : ℕ, v < n → ∃! k, k < n ∧ f k = (v : ℤ)) ∧
      (∀ k < n, ∃ v : ℕ, v < n ∧ f k = (v : ℤ))) :
    ∃ d : ℕ → ℕ, (∀ i < n, d i < i + 1) ∧ (∀ k < n, shuffleDraws seq d n k = f k) ∧
      ∀ d' : ℕ → ℕ, (∀ i < n, d' i < i + 1) → (∀ k < n, shuffleDraws seq d' n k = f k) →
        ∀ i < n, d' i = d i := by
  obtain ⟨d, hd, hdf⟩ := exists_draws seq n f hf
  refine ⟨d, fun i hi => Nat.lt_succ_of_le (hd i hi), hdf, ?_⟩
  intro d' hd' hdf'
  exact shuffleDraws_inj seq d' d n (fun i hi => Nat.le_of_lt_succ (hd' i hi)) hd
    (fun k hk => (hdf' k hk).trans (hdf k hk).symm)

/-- C02 (the code uses these draws): a returned shuffle is the one produced by its bounded draws. -/
theorem shuffle_eq_draws (sd sd' : Seed) (n : ℕ) (hn : n < 2 ^ 31) (seq seq' : ℕ → ℤ)
    (h : shuffle sd n seq = some (seq', sd')) :
    ∃ d : ℕ → ℕ, (∀ i < n, d i < i + 1) ∧ seq' = shuffleDraws seq d n := by
  obtain ⟨d, hd, rfl⟩ := shuffleLoop_spec n 0 sd sd' seq seq' (fun _ => 0) (by omega) (by simp) h
  rw [Nat.zero_add] at hd ⊢
  exact ⟨d, fun i hi => Nat.lt_succ_of_le (hd i hi), rfl⟩

/-- non-vacuity: draws 0, 0, 1 on an array with junk content give the permutation (1, 2, 0) -/
example : let d : ℕ → ℕ := fun i => if i = 2 then 1 else 0
    (shuffleDraws (fun _ => 77) d 3) 0 = 1 ∧ (shuffleDraws (fun _ => 77) d 3) 1 = 2 ∧
    (shuffleDraws (fun _ => 77) d 3) 2 = 0 := by decide

/-- non-vacuity: a shuffle of 2 entries returns for a concrete generator state -/
example : ∃ seq' sd', shuffle (seedInit 1#64) 2 (fun _ => 77) = some (seq', sd') := by
  have h1 : boundedUint 1#64 (seedInit 1#64) = _ :=
    (boundedUint_iff _ _ _ _).2 ⟨0, by simp, by decide, rfl, rfl⟩
  have h2 : boundedUint 2#64 (stateAt (seedInit 1#64) 1) = _ :=
    (boundedUint_iff _ _ _ _).2 ⟨0, by simp, by decide, rfl, rfl⟩
  suffices h : (shuffle (seedInit 1#64) 2 (fun _ => 77)).isSome by
    obtain ⟨⟨a, b⟩, h⟩ := Option.isSome_iff_exists.1 h
    exact ⟨a, b, h⟩
  unfold shuffle
  rw [shuffleLoop, show BitVec.ofNat 64 (0 + 1) = 1#64 from rfl, h1]
  simp only [Option.bind_eq_bind, Option.bind_some]
  rw [shuffleLoop, show BitVec.ofNat 64 (0 + 1 + 1) = 2#64 from rfl, h2]
  simp only [Option.bind_eq_bind, Option.bind_some]
  rfl

/-! ## C04: the generator never degenerates -/

/-- C04 (no merging): two different generator states stay different under `Random_GetUint`. -/
theorem getUint_injective : Function.Injective fun sd : Seed => (getUint sd).2 :=
  fun a b h => getUint_inj a b h

/-- C04 (no collapse): after seeding with a non-zero number, at every later time some word of the
state is non-zero. -/
theorem never_all_zero (n : BitVec 64) (hn : n ≠ 0#64) (k : ℕ) :
    ∃ i, (stateAt (seedInit n) k).s i ≠ 0#64 := by
  induction k with
  | zero =>
    refine ⟨0, fun h => seedIter_ne_zero hn 1 ?_⟩
    exact mul_inj_of_inv 2685821657736338717#64 6415128727920758069#64 (by decide)
      (y := 0#64) (by rw [BitVec.zero_mul]; exact h)
  | succ k ih =>
    by_contra hcon
    simp only [ne_eq, not_exists, not_not] at hcon
    obtain ⟨i, hi⟩ := ih
    exact hi ((getUint_zero_iff _).1 hcon i)

/-- C04 (all-zero is a trap, so `never_all_zero` matters): from the all-zero state every output is 0. -/
theorem zero_state_stuck (sd : Seed) (h : ∀ i, sd.s i = 0#64) (k : ℕ) : outputAt sd k = 0#64 := by
  have hz : ∀ k, ∀ i, (stateAt sd k).s i = 0#64 := by
    intro k
    induction k with
    | zero => exact h
    | succ k ih => exact (getUint_zero_iff _).2 ih
  unfold outputAt
  rw [getUint_fst, (getUint_zero_iff _).2 (hz k), BitVec.zero_mul]

/-- The argument `main` passes to `Random_SeedInit` for a parameter `itime` (main.c:148):
`1865811235122147685LL * params.itime`. -/
def seedArg (itime : BitVec 64) : BitVec 64 := 1865811235122147685#64 * itime

/-- C04 (seeding): every non-zero `itime` (validated by `ValidateSimulationParameters`) gives a
non-zero seed argument, and different values of `itime` give different generator states. -/
theorem seed_itime (a b : BitVec 64) :
    (a ≠ 0#64 → seedArg a ≠ 0#64) ∧ (seedInit (seedArg a) = seedInit (seedArg b) → a = b) := by
  have hinj : ∀ x y : BitVec 64, seedArg x = seedArg y → x = y := by
    intro x y h
    unfold seedArg at h
    rw [BitVec.mul_comm _ x, BitVec.mul_comm _ y] at h
    exact mul_inj_of_inv _ 7664345821815920749#64 (by decide) h
  constructor
  · intro ha h
    exact ha (hinj a 0#64 (h.trans (by unfold seedArg; simp)))
  · intro h
    have h0 := congrFun (congrArg Seed.s h) 0
    have h1 : seedIter (seedArg a) 1 = seedIter (seedArg b) 1 :=
      mul_inj_of_inv 2685821657736338717#64 6415128727920758069#64 (by decide) h0
    exact hinj a b (seedMix_inj h1)

example : seedArg 1447524371#64 ≠ 0#64 ∧ seedArg 1#64 ≠ seedArg 2#64 := by decide

/-! ## C03: uniform samples under floating-point rounding -/

/-- The finite binary64 numbers, with unbounded exponent at the upper end. -/
def Binary64 : Set ℝ := {x | ∃ m e : ℤ, |m| < 2 ^ 53 ∧ -1074 ≤ e ∧ x = (m : ℝ) * 2 ^ e}

/-- `rnd` rounds every real to a nearest binary64 number (any rule for ties). -/
def RoundsToNearest (rnd : ℝ → ℝ) : Prop :=
  ∀ x, rnd x ∈ Binary64 ∧ ∀ y ∈ Binary64, |rnd x - x| ≤ |y - x|

theorem rnd_le {rnd : ℝ → ℝ} (h : RoundsToNearest rnd) {x a : ℝ} (ha : a ∈ Binary64)
    (hx : x ≤ a) : rnd x ≤ a := by
  by_contra hc
  have h1 := (h x).2 a ha
  rw [abs_of_nonneg (by linarith), abs_of_nonneg (by linarith)] at h1
  linarith

theorem le_rnd {rnd : ℝ → ℝ} (h : RoundsToNearest rnd) {x a : ℝ} (ha : a ∈ Binary64)
    (hx : a ≤ x) : a ≤ rnd x := by
  by_contra hc
  have h1 := (h x).2 a ha
  rw [abs_of_nonpos (by linarith), abs_of_nonpos (by linarith)] at h1
  linarith

theorem rnd_self {rnd : ℝ → ℝ} (h : RoundsToNearest rnd) {a : ℝ} (ha : a ∈ Binary64) :
    rnd a = a := le_antisymm (rnd_le h ha le_rfl) (le_rnd h ha le_rfl)

theorem two_zpow_mem (k : ℤ) (hk : -1074 ≤ k) : (2 : ℝ) ^ k ∈ Binary64 :=
  ⟨1, k, by norm_num, hk, by simp⟩

/-- binary64 numbers of size at least `2^(k+52)` are multiples of `2^k` -/
theorem binary64_gap (k : ℤ) (x : ℝ) (hx : x ∈ Binary64) (hlo : (2 : ℝ) ^ (k + 52) ≤ |x|) :
    ∃ z : ℤ, x = z * 2 ^ k := by
  obtain ⟨m, e, hm, -, rfl⟩ := hx
  have hek : k ≤ e := by
    by_contra hc
    have h1 : |(m : ℝ) * 2 ^ e| < 2 ^ (k + 52) := by
      rw [abs_mul, abs_of_pos (show (0 : ℝ) < 2 ^ e by positivity)]
      have hm' : |(m : ℝ)| < 2 ^ (53 : ℤ) := by
        rw [show (2 : ℝ) ^ (53 : ℤ) = ((2 ^ 53 : ℤ) : ℝ) by norm_num, ← Int.cast_abs]
        exact Int.cast_lt.mpr hm
      calc |(m : ℝ)| * 2 ^ e < 2 ^ (53 : ℤ) * 2 ^ e := by
            apply mul_lt_mul_of_pos_right hm'; positivity
        _ = 2 ^ (53 + e) := by rw [← zpow_add₀ (by norm_num)]
        _ ≤ 2 ^ (k + 52) := by apply zpow_le_zpow_right₀ (by norm_num); omega
    linarith
  obtain ⟨n, hn⟩ := Int.le.dest hek
  refine ⟨m * 2 ^ n, ?_⟩
  rw [← hn, zpow_add₀ (by norm_num)]
  push_cast
  rw [zpow_natCast]; ring

/-- the literal 5.4210108624275221700372640e-20 of random.c:103 is read as exactly `2^-64` -/
theorem rnd_literal {rnd : ℝ → ℝ} (h : RoundsToNearest rnd) :
    rnd 5.4210108624275221700372640e-20 = 2 ^ (-64 : ℤ) := by
  have hm : (2 : ℝ) ^ (-64 : ℤ) ∈ Binary64 := two_zpow_mem _ (by norm_num)
  have hle : rnd 5.4210108624275221700372640e-20 ≤ 2 ^ (-64 : ℤ) :=
    rnd_le h hm (by norm_num)
  have h1 := (h 5.4210108624275221700372640e-20).2 _ hm
  have hlow : (2 : ℝ) ^ (-64 : ℤ) - 2 ^ (-120 : ℤ) ≤ rnd 5.4210108624275221700372640e-20 := by
    have h2 : |(2 : ℝ) ^ (-64 : ℤ) - 5.4210108624275221700372640e-20| ≤ 2 ^ (-122 : ℤ) := by
      rw [abs_of_nonneg (by norm_num)]; norm_num
    have h3 := (abs_le.mp (h1.trans h2)).1
    have h4 : (2 : ℝ) ^ (-64 : ℤ) - 2 ^ (-120 : ℤ) + 2 ^ (-122 : ℤ)
        ≤ 5.4210108624275221700372640e-20 := by norm_num
    linarith
  obtain ⟨z, hz⟩ := binary64_gap (-117) _ (h 5.4210108624275221700372640e-20).1 (by
    rw [abs_of_nonneg (le_trans (by norm_num) hlow)]
    refine le_trans ?_ hlow
    norm_num)
  rw [hz] at hle hlow ⊢
  have hz1 : (z : ℝ) ≤ 2 ^ 53 := by
    have : (z : ℝ) * 2 ^ (-117 : ℤ) ≤ 2 ^ 53 * 2 ^ (-117 : ℤ) := hle.trans (by norm_num)
    exact le_of_mul_le_mul_right this (by positivity)
  have hz2 : (2 ^ 53 - 1 : ℝ) < z := by
    have : (2 ^ 53 - 1 : ℝ) * 2 ^ (-117 : ℤ) < (z : ℝ) * 2 ^ (-117 : ℤ) :=
      lt_of_lt_of_le (by norm_num) hlow
    exact lt_of_mul_lt_mul_right this (by positivity)
  have hz1' : z ≤ 2 ^ 53 := by exact_mod_cast hz1
  have hz2' : 2 ^ 53 - 1 < z := by exact_mod_cast hz2
  have : z = 2 ^ 53 := by omega
  rw [this]; norm_num

/-- C03: with every floating-point step rounded to nearest, `Random_GetUniform` returns a value in
(0, 1] for every raw draw. -/
theorem uniform_mem_Ioc (rnd : ℝ → ℝ) (h : RoundsToNearest rnd) (sd : Seed) :
    0 < (getUniform rnd sd).1 ∧ (getUniform rnd sd).1 ≤ 1 := by
  simp only [getUniform, uniformOf, rnd_literal h]
  generalize (getUint sd).1 = u
  have hu0 : (0 : ℝ) ≤ (u.toNat : ℝ) := Nat.cast_nonneg _
  have hu1 : (u.toNat : ℝ) ≤ 2 ^ (64 : ℤ) := by
    have : u.toNat ≤ 2 ^ 64 := le_of_lt u.isLt
    have : (u.toNat : ℝ) ≤ ((2 ^ 64 : ℕ) : ℝ) := by exact_mod_cast this
    refine this.trans ?_
    norm_num
  have m0 : (0 : ℝ) ∈ Binary64 := ⟨0, 0, by norm_num, by norm_num, by simp⟩
  have m1 : (1 : ℝ) ∈ Binary64 := ⟨1, 0, by norm_num, by norm_num, by simp⟩
  have m64 : (2 : ℝ) ^ (64 : ℤ) ∈ Binary64 := two_zpow_mem _ (by norm_num)
  have mm64 : (2 : ℝ) ^ (-64 : ℤ) ∈ Binary64 := two_zpow_mem _ (by norm_num)
  have hv0 := le_rnd h m0 hu0
  have hv1 := rnd_le h m64 hu1
  set v := rnd (u.toNat : ℝ)
  have hw0 : 1 ≤ rnd (v + 1) := le_rnd h m1 (by linarith)
  have hw1 : rnd (v + 1) ≤ 2 ^ (64 : ℤ) := by
    by_contra hc
    push Not at hc
    have hclose := (h (v + 1)).2 _ m64
    have hup : rnd (v + 1) ≤ 2 ^ (64 : ℤ) + 2 := by
      by_cases hx : v + 1 ≤ 2 ^ (64 : ℤ)
      · exact (rnd_le h m64 hx).trans (by norm_num)
      · push Not at hx
        rw [abs_of_nonpos (show (2 : ℝ) ^ (64 : ℤ) - (v + 1) ≤ 0 by linarith)] at hclose
        have := (abs_le.mp hclose).2
        linarith
    obtain ⟨z, hz⟩ := binary64_gap 12 _ (h (v + 1)).1 (by
      rw [abs_of_nonneg (by linarith)]; exact le_of_lt hc)
    rw [hz] at hc hup
    have hz1 : (2 : ℝ) ^ 52 < z := by
      have : (2 : ℝ) ^ 52 * 2 ^ (12 : ℤ) < z * 2 ^ (12 : ℤ) := lt_of_le_of_lt (by norm_num) hc
      exact lt_of_mul_lt_mul_right this (by positivity)
    have hz2 : (z : ℝ) < 2 ^ 52 + 1 := by
      have : (z : ℝ) * 2 ^ (12 : ℤ) < (2 ^ 52 + 1) * 2 ^ (12 : ℤ) := lt_of_le_of_lt hup (by norm_num)
      exact lt_of_mul_lt_mul_right this (by positivity)
    have hz1' : (2 : ℤ) ^ 52 < z := by exact_mod_cast hz1
    have hz2' : z < 2 ^ 52 + 1 := by exact_mod_cast hz2
    omega
  set w := rnd (v + 1)
  have hp : (0 : ℝ) < 2 ^ (-64 : ℤ) := by positivity
  constructor
  · have : (2 : ℝ) ^ (-64 : ℤ) ≤ w * 2 ^ (-64 : ℤ) := by nlinarith
    exact lt_of_lt_of_le hp (le_rnd h mm64 this)
  · apply rnd_le h m1
    calc w * 2 ^ (-64 : ℤ) ≤ 2 ^ (64 : ℤ) * 2 ^ (-64 : ℤ) := by
          apply mul_le_mul_of_nonneg_right hw1 hp.le
      _ = 1 := by norm_num

/-- non-vacuity: roundings to nearest exist -/
theorem roundsToNearest_exists : ∃ rnd, RoundsToNearest rnd := by
  have h : ∀ x : ℝ, ∃ r, r ∈ Binary64 ∧ ∀ y ∈ Binary64, |r - x| ≤ |y - x| := by
    intro x
    have m0 : (0 : ℝ) ∈ Binary64 := ⟨0, 0, by norm_num, by norm_num, by simp⟩
    let S := Binary64 ∩ {y | |y - x| ≤ |x|}
    have hfin : S.Finite := by
      have hp : (0 : ℝ) < 2 ^ (-1074 : ℤ) := by positivity
      refine ((Set.finite_Icc (-⌈2 * |x| / 2 ^ (-1074 : ℤ)⌉) ⌈2 * |x| / 2 ^ (-1074 : ℤ)⌉).image
        (fun z : ℤ => (z : ℝ) * 2 ^ (-1074 : ℤ))).subset ?_
      rintro y ⟨⟨m, e, -, he, rfl⟩, hy⟩
      obtain ⟨n, hn⟩ := Int.le.dest he
      have heq : (m : ℝ) * 2 ^ e = ((m * 2 ^ n : ℤ) : ℝ) * 2 ^ (-1074 : ℤ) := by
        rw [← hn, zpow_add₀ (by norm_num)]; push_cast; rw [zpow_natCast]; ring
      refine ⟨m * 2 ^ n, ?_, heq.symm⟩
      rw [heq] at hy
      have hb : |((m * 2 ^ n : ℤ) : ℝ) * 2 ^ (-1074 : ℤ)| ≤ 2 * |x| := by
        have h1 : |((m * 2 ^ n : ℤ) : ℝ) * 2 ^ (-1074 : ℤ) - x| ≤ |x| := hy
        have h2 := abs_sub_abs_le_abs_sub (((m * 2 ^ n : ℤ) : ℝ) * 2 ^ (-1074 : ℤ)) x
        linarith
      rw [abs_mul, abs_of_pos hp, ← le_div_iff₀ hp] at hb
      have hc := hb.trans (Int.le_ceil _)
      rw [← Int.cast_abs, Int.cast_le] at hc
      exact abs_le.mp hc
    obtain ⟨r, hr, hmin⟩ := Set.exists_min_image S (fun y => |y - x|) hfin ⟨0, m0, by simp⟩
    refine ⟨r, hr.1, fun y hy => ?_⟩
    by_cases hyx : |y - x| ≤ |x|
    · exact hmin y ⟨hy, hyx⟩
    · exact hr.2.trans (le_of_lt (not_le.mp hyx))
  choose rnd hrnd using h
  exact ⟨rnd, hrnd⟩

/-- C03: hence `Random_GetNormal` never takes the logarithm of a non-positive number or the square
root of a negative number. -/
theorem normal_defined (rnd : ℝ → ℝ) (h : RoundsToNearest rnd) (sd : Seed) :
    (getNormal rnd sd).1.isSome := by
  unfold getNormal
  obtain ⟨h0, h1⟩ := uniform_mem_Ioc rnd h sd
  have h2 : 0 ≤ -2 * Real.log (getUniform rnd sd).1 := by
    have := Real.log_nonpos h0.le h1
    linarith
  simp only [h0, h2, and_self, if_true, Option.isSome_some]

/-- C03: the value of `Random_GetNormal` from two consecutive uniform numbers `u1`, `u2` is `r sin (c u2)`,
where `r ≥ 0`, `exp (-r² / 2) = u1` and `c` is `2 π` rounded -/
theorem normal_value (rnd : ℝ → ℝ) (h : RoundsToNearest rnd) (sd : Seed) :
    ∃ r : ℝ, 0 ≤ r ∧ Real.exp (-r ^ 2 / 2) = (getUniform rnd sd).1 ∧
      (getNormal rnd sd).1 = some (r * Real.sin (6.2831853071795864769 *
        (getUniform rnd (getUniform rnd sd).2).1)) ∧
      (getNormal rnd sd).2 = (getUniform rnd (getUniform rnd sd).2).2 := by
  obtain ⟨h0, h1⟩ := uniform_mem_Ioc rnd h sd
  have h2 : 0 ≤ -2 * Real.log (getUniform rnd sd).1 := by
    have := Real.log_nonpos h0.le h1
    linarith
  refine ⟨Real.sqrt (-2 * Real.log (getUniform rnd sd).1), Real.sqrt_nonneg _, ?_, ?_, rfl⟩
  · rw [Real.sq_sqrt h2, show -(-2 * Real.log (getUniform rnd sd).1) / 2 =
      Real.log (getUniform rnd sd).1 by ring, Real.exp_log h0]
  · unfold getNormal
    simp only [h0, h2, and_self, if_true]

end Verif.Random
