import Verif.Props.Files
import Verif.Props.Random
import Verif.Lemmas.Xorshift
import Mathlib.Data.Fintype.BigOperators
import Mathlib.Data.Fintype.Pi
import Mathlib.Data.Fintype.EquivFin

/-! # The period of the generator (C01, C02, C04, C68) -/

set_option autoImplicit false

namespace Verif.Random

open Verif.Files Verif.PrimeCert Verif.Xorshift

/-- some word of the state is not zero -/
def Seed.NonZero (sd : Seed) : Prop := ∃ i, sd.s i ≠ 0#64

/-! ## Words as vectors -/

/-- the bits of a word -/
def bits (w : BitVec 64) : Word := fun j => bit (w.getLsbD j)

theorem bit_inj {a b : Bool} (h : bit a = bit b) : a = b := by
  revert h
  cases a <;> cases b <;> decide

theorem bits_inj {v w : BitVec 64} (h : bits v = bits w) : v = w := by
  apply BitVec.eq_of_getLsbD_eq
  intro i hi
  exact bit_inj (congrFun h ⟨i, hi⟩)

theorem bits_zero : bits 0#64 = 0 := by
  funext j
  simp [bits, bit]

theorem bits_xor (v w : BitVec 64) : bits (v ^^^ w) = bits v + bits w := by
  funext j
  simp only [bits, BitVec.getLsbD_xor, bit_xor, Pi.add_apply]

theorem bits_shl (w : BitVec 64) (k : ℕ) : bits (w <<< k) = shl k (bits w) := by
  funext j
  simp only [bits, BitVec.getLsbD_shiftLeft, shl, LinearMap.coe_mk, AddHom.coe_mk]
  by_cases h : k ≤ j.val
  · rw [if_pos h]
    simp [Nat.not_lt.2 h]
  · rw [if_neg h]
    simp [Nat.lt_of_not_le h, bit]

theorem bits_shr (w : BitVec 64) (k : ℕ) : bits (w >>> k) = shr k (bits w) := by
  funext j
  simp only [bits, BitVec.getLsbD_ushiftRight, shr, LinearMap.coe_mk, AddHom.coe_mk]
  by_cases h : j.val + k < 64
  · rw [dif_pos h, add_comm]
  · rw [dif_neg h, BitVec.getLsbD_of_ge _ _ (by omega)]
    rfl

theorem bits_nextWord (a b : BitVec 64) : bits (nextWord a b) = next (bits a) (bits b) := by
  unfold nextWord next
  simp only [bits_xor, bits_shl, bits_shr]

/-- the words of the generator in the order in which they were made -/
def wordAt (sd : Seed) (k : ℕ) : BitVec 64 := view (stateAt sd k) 1

theorem view_eq_wordAt (sd : Seed) (k m : ℕ) (hm : m < 16) :
    view (stateAt sd k) (Fin.ofNat 16 (1 + m)) = wordAt sd (k + m) :=
  (view_shift sd k m 1 le_rfl (by omega)).symm

theorem wordAt_next (sd : Seed) (k : ℕ) :
    wordAt sd (k + 16) = nextWord (wordAt sd (k + 15)) (wordAt sd k) := by
  have h1 := view_eq_wordAt sd (k + 1) 15 (by omega)
  have h2 := view_eq_wordAt sd k 15 (by omega)
  rw [show k + 16 = k + 1 + 15 by ring, ← h1, ← h2]
  show view (getUint (stateAt sd k)).2 0 = _
  rw [view_getUint, if_pos rfl]
  rfl

theorem outputAt_wordAt (sd : Seed) (k : ℕ) :
    outputAt sd k = wordAt sd (k + 16) * 1181783497276652981#64 := by
  have h2 := view_eq_wordAt sd k 15 (by omega)
  rw [wordAt_next, ← h2]
  unfold outputAt
  rw [getUint_out]
  rfl

/-- the sequence of words as a solution of the recurrence -/
theorem wordAt_mem (sd : Seed) : (fun k => bits (wordAt sd k)) ∈ Sol := by
  intro k
  show bits (wordAt sd (k + 16)) = _
  rw [wordAt_next, bits_nextWord]

theorem wordAt_ne_zero {sd : Seed} (h : sd.NonZero) : (fun k => bits (wordAt sd k)) ≠ 0 := by
  intro h0
  obtain ⟨i, hi⟩ := h
  have h1 : ∀ k, wordAt sd k = 0#64 := fun k => bits_inj ((congrFun h0 k).trans bits_zero.symm)
  -- word `i` is the word number `i - p` in the order of use
  have h2 : ∀ j : Fin 16, view sd j = 0#64 := by
    intro j
    have h3 : ∃ m : ℕ, m < 16 ∧ Fin.ofNat 16 (1 + m) = j := by
      revert j
      decide
    obtain ⟨m, hm, rfl⟩ := h3
    have h4 := view_eq_wordAt sd 0 m hm
    rw [h1] at h4
    exact h4
  have h3 := h2 (i - sd.p)
  unfold view at h3
  rw [add_sub_cancel] at h3
  exact hi h3

theorem wordAt_of_output {sd : Seed} {a b : ℕ} (h : outputAt sd a = outputAt sd b) :
    wordAt sd (a + 16) = wordAt sd (b + 16) := by
  rw [outputAt_wordAt, outputAt_wordAt] at h
  exact mul_inj_of_inv 1181783497276652981#64 (13515856136758413469#64) (by decide) h

theorem wordAt_of_output_zero {sd : Seed} {a : ℕ} (h : outputAt sd a = 0#64) :
    wordAt sd (a + 16) = 0#64 := by
  rw [outputAt_wordAt] at h
  exact mul_inj_of_inv 1181783497276652981#64 (13515856136758413469#64) (y := 0#64) (by decide)
    (by rw [BitVec.zero_mul]; exact h)

theorem bits_wordAt_add (sd : Seed) (k n : ℕ) (h : ∀ k, wordAt sd (k + n) = wordAt sd k) :
    outputAt sd (k + n) = outputAt sd k := by
  rw [outputAt_wordAt, outputAt_wordAt, show k + n + 16 = k + 16 + n by ring, h]

/-! ## C68: the period -/

/-- the words repeat after `2 ^ 1024 - 1` calls -/
theorem wordAt_period (sd : Seed) (k : ℕ) : wordAt sd (k + period) = wordAt sd k :=
  bits_inj (Sol_period (wordAt_mem sd) k)

/-- C68: the numbers repeat after `2 ^ 1024 - 1` calls -/
theorem outputAt_period (sd : Seed) (k : ℕ) : outputAt sd (k + period) = outputAt sd k :=
  bits_wordAt_add sd k period (wordAt_period sd)

/-- C68: they do not repeat earlier, for any non-zero state -/
theorem outputAt_minimal {sd : Seed} (h : sd.NonZero) {t : ℕ}
    (ht : ∀ k, outputAt sd (k + t) = outputAt sd k) : period ∣ t := by
  have h16 : ∀ k, wordAt sd (k + 16 + t) = wordAt sd (k + 16) := by
    intro k
    have h1 := wordAt_of_output (ht k)
    rw [show k + 16 + t = k + t + 16 by omega]
    exact h1
  refine Sol_minimal (wordAt_mem sd) (wordAt_ne_zero h) (t := t) ?_
  intro k
  have h1 := wordAt_period sd k
  have h2 := wordAt_period sd (k + t)
  have hp : 16 ≤ period := by decide +kernel
  generalize period = n at *
  obtain ⟨m, rfl⟩ : ∃ m, n = m + 16 := ⟨n - 16, by omega⟩
  have h3 := h16 (k + m)
  rw [show k + t + (m + 16) = k + m + 16 + t by omega, h3] at h2
  rw [show k + (m + 16) = k + m + 16 by omega] at h1
  show bits (wordAt sd (k + t)) = bits (wordAt sd k)
  rw [← h1, ← h2]

/-- sixteen consecutive numbers, from the `k`-th on -/
def tuple (sd : Seed) (k : ℕ) : Fin 16 → BitVec 64 := fun i => outputAt sd (k + i)

theorem outputAt_stateAt (sd : Seed) (k n : ℕ) : outputAt (stateAt sd k) n = outputAt sd (k + n) := by
  induction k generalizing n with
  | zero => rw [zero_add]; rfl
  | succ k ih =>
    show outputAt (getUint (stateAt sd k)).2 n = _
    rw [outputAt_succ', ih, show k + (n + 1) = k + 1 + n by omega]

theorem tuple_ne_zero {sd : Seed} (h : sd.NonZero) (k : ℕ) : tuple sd k ≠ fun _ => 0#64 := by
  intro h0
  refine wordAt_ne_zero h ?_
  have hw : ∀ i < 16, wordAt sd (k + 16 + i) = 0#64 := by
    intro i hi
    have h1 := congrFun h0 ⟨i, hi⟩
    rw [show k + 16 + i = k + i + 16 by omega]
    exact wordAt_of_output_zero h1
  have hz : (S ^ (k + 16)) (fun k => bits (wordAt sd k)) = 0 := by
    refine Sol_ext (S_pow_mem (wordAt_mem sd) _) Sol.zero_mem fun i hi => ?_
    rw [S_pow]
    show bits (wordAt sd (i + (k + 16))) = 0
    rw [add_comm, hw i hi, bits_zero]
  rw [S_pow] at hz
  funext m
  -- far enough, by periodicity
  have hper : ∀ a, wordAt sd (m + a * period) = wordAt sd m := by
    intro a
    induction a with
    | zero => rw [zero_mul, add_zero]
    | succ a ih => rw [Nat.succ_mul, ← add_assoc, wordAt_period, ih]
  have hp : 0 < period := period_pos
  show bits (wordAt sd m) = 0
  rw [← hper (k + 16)]
  generalize period = n at *
  have hle : k + 16 ≤ m + (k + 16) * n := by
    have : (k + 16) * 1 ≤ (k + 16) * n := Nat.mul_le_mul_left _ hp
    omega
  obtain ⟨j, hj⟩ : ∃ j, m + (k + 16) * n = j + (k + 16) := ⟨m + (k + 16) * n - (k + 16), by omega⟩
  rw [hj]
  exact congrFun hz j

theorem tuple_inj {sd : Seed} (h : sd.NonZero) {k k' : ℕ} (hk : k < period) (hk' : k' < period)
    (he : tuple sd k = tuple sd k') : k = k' := by
  wlog hle : k ≤ k' generalizing k k'
  · exact (this hk' hk he.symm (by omega)).symm
  have hw : ∀ i < 16, wordAt sd (i + (k + 16)) = wordAt sd (i + (k' + 16)) := by
    intro i hi
    have h1 := congrFun he ⟨i, hi⟩
    rw [show i + (k + 16) = k + i + 16 by omega, show i + (k' + 16) = k' + i + 16 by omega]
    exact wordAt_of_output h1
  have hz : (S ^ (k + 16)) (fun k => bits (wordAt sd k)) = (S ^ (k' + 16)) (fun k => bits (wordAt sd k)) := by
    refine Sol_ext (S_pow_mem (wordAt_mem sd) _) (S_pow_mem (wordAt_mem sd) _) fun i hi => ?_
    rw [S_pow, S_pow]
    show bits (wordAt sd (i + (k + 16))) = bits (wordAt sd (i + (k' + 16)))
    rw [hw i hi]
  have hnz : (S ^ (k + 16)) (fun k => bits (wordAt sd k)) ≠ 0 := by
    intro h0
    refine tuple_ne_zero h k ?_
    funext i
    rw [S_pow] at h0
    have h1 := congrFun h0 i
    have h2 : wordAt sd (i + (k + 16)) = 0#64 := bits_inj (h1.trans bits_zero.symm)
    simp only [tuple, outputAt_wordAt]
    rw [show k + i.val + 16 = i.val + (k + 16) by ring, h2, BitVec.zero_mul]
  have hd : period ∣ k' - k := by
    refine Sol_minimal (S_pow_mem (wordAt_mem sd) (k + 16)) hnz ?_
    intro m
    have h1 := congrFun hz m
    rw [S_pow, S_pow] at h1
    rw [S_pow]
    show bits (wordAt sd (m + (k' - k) + (k + 16))) = bits (wordAt sd (m + (k + 16)))
    rw [show m + (k' - k) + (k + 16) = m + (k' + 16) by omega]
    exact h1.symm
  have hlt : k' - k < period := by omega
  have := Nat.eq_zero_of_dvd_of_lt hd hlt
  omega

/-- C68: within a period every sixteen words other than sixteen zeros are returned in a row exactly
once -/
theorem tuple_unique {sd : Seed} (h : sd.NonZero) (v : Fin 16 → BitVec 64) (hv : v ≠ fun _ => 0#64) :
    ∃! k, k < period ∧ ∀ i : Fin 16, outputAt sd (k + i) = v i := by
  classical
  have : Fintype (BitVec 64) := Fintype.ofEquiv (Fin (2 ^ 64))
    ⟨BitVec.ofFin, BitVec.toFin, fun _ => rfl, fun _ => rfl⟩
  let f : Fin period → {v : Fin 16 → BitVec 64 // v ≠ fun _ => 0#64} :=
    fun k => ⟨tuple sd k, tuple_ne_zero h k⟩
  have hinj : Function.Injective f := by
    intro a b hab
    exact Fin.ext (tuple_inj h a.2 b.2 (congrArg Subtype.val hab))
  have hcard : Fintype.card (Fin period) = Fintype.card {v : Fin 16 → BitVec 64 // v ≠ fun _ => 0#64} := by
    rw [Fintype.card_fin, Fintype.card_subtype_compl, Fintype.card_fun, Fintype.card_fin]
    have h1 : Fintype.card (BitVec 64) = 2 ^ 64 := by
      rw [Fintype.card_congr ⟨BitVec.toFin, BitVec.ofFin, fun _ => rfl, fun _ => rfl⟩, Fintype.card_fin]
    have h2 : Fintype.card {v : Fin 16 → BitVec 64 // v = fun _ => 0#64} = 1 := by
      rw [Fintype.card_eq_one_iff]
      exact ⟨⟨_, rfl⟩, fun y => Subtype.ext y.2⟩
    rw [h1, h2]
    decide +kernel
  have hsurj := ((Fintype.bijective_iff_injective_and_card f).2 ⟨hinj, hcard⟩).2
  obtain ⟨k, hk⟩ := hsurj ⟨v, hv⟩
  refine ⟨k.val, ⟨k.2, fun i => congrFun (congrArg Subtype.val hk) i⟩, ?_⟩
  rintro k' ⟨h1, h2⟩
  refine tuple_inj h h1 k.2 ?_
  rw [show tuple sd k.val = v from congrArg Subtype.val hk]
  funext i
  exact h2 i

instance : Fintype (BitVec 64) :=
  Fintype.ofEquiv (Fin (2 ^ 64)) ⟨BitVec.ofFin, BitVec.toFin, fun _ => rfl, fun _ => rfl⟩

theorem card_word : Fintype.card (BitVec 64) = 2 ^ 64 := by
  rw [Fintype.card_congr ⟨BitVec.toFin, BitVec.ofFin, fun _ => rfl, fun _ => rfl⟩, Fintype.card_fin]

/-- C68: within a period a number from `A` is returned `|A| (2 ^ 64) ^ 15` times, once less if zero
belongs to `A` -/
theorem count_output {sd : Seed} (h : sd.NonZero) (A : Finset (BitVec 64)) :
    ((Finset.range period).filter fun k => outputAt sd k ∈ A).card =
      A.card * (2 ^ 64) ^ 15 - if 0#64 ∈ A then 1 else 0 := by
  classical
  let B : Finset (Fin 16 → BitVec 64) := Fintype.piFinset fun i => if i = 0 then A else Finset.univ
  have hB : ∀ v, v ∈ B ↔ v 0 ∈ A := by
    intro v
    simp only [B, Fintype.mem_piFinset]
    constructor
    · intro hv
      simpa using hv 0
    · intro hv i
      by_cases hi : i = 0
      · subst hi
        simpa using hv
      · simp [hi]
  have hBc : B.card = A.card * (2 ^ 64) ^ 15 := by
    simp only [B, Fintype.card_piFinset]
    rw [Fin.prod_univ_succ, if_pos rfl]
    have hc : ∀ i : Fin 15, (if i.succ = (0 : Fin 16) then A else Finset.univ).card = 2 ^ 64 := by
      intro i
      rw [if_neg (Fin.succ_ne_zero i), Finset.card_univ, card_word]
    simp only [hc]
    rw [Finset.prod_const, Finset.card_univ, Fintype.card_fin]
  have h1 : ((Finset.range period).filter fun k => outputAt sd k ∈ A).card =
      (B.erase fun _ => 0#64).card := by
    refine Finset.card_bij (fun k _ => tuple sd k) ?_ ?_ ?_
    · intro k hk
      rw [Finset.mem_filter] at hk
      rw [Finset.mem_erase, hB]
      exact ⟨tuple_ne_zero h k, hk.2⟩
    · intro k hk k' hk' he
      rw [Finset.mem_filter, Finset.mem_range] at hk hk'
      exact tuple_inj h hk.1 hk'.1 he
    · intro v hv
      rw [Finset.mem_erase, hB] at hv
      obtain ⟨k, ⟨hk, hk2⟩, -⟩ := tuple_unique h v hv.1
      refine ⟨k, ?_, funext hk2⟩
      rw [Finset.mem_filter, Finset.mem_range]
      refine ⟨hk, ?_⟩
      rw [show outputAt sd k = v 0 from hk2 0]
      exact hv.2
  rw [h1, ← hBc]
  by_cases h0 : 0#64 ∈ A
  · rw [if_pos h0, Finset.card_erase_of_mem ((hB _).2 h0)]
  · rw [if_neg h0, Finset.erase_eq_of_notMem (fun hc => h0 ((hB _).1 hc)), Nat.sub_zero]

/-! ## C01, C02: the rejection loops end -/

/-- every word is returned again and again -/
theorem output_occurs {sd : Seed} (h : sd.NonZero) (w : BitVec 64) : ∃ k, outputAt sd k = w := by
  obtain ⟨k, ⟨-, hk⟩, -⟩ := tuple_unique h (Function.update (fun _ => w) 1 1#64) (by
    intro h0
    have := congrFun h0 1
    rw [Function.update_self] at this
    exact absurd this (by decide))
  exact ⟨k, by simpa using hk 0⟩

/-- C01: `Random_GetBoundedUint` returns, for every bound and every non-zero state -/
theorem boundedUint_terminates (bound : BitVec 64) (hb : bound ≠ 0#64) {sd : Seed} (h : sd.NonZero) :
    ∃ r sd', boundedUint bound sd = some (r, sd') ∧ r < bound := by
  classical
  have hex : ∃ k, thresh bound ≤ outputAt sd k := by
    obtain ⟨k, hk⟩ := output_occurs h (BitVec.allOnes 64)
    refine ⟨k, ?_⟩
    rw [hk, BitVec.le_def, BitVec.toNat_allOnes]
    have := (thresh bound).isLt
    omega
  refine ⟨_, _, boundedUint_of_first bound (Nat.find hex) sd (fun m hm => Nat.find_min hex hm)
    (Nat.find_spec hex), ?_⟩
  rw [BitVec.lt_def, BitVec.toNat_umod]
  exact Nat.mod_lt _ (Nat.pos_of_ne_zero fun h0 => hb (BitVec.eq_of_toNat_eq h0))

/-- C01: within a period every result `v` of `Random_GetBoundedUint` comes from equally many accepted
raw numbers; only the result 0 misses one, when the bound divides `2 ^ 64` -/
theorem boundedUint_count {sd : Seed} (h : sd.NonZero) (bound : BitVec 64) (hb : bound ≠ 0#64)
    (v : BitVec 64) (hv : v < bound) :
    ((Finset.range period).filter fun k => thresh bound ≤ outputAt sd k ∧ outputAt sd k % bound = v).card =
      2 ^ 64 / bound.toNat * (2 ^ 64) ^ 15 - if thresh bound = 0#64 ∧ v = 0#64 then 1 else 0 := by
  classical
  have h1 := count_output h (Finset.univ.filter fun r => thresh bound ≤ r ∧ r % bound = v)
  have h2 := boundedUint_unbiased bound hb v hv
  rw [Nat.card_eq_fintype_card, Fintype.card_subtype] at h2
  rw [h2] at h1
  have h3 : (0#64 ∈ Finset.univ.filter fun r : BitVec 64 => thresh bound ≤ r ∧ r % bound = v) ↔
      (thresh bound = 0#64 ∧ v = 0#64) := by
    rw [Finset.mem_filter, BitVec.zero_umod]
    constructor
    · rintro ⟨-, h4, h5⟩
      refine ⟨?_, h5.symm⟩
      apply BitVec.eq_of_toNat_eq
      have : (thresh bound).toNat ≤ 0 := h4
      simpa using this
    · rintro ⟨h4, h5⟩
      exact ⟨Finset.mem_univ _, by rw [h4]; exact BitVec.le_refl _, h5.symm⟩
  simp only [Finset.mem_filter, Finset.mem_univ, true_and] at h1 h3
  rw [h1]
  by_cases h4 : thresh bound = 0#64 ∧ v = 0#64
  · rw [if_pos h4, if_pos (h3.2 h4)]
  · rw [if_neg h4, if_neg (fun hc => h4 (h3.1 hc))]

theorem stateAt_nonZero {sd : Seed} (h : sd.NonZero) (k : ℕ) : (stateAt sd k).NonZero := by
  induction k with
  | zero => exact h
  | succ k ih =>
    by_contra hc
    unfold Seed.NonZero at hc
    push Not at hc
    obtain ⟨i, hi⟩ := ih
    exact hi ((getUint_zero_iff _).1 hc i)

theorem boundedUint_nonZero {bound : BitVec 64} {sd sd' : Seed} {r : BitVec 64}
    (h : sd.NonZero) (hr : boundedUint bound sd = some (r, sd')) : sd'.NonZero := by
  obtain ⟨n, -, -, h3⟩ := first_of_boundedUint bound sd _ hr
  rw [Prod.mk.injEq] at h3
  rw [h3.2]
  exact stateAt_nonZero h _

theorem shuffleLoop_terminates (k : ℕ) : ∀ (i : ℕ) (sd : Seed) (seq : ℕ → ℤ), i + k < 2 ^ 64 →
    sd.NonZero → ∃ seq' sd', shuffleLoop k i sd seq = some (seq', sd') ∧ sd'.NonZero := by
  induction k with
  | zero => exact fun i sd seq _ h => ⟨seq, sd, rfl, h⟩
  | succ k ih =>
    intro i sd seq hi h
    obtain ⟨r, sd1, h1, -⟩ := boundedUint_terminates (BitVec.ofNat 64 (i + 1)) (by
      intro h0
      have := congrArg BitVec.toNat h0
      rw [BitVec.toNat_ofNat, Nat.mod_eq_of_lt (by omega)] at this
      simp at this) h
    obtain ⟨s2, sd2, h2, h3⟩ := ih (i + 1) sd1 (shuffleStep seq i r.toNat) (by omega)
      (boundedUint_nonZero h h1)
    refine ⟨s2, sd2, ?_, h3⟩
    unfold shuffleLoop
    rw [h1]
    exact h2

/-- C02: `Random_Shuffle` returns, for every non-zero state -/
theorem shuffle_terminates {sd : Seed} (h : sd.NonZero) (n : ℕ) (hn : n < 2 ^ 31) (seq : ℕ → ℤ) :
    ∃ seq' sd', shuffle sd n seq = some (seq', sd') ∧ sd'.NonZero :=
  shuffleLoop_terminates n 0 sd seq (by
    have : (2 : ℕ) ^ 31 < 2 ^ 64 := by norm_num
    omega) h

/-- C04: seeding with a non-zero number gives a non-zero state -/
theorem seedInit_nonZero {n : BitVec 64} (hn : n ≠ 0#64) : (seedInit n).NonZero :=
  never_all_zero n hn 0

/-- the hypothesis is needed: from the zero state `Random_GetBoundedUint` never returns for bound 3 -/
theorem boundedUint_stuck {sd : Seed} (h : ¬ sd.NonZero) : boundedUint 3#64 sd = none := by
  have hz : ∀ i, sd.s i = 0#64 := by
    unfold Seed.NonZero at h
    push Not at h
    exact h
  cases hb : boundedUint 3#64 sd with
  | none => rfl
  | some r =>
    obtain ⟨n, -, h2, -⟩ := first_of_boundedUint _ _ _ hb
    rw [zero_state_stuck sd hz n] at h2
    exact absurd h2 (by decide)

/-- the state after seeding with 1 is one to which these theorems apply -/
example : ∃ r sd', boundedUint 3#64 (seedInit 1#64) = some (r, sd') ∧ r < 3#64 :=
  boundedUint_terminates _ (by decide) (seedInit_nonZero (by decide))

example : ¬ ∀ k, outputAt (seedInit 1#64) (k + 2 ^ 64) = outputAt (seedInit 1#64) k := by
  intro h
  have h1 := outputAt_minimal (seedInit_nonZero (by decide)) h
  have h2 : ¬ period ∣ 2 ^ 64 := by decide +kernel
  exact h2 h1

end Verif.Random
