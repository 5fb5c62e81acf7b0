import Verif.Lemmas.CharPoly
import Mathlib.Algebra.Polynomial.AlgebraMap
import Mathlib.LinearAlgebra.Pi
import Mathlib.Dynamics.PeriodicPts.Defs

/-!
# The recurrence of the generator as a linear map

Words are vectors over the field with two elements.  The characteristic polynomial annihilates every
solution of the recurrence, so non-zero solutions have period `2 ^ 1024 - 1`.
-/

set_option autoImplicit false

namespace Verif.Xorshift

open Polynomial Verif.CharPoly Verif.PrimeCert

/-- a word as a vector of bits -/
abbrev Word := Fin 64 → ZMod 2

/-- shift to higher bits -/
def shl (k : ℕ) : Word →ₗ[ZMod 2] Word where
  toFun v := fun j => if k ≤ j.val then v ⟨j - k, by omega⟩ else 0
  map_add' a b := by
    funext j
    simp only [Pi.add_apply]
    split <;> simp
  map_smul' c a := by
    funext j
    simp only [Pi.smul_apply, RingHom.id_apply]
    split <;> simp

/-- shift to lower bits -/
def shr (k : ℕ) : Word →ₗ[ZMod 2] Word where
  toFun v := fun j => if h : j.val + k < 64 then v ⟨j + k, h⟩ else 0
  map_add' a b := by
    funext j
    simp only [Pi.add_apply]
    split <;> simp
  map_smul' c a := by
    funext j
    simp only [Pi.smul_apply, RingHom.id_apply]
    split <;> simp

/-- next word of the recurrence, from the latest and from the oldest of sixteen words -/
def next (a b : Word) : Word :=
  (a + shr 30 a) + ((b + shl 31 b) + shr 11 (b + shl 31 b))

theorem next_add (a a' b b' : Word) : next (a + a') (b + b') = next a b + next a' b' := by
  unfold next
  simp only [map_add]
  abel

theorem next_smul (c : ZMod 2) (a b : Word) : next (c • a) (c • b) = c • next a b := by
  unfold next
  simp only [map_smul, map_add, smul_add]

/-- solutions of the recurrence -/
def Sol : Submodule (ZMod 2) (ℕ → Word) where
  carrier := {x | ∀ k, x (k + 16) = next (x (k + 15)) (x k)}
  add_mem' {x y} hx hy k := by
    show x _ + y _ = next (x _ + y _) (x _ + y _)
    rw [hx k, hy k, next_add]
  zero_mem' k := by
    show (0 : Word) = next 0 0
    simp [next]
  smul_mem' c x hx k := by
    show c • x _ = next (c • x _) (c • x _)
    rw [hx k, next_smul]

theorem mem_Sol {x : ℕ → Word} : x ∈ Sol ↔ ∀ k, x (k + 16) = next (x (k + 15)) (x k) := Iff.rfl

/-- shift of a sequence -/
def S : Module.End (ZMod 2) (ℕ → Word) := LinearMap.funLeft (ZMod 2) Word (· + 1)

theorem S_pow (e : ℕ) (x : ℕ → Word) : (S ^ e) x = fun k => x (k + e) := by
  induction e generalizing x with
  | zero => rfl
  | succ e ih =>
    rw [pow_succ, Module.End.mul_apply, ih]
    funext k
    show x (k + e + 1) = x (k + (e + 1))
    rfl

theorem S_pow_mem {x : ℕ → Word} (hx : x ∈ Sol) (e : ℕ) : (S ^ e) x ∈ Sol := by
  rw [S_pow]
  intro k
  have := hx (k + e)
  show x (k + 16 + e) = next (x (k + 15 + e)) (x (k + e))
  rw [show k + 16 + e = k + e + 16 by ring, show k + 15 + e = k + e + 15 by ring]
  exact this

/-- a solution is determined by sixteen words -/
theorem Sol_ext {x y : ℕ → Word} (hx : x ∈ Sol) (hy : y ∈ Sol) (h : ∀ i < 16, x i = y i) : x = y := by
  funext k
  induction k using Nat.strong_induction_on with
  | _ k ih =>
    rcases Nat.lt_or_ge k 16 with hk | hk
    · exact h k hk
    · obtain ⟨m, rfl⟩ : ∃ m, k = m + 16 := ⟨k - 16, by omega⟩
      rw [hx m, hy m, ih (m + 15) (by omega), ih m (by omega)]

theorem aeval_ofBits (a d : ℕ) (x : ℕ → Word) (k : ℕ) :
    aeval S (ofBits a d) x k = ∑ i ∈ Finset.range d, if a.testBit i then x (k + i) else 0 := by
  unfold ofBits
  rw [map_sum, LinearMap.sum_apply, Finset.sum_apply]
  refine Finset.sum_congr rfl fun i _ => ?_
  split
  · rw [map_pow, aeval_X, S_pow]
  · rw [map_zero]
    rfl

/-! ## Sixty-four solutions at once -/

/-- a bit as an element of the field -/
def bit (b : Bool) : ZMod 2 := if b then 1 else 0

theorem bit_xor (a b : Bool) : bit (a ^^ b) = bit a + bit b := by cases a <;> cases b <;> rfl

/-- word `b` of the 4096 bits in `A` -/
def word (A b : ℕ) : Word := fun j => bit (A.testBit (64 * b + j))

theorem word_xor (A B b : ℕ) : word (A ^^^ B) b = word A b + word B b := by
  funext j
  simp only [word, Nat.testBit_xor, bit_xor, Pi.add_apply]

/-- the word `w` sixty-four times -/
def rep64 (w : ℕ) : ℕ := w * ((2 ^ 4096 - 1) / (2 ^ 64 - 1))

theorem rep64_shl : ∀ b j : Fin 64,
    (rep64 (2 ^ 64 - 2 ^ 31)).testBit (64 * b.val + j.val) = decide (31 ≤ j.val) := by decide +kernel

theorem rep64_shr11 : ∀ b j : Fin 64,
    (rep64 (2 ^ 53 - 1)).testBit (64 * b.val + j.val) = decide (j.val + 11 < 64) := by decide +kernel

theorem rep64_shr30 : ∀ b j : Fin 64,
    (rep64 (2 ^ 34 - 1)).testBit (64 * b.val + j.val) = decide (j.val + 30 < 64) := by decide +kernel

theorem word_shl (A b : ℕ) (hb : b < 64) :
    word ((A <<< 31) &&& rep64 (2 ^ 64 - 2 ^ 31)) b = shl 31 (word A b) := by
  funext j
  have := rep64_shl ⟨b, hb⟩ j
  simp only at this
  simp only [word, Nat.testBit_and, this, shl, LinearMap.coe_mk, AddHom.coe_mk, Nat.testBit_shiftLeft]
  by_cases h : 31 ≤ j.val
  · rw [if_pos h]
    simp only [h, decide_true, Bool.and_true]
    rw [show decide (64 * b + j.val ≥ 31) = true from decide_eq_true (by omega), Bool.true_and,
      show 64 * b + j.val - 31 = 64 * b + (j.val - 31) by omega]
  · rw [if_neg h]
    simp [h, bit]

theorem word_shr (A b k : ℕ) (hb : b < 64) (m : ℕ)
    (hm : ∀ b j : Fin 64, m.testBit (64 * b.val + j.val) = decide (j.val + k < 64)) :
    word ((A >>> k) &&& m) b = shr k (word A b) := by
  funext j
  have := hm ⟨b, hb⟩ j
  simp only at this
  simp only [word, Nat.testBit_and, this, shr, LinearMap.coe_mk, AddHom.coe_mk, Nat.testBit_shiftRight]
  by_cases h : j.val + k < 64
  · rw [dif_pos h]
    simp only [h, decide_true, Bool.and_true]
    rw [show k + (64 * b + j.val) = 64 * b + (j.val + k) by omega]
  · rw [dif_neg h]
    simp [h, bit]

/-- next words of sixty-four sequences -/
def pnext (A B : ℕ) : ℕ :=
  let A' := A ^^^ ((A >>> 30) &&& rep64 (2 ^ 34 - 1))
  let B' := B ^^^ ((B <<< 31) &&& rep64 (2 ^ 64 - 2 ^ 31))
  A' ^^^ (B' ^^^ ((B' >>> 11) &&& rep64 (2 ^ 53 - 1)))

theorem word_pnext (A B b : ℕ) (hb : b < 64) :
    word (pnext A B) b = next (word A b) (word B b) := by
  unfold pnext next
  simp only [word_xor, word_shl _ _ hb, word_shr _ _ _ hb _ rep64_shr11,
    word_shr _ _ _ hb _ rep64_shr30]

/-- all sixteen words of sixty-four sequences, one step -/
def wstep (W : ℕ) : ℕ :=
  (W >>> 4096) ^^^ ((pnext (W >>> 61440) (W % 2 ^ 4096) % 2 ^ 4096) <<< 61440)

/-- word `b` of group `i` -/
def slot (W i b : ℕ) : Word := word (W >>> (4096 * i)) b

theorem word_mod (A b : ℕ) (hb : b < 64) : word (A % 2 ^ 4096) b = word A b := by
  funext j
  simp only [word, Nat.testBit_mod_two_pow]
  rw [show decide (64 * b + j.val < 4096) = true from decide_eq_true (by omega), Bool.true_and]

theorem shift_lt (v : ℕ) {a b c : ℕ} (h : c = a + b) : (v % 2 ^ a) <<< b < 2 ^ c := by
  have hv : v % 2 ^ a < 2 ^ a := Nat.mod_lt _ (Nat.two_pow_pos _)
  rw [Nat.shiftLeft_eq, h, pow_add]
  exact Nat.mul_lt_mul_of_pos_right hv (Nat.two_pow_pos _)

set_option exponentiation.threshold 66000 in
theorem wstep_lt {W : ℕ} (h : W < 2 ^ 65536) : wstep W < 2 ^ 65536 := by
  unfold wstep
  refine Nat.xor_lt_two_pow ?_ ?_
  · exact lt_of_le_of_lt (Nat.shiftRight_le _ _) h
  · exact shift_lt _ (by norm_num)

set_option exponentiation.threshold 66000 in
theorem slot_wstep {W : ℕ} (h : W < 2 ^ 65536) {i b : ℕ} (hi : i < 16) (hb : b < 64) :
    slot (wstep W) i b = if i < 15 then slot W (i + 1) b else next (slot W 15 b) (slot W 0 b) := by
  have hx : slot (wstep W) i b = slot W (i + 1) b
      + word (((pnext (W >>> 61440) (W % 2 ^ 4096) % 2 ^ 4096) <<< 61440) >>> (4096 * i)) b := by
    unfold slot wstep
    rw [Nat.shiftRight_xor_distrib, word_xor, ← Nat.shiftRight_add]
    congr 3
    ring
  rw [hx]
  by_cases hi2 : i < 15
  · rw [if_pos hi2]
    convert add_zero _
    funext j
    simp only [word, Nat.testBit_shiftRight, Nat.testBit_shiftLeft]
    rw [show decide (4096 * i + (64 * b + j.val) ≥ 61440) = false from decide_eq_false (by omega)]
    rfl
  · obtain rfl : i = 15 := by omega
    rw [if_neg hi2]
    have h0 : slot W (15 + 1) b = 0 := by
      funext j
      simp only [slot, word, Nat.testBit_shiftRight]
      rw [Nat.testBit_lt_two_pow (lt_of_lt_of_le h (Nat.pow_le_pow_right (by decide) (by omega)))]
      rfl
    rw [h0, zero_add]
    have hs : ∀ v : ℕ, word ((v <<< 61440) >>> (4096 * 15)) b = word v b := by
      intro v
      rw [show 4096 * 15 = 61440 by norm_num, Nat.shiftLeft_shiftRight]
    rw [hs, word_mod _ _ hb, word_pnext _ _ _ hb, word_mod _ _ hb]
    rfl

/-- the sequences after `k` steps -/
def wseq (W : ℕ) : ℕ → ℕ
  | 0 => W
  | k + 1 => wstep (wseq W k)

theorem wseq_lt {W : ℕ} (h : W < 2 ^ 65536) (k : ℕ) : wseq W k < 2 ^ 65536 := by
  induction k with
  | zero => exact h
  | succ k ih => exact wstep_lt ih

/-- one of the sequences -/
def zseq (W b : ℕ) : ℕ → Word := fun k => slot (wseq W k) 0 b

theorem slot_wseq {W b : ℕ} (h : W < 2 ^ 65536) (hb : b < 64) (k i : ℕ) (hi : i < 16) :
    slot (wseq W k) i b = zseq W b (k + i) := by
  induction i generalizing k with
  | zero => rfl
  | succ i ih =>
    have := slot_wstep (wseq_lt h k) (i := i) (by omega) hb
    rw [if_pos (by omega)] at this
    rw [← this]
    have h2 := ih (k + 1) (by omega)
    rw [show k + (i + 1) = k + 1 + i by ring]
    exact h2

theorem zseq_mem {W b : ℕ} (h : W < 2 ^ 65536) (hb : b < 64) : zseq W b ∈ Sol := by
  intro k
  have h1 := slot_wseq h hb (k + 1) 15 (by omega)
  have h2 := slot_wstep (wseq_lt h k) (i := 15) (by omega) hb
  rw [if_neg (by omega), slot_wseq h hb k 15 (by omega), slot_wseq h hb k 0 (by omega)] at h2
  rw [show k + 16 = k + 1 + 15 by ring, ← h1]
  exact h2

/-- sum of the states selected by the bits of `P` from `k` on -/
def wsum (P : ℕ) : ℕ → ℕ → ℕ → ℕ → ℕ
  | 0, _, _, acc => acc
  | n + 1, k, W, acc => wsum P n (k + 1) (wstep W) (bif P.testBit k then acc ^^^ W else acc)

theorem slot_xor (A B i b : ℕ) : slot (A ^^^ B) i b = slot A i b + slot B i b := by
  unfold slot
  rw [Nat.shiftRight_xor_distrib, word_xor]

theorem slot_wsum (P n i b : ℕ) : ∀ k W acc, slot (wsum P n k W acc) i b = slot acc i b
    + ∑ j ∈ Finset.range n, if P.testBit (k + j) then slot (wseq W j) i b else 0 := by
  induction n with
  | zero => intro k W acc; simp [wsum]
  | succ n ih =>
    intro k W acc
    have hw : ∀ j, wseq (wstep W) j = wseq W (j + 1) := by
      intro j
      induction j with
      | zero => rfl
      | succ j ih => rw [wseq, ih]; rfl
    rw [wsum, ih, Finset.sum_range_succ']
    simp only [hw, add_zero]
    rw [show (∑ j ∈ Finset.range n, if P.testBit (k + 1 + j) then slot (wseq W (j + 1)) i b else 0)
        = ∑ j ∈ Finset.range n, if P.testBit (k + (j + 1)) then slot (wseq W (j + 1)) i b else 0 from
      Finset.sum_congr rfl fun j _ => by rw [show k + 1 + j = k + (j + 1) by ring]]
    cases P.testBit k with
    | false => simp
    | true =>
      simp only [cond_true, slot_xor, if_true, wseq]
      abel

/-- unit vectors in the latest word -/
def unit0 : ℕ := (List.range 64).foldl (fun a b => a + 2 ^ (65 * b)) 0

theorem unit0_bits : ∀ b j : Fin 64, unit0.testBit (64 * b.val + j.val) = decide (j = b) := by
  decide +kernel

def W0 : ℕ := unit0 <<< 61440

theorem W0_lt : W0 < 2 ^ 65536 := by decide +kernel

theorem slot_W0 {i b : ℕ} (hi : i < 16) (hb : b < 64) :
    slot W0 i b = if i = 15 then Pi.single ⟨b, hb⟩ 1 else 0 := by
  unfold slot W0
  by_cases h : i = 15
  · subst h
    rw [if_pos rfl, show 4096 * 15 = 61440 by norm_num, Nat.shiftLeft_shiftRight]
    funext j
    have := unit0_bits ⟨b, hb⟩ j
    simp only at this
    rw [Pi.single_apply]
    simp only [word, this, bit, decide_eq_true_eq]
  · rw [if_neg h]
    funext j
    simp only [word, Nat.testBit_shiftRight, Nat.testBit_shiftLeft]
    rw [show decide (4096 * i + (64 * b + j.val) ≥ 61440) = false from decide_eq_false (by omega)]
    rfl

/-- the computation that shows that the polynomial annihilates sixty-four solutions -/
theorem wsum_zero : wsum charBits 1025 0 W0 0 = 0 := by decide +kernel

theorem char_zseq {b : ℕ} (hb : b < 64) : aeval S charPoly (zseq W0 b) = 0 := by
  have hmem : aeval S charPoly (zseq W0 b) ∈ Sol := by
    intro k
    have hz := zseq_mem W0_lt hb
    unfold charPoly
    rw [aeval_ofBits, aeval_ofBits, aeval_ofBits]
    have : ∀ d : ℕ, (∑ i ∈ Finset.range d, if charBits.testBit i then zseq W0 b (k + 16 + i) else 0)
        = next (∑ i ∈ Finset.range d, if charBits.testBit i then zseq W0 b (k + 15 + i) else 0)
          (∑ i ∈ Finset.range d, if charBits.testBit i then zseq W0 b (k + i) else 0) := by
      intro d
      induction d with
      | zero => simp [next]
      | succ d ih =>
        rw [Finset.sum_range_succ, Finset.sum_range_succ, Finset.sum_range_succ, next_add, ← ih]
        congr 1
        split
        · rw [show k + 16 + d = k + d + 16 by ring, show k + 15 + d = k + d + 15 by ring]
          exact hz _
        · simp [next]
    exact this 1025
  refine Sol_ext hmem Sol.zero_mem fun i hi => ?_
  unfold charPoly
  rw [aeval_ofBits]
  have h := slot_wsum charBits 1025 i b 0 W0 0
  rw [wsum_zero] at h
  have h0 : slot 0 i b = 0 := by
    funext j
    simp [slot, word, bit]
  rw [h0, zero_add] at h
  rw [Pi.zero_apply]
  refine Eq.trans ?_ h.symm
  refine Finset.sum_congr rfl fun j _ => ?_
  rw [slot_wseq W0_lt hb j i hi, zero_add, add_comm i j]

/-- the characteristic polynomial annihilates all solutions -/
theorem char_Sol {x : ℕ → Word} (hx : x ∈ Sol) : aeval S charPoly x = 0 := by
  have key : ∀ n m, m + n = 16 → ∀ x ∈ Sol, (∀ i < m, x i = 0) → aeval S charPoly x = 0 := by
    intro n
    induction n with
    | zero =>
      intro m hm x hx h
      have : x = 0 := Sol_ext hx Sol.zero_mem fun i hi => h i (by omega)
      rw [this, map_zero]
    | succ n ih =>
      intro m hm x hx h
      let y : ℕ → Word := ∑ b : Fin 64, x m b • (S ^ n) (zseq W0 b.val)
      have hy : y ∈ Sol := Sol.sum_mem fun b _ => Sol.smul_mem _ (S_pow_mem (zseq_mem W0_lt b.2) n)
      have hval : ∀ i ≤ m, y i = if i = m then x m else 0 := by
        intro i hi
        have hz : ∀ b : Fin 64, (S ^ n) (zseq W0 b.val) i = if i = m then Pi.single b 1 else 0 := by
          intro b
          rw [S_pow]
          have h1 := slot_wseq W0_lt b.2 0 (i + n) (by omega)
          rw [zero_add] at h1
          show zseq W0 b.val (i + n) = _
          rw [← h1]
          show slot W0 (i + n) b.val = _
          rw [slot_W0 (by omega) b.2]
          by_cases him : i = m
          · rw [if_pos him, if_pos (by omega)]
          · rw [if_neg him, if_neg (by omega)]
        show (∑ b : Fin 64, x m b • (S ^ n) (zseq W0 b.val)) i = _
        rw [Finset.sum_apply]
        simp only [Pi.smul_apply, hz]
        by_cases him : i = m
        · simp only [him, if_true]
          funext j
          rw [Finset.sum_apply]
          simp [Pi.single_apply]
        · simp [him]
      have hyz : aeval S charPoly y = 0 := by
        show aeval S charPoly (∑ b : Fin 64, x m b • (S ^ n) (zseq W0 b.val)) = 0
        rw [map_sum]
        refine Finset.sum_eq_zero fun b _ => ?_
        rw [map_smul]
        have : aeval S charPoly ((S ^ n) (zseq W0 b.val)) = (S ^ n) (aeval S charPoly (zseq W0 b.val)) := by
          have hc : aeval S (charPoly * X ^ n) = aeval S (X ^ n * charPoly) := by rw [mul_comm]
          rw [map_mul, map_mul, map_pow, aeval_X] at hc
          exact congrArg (fun f : Module.End (ZMod 2) (ℕ → Word) => f (zseq W0 b.val)) hc
        rw [this, char_zseq b.2, map_zero, smul_zero]
      have hxy := ih (m + 1) (by omega) (x - y) (Sol.sub_mem hx hy) (fun i hi => by
        show x i - y i = 0
        rw [hval i (by omega)]
        by_cases him : i = m
        · rw [if_pos him, him, sub_self]
        · rw [if_neg him, h i (by omega), sub_zero])
      have : aeval S charPoly x = aeval S charPoly (x - y) + aeval S charPoly y := by
        rw [map_sub, sub_add_cancel]
      rw [this, hxy, hyz, add_zero]
  exact key 16 0 rfl x hx (fun i hi => absurd hi (Nat.not_lt_zero _))

/-! ## The period -/

theorem dvd_Sol {x : ℕ → Word} (hx : x ∈ Sol) {F : (ZMod 2)[X]} (h : charPoly ∣ F) :
    aeval S F x = 0 := by
  have hz := char_Sol hx
  generalize charPoly = P at h hz
  obtain ⟨G, rfl⟩ := h
  rw [mul_comm, map_mul, Module.End.mul_apply, hz, map_zero]

/-- every solution repeats after `2 ^ 1024 - 1` words -/
theorem Sol_period {x : ℕ → Word} (hx : x ∈ Sol) (k : ℕ) : x (k + period) = x k := by
  have h := dvd_Sol hx X_period
  generalize period = n at h ⊢
  rw [map_sub, map_pow, aeval_X, map_one, LinearMap.sub_apply, sub_eq_zero] at h
  rw [S_pow] at h
  exact congrFun h k

/-- no non-zero solution repeats earlier -/
theorem Sol_minimal {x : ℕ → Word} (hx : x ∈ Sol) (h0 : x ≠ 0) {t : ℕ}
    (ht : ∀ k, x (k + t) = x k) : period ∣ t := by
  have hper := Sol_period hx
  have hprim := fun q (hq : q ∈ factors) => X_primitive hq
  have hfac := fun q (hq : q.Prime) (h : q ∣ period) => PrimeCert.dvd_factors hq h
  have hn0 : period ≠ 0 := period_pos.ne'
  generalize period = n at *
  -- periods are the multiples of the smallest one
  have hg : ∀ k, x (k + Nat.gcd t n) = x k := by
    have hmul : ∀ a p : ℕ, (∀ k, x (k + p) = x k) → ∀ k, x (k + a * p) = x k := by
      intro a p hp
      induction a with
      | zero => intro k; rw [zero_mul, add_zero]
      | succ a ih => intro k; rw [Nat.succ_mul, ← add_assoc, hp, ih]
    have hmod : ∀ p q : ℕ, (∀ k, x (k + p) = x k) → (∀ k, x (k + q) = x k) →
        ∀ k, x (k + Nat.gcd p q) = x k := by
      intro p q
      induction p, q using Nat.gcd.induction with
      | H0 q => intro _ hq; rw [Nat.gcd_zero_left]; exact hq
      | H1 p q hp ih =>
        intro h1 h2
        rw [Nat.gcd_rec]
        refine ih ?_ h1
        intro k
        have h3 := hmul (q / p) p h1 (k + q % p)
        rw [add_assoc, Nat.mul_comm, Nat.mod_add_div, h2] at h3
        exact h3.symm
    exact hmod t n ht hper
  have hdvd : Nat.gcd t n ∣ n := Nat.gcd_dvd_right _ _
  by_contra hnd
  have hne : Nat.gcd t n ≠ n := fun h => hnd (h ▸ Nat.gcd_dvd_left _ _)
  obtain ⟨c, hc⟩ := hdvd
  have hc1 : c ≠ 1 := by
    rintro rfl
    rw [mul_one] at hc
    exact hne hc.symm
  obtain ⟨q, hq, hqc⟩ := Nat.exists_prime_and_dvd hc1
  have hqn : q ∣ n := hqc.trans ⟨_, by rw [mul_comm]; exact hc⟩
  obtain ⟨A, hA⟩ := hprim q (hfac q hq hqn)
  have hpq : ∀ k, x (k + n / q) = x k := by
    obtain ⟨e, rfl⟩ := hqc
    have : n / q = e * Nat.gcd t n := by
      refine Nat.div_eq_of_eq_mul_right hq.pos ?_
      conv_lhs => rw [hc]
      ring
    rw [this]
    intro k
    generalize Nat.gcd t n = g at hg
    clear hc hc1 hA this hqn
    induction e generalizing k with
    | zero => rw [zero_mul, add_zero]
    | succ e ih => rw [Nat.succ_mul, ← add_assoc, hg, ih]
  have h1 : aeval S ((X : (ZMod 2)[X]) ^ (n / q) - 1) x = 0 := by
    rw [map_sub, map_pow, aeval_X, map_one, LinearMap.sub_apply, S_pow, sub_eq_zero]
    funext k
    exact hpq k
  have h2 := dvd_Sol hx hA
  rw [map_sub, map_mul, map_one, LinearMap.sub_apply, Module.End.mul_apply, h1, map_zero, zero_sub,
    neg_eq_zero] at h2
  exact h0 h2

end Verif.Xorshift
