import Mathlib.NumberTheory.LucasPrimality
import Mathlib.Tactic.NormNum.Prime
import Mathlib.Data.Nat.Prime.Basic
import Mathlib.Algebra.BigOperators.Associated

/-!
# Primes with certificates

The prime factors of `2 ^ 1024 - 1`, the number of non-zero states of the generator in random.c.
Each is certified by the factors of its predecessor and a primitive root.
-/

set_option autoImplicit false

namespace Verif.PrimeCert

/-- `a ^ e` modulo `n` if `e < 2 ^ k` -/
def powMod (n a : ℕ) : ℕ → ℕ → ℕ
  | 0, _ => 1 % n
  | k + 1, e => powMod n a k (e / 2) * powMod n a k (e / 2) % n * (if e % 2 = 1 then a else 1) % n

theorem powMod_spec (n a k : ℕ) : ∀ e, e < 2 ^ k → powMod n a k e ≡ a ^ e [MOD n] := by
  induction k with
  | zero =>
    intro e he
    obtain rfl : e = 0 := by omega
    exact Nat.mod_modEq _ _
  | succ k ih =>
    intro e he
    have h := ih (e / 2) (by omega)
    unfold powMod
    refine (Nat.mod_modEq _ _).trans ?_
    refine (Nat.ModEq.mul_right _ ((Nat.mod_modEq _ _).trans (h.mul h))).trans ?_
    have : a ^ e = a ^ (e / 2) * a ^ (e / 2) * (if e % 2 = 1 then a else 1) := by
      rw [← pow_add]
      split
      · rw [← pow_succ]
        congr 1
        omega
      · rw [mul_one]
        congr 1
        omega
    rw [this]

/-- the conditions on a certificate that can be computed -/
def certOk (p a k : ℕ) (fs : List ℕ) : Bool :=
  Nat.blt 1 p && Nat.blt p (2 ^ k) && (fs.prod == p - 1) && (powMod p a k (p - 1) == 1) &&
    fs.all fun q => powMod p a k ((p - 1) / q) != 1

theorem prime_of_cert (p a k : ℕ) (fs : List ℕ) (hf : ∀ q ∈ fs, q.Prime)
    (h : certOk p a k fs = true) : p.Prime := by
  unfold certOk at h
  simp only [Bool.and_eq_true, Nat.blt_eq, beq_iff_eq, List.all_eq_true, bne_iff_ne, ne_eq] at h
  obtain ⟨⟨⟨⟨h1, h2⟩, h3⟩, h4⟩, h5⟩ := h
  have key : ∀ e < 2 ^ k, ((a : ZMod p) ^ e = 1 ↔ powMod p a k e = 1) := by
    intro e he
    have hs := powMod_spec p a k e he
    rw [← ZMod.natCast_eq_natCast_iff, Nat.cast_pow] at hs
    rw [← hs]
    have hlt : powMod p a k e < p := by
      cases k with
      | zero => exact Nat.mod_lt _ (by omega)
      | succ k => exact Nat.mod_lt _ (by omega)
    rw [← Nat.cast_one, ZMod.natCast_eq_natCast_iff, Nat.ModEq, Nat.mod_eq_of_lt hlt,
      Nat.mod_eq_of_lt h1]
  refine lucas_primality p (a : ZMod p) ((key _ (by omega)).2 h4) ?_
  intro q hq hd h
  rw [← h3] at hd
  obtain ⟨r, hr, hqr⟩ := (Prime.dvd_prod_iff hq.prime).1 hd
  have hqr : q = r := (Nat.prime_dvd_prime_iff_eq hq (hf r hr)).1 hqr
  subst hqr
  have hle : (p - 1) / q ≤ p - 1 := Nat.div_le_self _ _
  exact h5 q hr ((key _ (by omega)).1 h)

theorem prime_0 : Nat.Prime 67280421310721 := by
  refine prime_of_cert _ 3 46
    [2, 2, 2, 2, 2, 2, 2, 2, 5, 47, 373, 2998279] ?_ (by decide +kernel)
  simp only [List.forall_mem_cons, List.not_mem_nil, false_implies, implies_true, and_true]
  exact ⟨by norm_num, by norm_num, by norm_num, by norm_num, by norm_num, by norm_num,
      by norm_num, by norm_num, by norm_num, by norm_num, by norm_num, by norm_num⟩

theorem prime_1 : Nat.Prime 18533742247 := by
  refine prime_of_cert _ 6 35
    [2, 3, 3, 3, 181, 1896229] ?_ (by decide +kernel)
  simp only [List.forall_mem_cons, List.not_mem_nil, false_implies, implies_true, and_true]
  exact ⟨by norm_num, by norm_num, by norm_num, by norm_num, by norm_num, by norm_num⟩

theorem prime_2 : Nat.Prime 116503103764643 := by
  refine prime_of_cert _ 2 47
    [2, 7, 449, 18533742247] ?_ (by decide +kernel)
  simp only [List.forall_mem_cons, List.not_mem_nil, false_implies, implies_true, and_true]
  exact ⟨by norm_num, by norm_num, by norm_num, prime_1⟩

theorem prime_3 : Nat.Prime 59649589127497217 := by
  refine prime_of_cert _ 3 56
    [2, 2, 2, 2, 2, 2, 2, 2, 2, 116503103764643] ?_ (by decide +kernel)
  simp only [List.forall_mem_cons, List.not_mem_nil, false_implies, implies_true, and_true]
  exact ⟨by norm_num, by norm_num, by norm_num, by norm_num, by norm_num, by norm_num,
      by norm_num, by norm_num, by norm_num, prime_2⟩

theorem prime_4 : Nat.Prime 55515497 := by
  refine prime_of_cert _ 3 26
    [2, 2, 2, 6939437] ?_ (by decide +kernel)
  simp only [List.forall_mem_cons, List.not_mem_nil, false_implies, implies_true, and_true]
  exact ⟨by norm_num, by norm_num, by norm_num, by norm_num⟩

theorem prime_5 : Nat.Prime 733803839347 := by
  refine prime_of_cert _ 2 40
    [2, 3, 2203, 55515497] ?_ (by decide +kernel)
  simp only [List.forall_mem_cons, List.not_mem_nil, false_implies, implies_true, and_true]
  exact ⟨by norm_num, by norm_num, by norm_num, prime_4⟩

theorem prime_6 : Nat.Prime 5704689200685129054721 := by
  refine prime_of_cert _ 21 73
    [2, 2, 2, 2, 2, 2, 2, 2, 2, 3, 3, 3, 3, 3, 5, 12497, 733803839347] ?_ (by decide +kernel)
  simp only [List.forall_mem_cons, List.not_mem_nil, false_implies, implies_true, and_true]
  exact ⟨by norm_num, by norm_num, by norm_num, by norm_num, by norm_num, by norm_num,
      by norm_num, by norm_num, by norm_num, by norm_num, by norm_num, by norm_num, by norm_num,
      by norm_num, by norm_num, by norm_num, prime_5⟩

theorem prime_7 : Nat.Prime 3853149761 := by
  refine prime_of_cert _ 6 32
    [2, 2, 2, 2, 2, 2, 5, 719, 16747] ?_ (by decide +kernel)
  simp only [List.forall_mem_cons, List.not_mem_nil, false_implies, implies_true, and_true]
  exact ⟨by norm_num, by norm_num, by norm_num, by norm_num, by norm_num, by norm_num,
      by norm_num, by norm_num, by norm_num⟩

theorem prime_8 : Nat.Prime 1238926361552897 := by
  refine prime_of_cert _ 3 51
    [2, 2, 2, 2, 2, 2, 2, 2, 2, 2, 2, 157, 3853149761] ?_ (by decide +kernel)
  simp only [List.forall_mem_cons, List.not_mem_nil, false_implies, implies_true, and_true]
  exact ⟨by norm_num, by norm_num, by norm_num, by norm_num, by norm_num, by norm_num,
      by norm_num, by norm_num, by norm_num, by norm_num, by norm_num, by norm_num, prime_7⟩

theorem prime_9 : Nat.Prime 31618624099079 := by
  refine prime_of_cert _ 17 45
    [2, 1789, 10079, 876769] ?_ (by decide +kernel)
  simp only [List.forall_mem_cons, List.not_mem_nil, false_implies, implies_true, and_true]
  exact ⟨by norm_num, by norm_num, by norm_num, by norm_num⟩

theorem prime_10 : Nat.Prime 41723579 := by
  refine prime_of_cert _ 2 26
    [2, 13, 1604753] ?_ (by decide +kernel)
  simp only [List.forall_mem_cons, List.not_mem_nil, false_implies, implies_true, and_true]
  exact ⟨by norm_num, by norm_num, by norm_num⟩

theorem prime_11 : Nat.Prime 83447159 := by
  refine prime_of_cert _ 11 27
    [2, 41723579] ?_ (by decide +kernel)
  simp only [List.forall_mem_cons, List.not_mem_nil, false_implies, implies_true, and_true]
  exact ⟨by norm_num, prime_10⟩

theorem prime_12 : Nat.Prime 25353082741699 := by
  refine prime_of_cert _ 2 45
    [2, 3, 3, 16879, 83447159] ?_ (by decide +kernel)
  simp only [List.forall_mem_cons, List.not_mem_nil, false_implies, implies_true, and_true]
  exact ⟨by norm_num, by norm_num, by norm_num, by norm_num, prime_11⟩

theorem prime_13 : Nat.Prime 10608557 := by
  refine prime_of_cert _ 2 24
    [2, 2, 7, 223, 1699] ?_ (by decide +kernel)
  simp only [List.forall_mem_cons, List.not_mem_nil, false_implies, implies_true, and_true]
  exact ⟨by norm_num, by norm_num, by norm_num, by norm_num, by norm_num⟩

theorem prime_14 : Nat.Prime 10948139 := by
  refine prime_of_cert _ 2 24
    [2, 23, 29, 29, 283] ?_ (by decide +kernel)
  simp only [List.forall_mem_cons, List.not_mem_nil, false_implies, implies_true, and_true]
  exact ⟨by norm_num, by norm_num, by norm_num, by norm_num, by norm_num⟩

theorem prime_15 : Nat.Prime 6130957841 := by
  refine prime_of_cert _ 3 33
    [2, 2, 2, 2, 5, 7, 10948139] ?_ (by decide +kernel)
  simp only [List.forall_mem_cons, List.not_mem_nil, false_implies, implies_true, and_true]
  exact ⟨by norm_num, by norm_num, by norm_num, by norm_num, by norm_num, by norm_num, prime_14⟩

theorem prime_16 : Nat.Prime 220714482277 := by
  refine prime_of_cert _ 5 38
    [2, 2, 3, 3, 6130957841] ?_ (by decide +kernel)
  simp only [List.forall_mem_cons, List.not_mem_nil, false_implies, implies_true, and_true]
  exact ⟨by norm_num, by norm_num, by norm_num, by norm_num, prime_15⟩

theorem prime_17 : Nat.Prime 9243081088796207 := by
  refine prime_of_cert _ 5 54
    [2, 20939, 220714482277] ?_ (by decide +kernel)
  simp only [List.forall_mem_cons, List.not_mem_nil, false_implies, implies_true, and_true]
  exact ⟨by norm_num, by norm_num, prime_16⟩

theorem prime_18 : Nat.Prime 1057372046781162536274034354686893329625329 := by
  refine prime_of_cert _ 11 140
    [2, 2, 2, 2, 3, 8861, 10608557, 25353082741699, 9243081088796207] ?_ (by decide +kernel)
  simp only [List.forall_mem_cons, List.not_mem_nil, false_implies, implies_true, and_true]
  exact ⟨by norm_num, by norm_num, by norm_num, by norm_num, by norm_num, by norm_num, prime_13,
      prime_12, prime_17⟩

theorem prime_19 : Nat.Prime 93461639715357977769163558199606896584051237541638188580280321 := by
  refine prime_of_cert _ 43 206
    [2, 2, 2, 2, 2, 2, 2, 2, 2, 2, 2, 3, 5, 7, 13, 31618624099079,
      1057372046781162536274034354686893329625329] ?_ (by decide +kernel)
  simp only [List.forall_mem_cons, List.not_mem_nil, false_implies, implies_true, and_true]
  exact ⟨by norm_num, by norm_num, by norm_num, by norm_num, by norm_num, by norm_num,
      by norm_num, by norm_num, by norm_num, by norm_num, by norm_num, by norm_num, by norm_num,
      by norm_num, by norm_num, prime_9, prime_18⟩

theorem prime_20 : Nat.Prime 45177623 := by
  refine prime_of_cert _ 5 26
    [2, 7, 47, 68659] ?_ (by decide +kernel)
  simp only [List.forall_mem_cons, List.not_mem_nil, false_implies, implies_true, and_true]
  exact ⟨by norm_num, by norm_num, by norm_num, by norm_num⟩

theorem prime_21 : Nat.Prime 1084262953 := by
  refine prime_of_cert _ 5 31
    [2, 2, 2, 3, 45177623] ?_ (by decide +kernel)
  simp only [List.forall_mem_cons, List.not_mem_nil, false_implies, implies_true, and_true]
  exact ⟨by norm_num, by norm_num, by norm_num, by norm_num, prime_20⟩

theorem prime_22 : Nat.Prime 1143290228161321 := by
  refine prime_of_cert _ 26 51
    [2, 2, 2, 3, 3, 5, 29, 101, 1084262953] ?_ (by decide +kernel)
  simp only [List.forall_mem_cons, List.not_mem_nil, false_implies, implies_true, and_true]
  exact ⟨by norm_num, by norm_num, by norm_num, by norm_num, by norm_num, by norm_num,
      by norm_num, by norm_num, prime_21⟩

theorem prime_23 : Nat.Prime 82488781 := by
  refine prime_of_cert _ 2 27
    [2, 2, 3, 3, 3, 3, 3, 5, 11, 1543] ?_ (by decide +kernel)
  simp only [List.forall_mem_cons, List.not_mem_nil, false_implies, implies_true, and_true]
  exact ⟨by norm_num, by norm_num, by norm_num, by norm_num, by norm_num, by norm_num,
      by norm_num, by norm_num, by norm_num, by norm_num⟩

theorem prime_24 : Nat.Prime 72174509311 := by
  refine prime_of_cert _ 3 37
    [2, 3, 5, 11299, 212923] ?_ (by decide +kernel)
  simp only [List.forall_mem_cons, List.not_mem_nil, false_implies, implies_true, and_true]
  exact ⟨by norm_num, by norm_num, by norm_num, by norm_num, by norm_num⟩

theorem prime_25 : Nat.Prime 514601075709020317 := by
  refine prime_of_cert _ 5 59
    [2, 2, 3, 594163, 72174509311] ?_ (by decide +kernel)
  simp only [List.forall_mem_cons, List.not_mem_nil, false_implies, implies_true, and_true]
  exact ⟨by norm_num, by norm_num, by norm_num, by norm_num, prime_24⟩

theorem prime_26 : Nat.Prime 43226490359557706629 := by
  refine prime_of_cert _ 6 66
    [2, 2, 3, 7, 514601075709020317] ?_ (by decide +kernel)
  simp only [List.forall_mem_cons, List.not_mem_nil, false_implies, implies_true, and_true]
  exact ⟨by norm_num, by norm_num, by norm_num, by norm_num, prime_25⟩

theorem prime_27 : Nat.Prime 7455602825647884208337395736200454918783366342657 := by
  refine prime_of_cert _ 3 163
    [2, 2, 2, 2, 2, 2, 2, 2, 2, 2, 2, 19, 47, 82488781, 1143290228161321,
      43226490359557706629] ?_ (by decide +kernel)
  simp only [List.forall_mem_cons, List.not_mem_nil, false_implies, implies_true, and_true]
  exact ⟨by norm_num, by norm_num, by norm_num, by norm_num, by norm_num, by norm_num,
      by norm_num, by norm_num, by norm_num, by norm_num, by norm_num, by norm_num, by norm_num,
      prime_23, prime_22, prime_26⟩

theorem prime_28 : Nat.Prime 17338437577121 := by
  refine prime_of_cert _ 3 44
    [2, 2, 2, 2, 2, 5, 11, 1217, 8094811] ?_ (by decide +kernel)
  simp only [List.forall_mem_cons, List.not_mem_nil, false_implies, implies_true, and_true]
  exact ⟨by norm_num, by norm_num, by norm_num, by norm_num, by norm_num, by norm_num,
      by norm_num, by norm_num, by norm_num⟩

theorem prime_29 : Nat.Prime 37785317 := by
  refine prime_of_cert _ 2 26
    [2, 2, 9446329] ?_ (by decide +kernel)
  simp only [List.forall_mem_cons, List.not_mem_nil, false_implies, implies_true, and_true]
  exact ⟨by norm_num, by norm_num, by norm_num⟩

theorem prime_30 : Nat.Prime 7871739519977 := by
  refine prime_of_cert _ 3 43
    [2, 2, 2, 26041, 37785317] ?_ (by decide +kernel)
  simp only [List.forall_mem_cons, List.not_mem_nil, false_implies, implies_true, and_true]
  exact ⟨by norm_num, by norm_num, by norm_num, by norm_num, prime_29⟩

theorem prime_31 : Nat.Prime 1392542208042011209 := by
  refine prime_of_cert _ 11 61
    [2, 2, 2, 3, 3, 3, 3, 3, 7, 13, 7871739519977] ?_ (by decide +kernel)
  simp only [List.forall_mem_cons, List.not_mem_nil, false_implies, implies_true, and_true]
  exact ⟨by norm_num, by norm_num, by norm_num, by norm_num, by norm_num, by norm_num,
      by norm_num, by norm_num, by norm_num, by norm_num, prime_30⟩

theorem prime_32 : Nat.Prime 12088361983 := by
  refine prime_of_cert _ 6 34
    [2, 3, 19, 37, 2865899] ?_ (by decide +kernel)
  simp only [List.forall_mem_cons, List.not_mem_nil, false_implies, implies_true, and_true]
  exact ⟨by norm_num, by norm_num, by norm_num, by norm_num, by norm_num⟩

theorem prime_33 : Nat.Prime 41856465617 := by
  refine prime_of_cert _ 3 36
    [2, 2, 2, 2, 7, 7, 7, 487, 15661] ?_ (by decide +kernel)
  simp only [List.forall_mem_cons, List.not_mem_nil, false_implies, implies_true, and_true]
  exact ⟨by norm_num, by norm_num, by norm_num, by norm_num, by norm_num, by norm_num,
      by norm_num, by norm_num, by norm_num⟩

theorem prime_34 : Nat.Prime 47967509597083 := by
  refine prime_of_cert _ 2 46
    [2, 3, 191, 41856465617] ?_ (by decide +kernel)
  simp only [List.forall_mem_cons, List.not_mem_nil, false_implies, implies_true, and_true]
  exact ⟨by norm_num, by norm_num, by norm_num, prime_33⟩

theorem prime_35 : Nat.Prime 53531740710344629 := by
  refine prime_of_cert _ 2 56
    [2, 2, 3, 3, 31, 47967509597083] ?_ (by decide +kernel)
  simp only [List.forall_mem_cons, List.not_mem_nil, false_implies, implies_true, and_true]
  exact ⟨by norm_num, by norm_num, by norm_num, by norm_num, by norm_num, prime_34⟩

theorem prime_36 : Nat.Prime 3088888502468305782559 := by
  refine prime_of_cert _ 3 72
    [2, 3, 59, 163, 53531740710344629] ?_ (by decide +kernel)
  simp only [List.forall_mem_cons, List.not_mem_nil, false_implies, implies_true, and_true]
  exact ⟨by norm_num, by norm_num, by norm_num, by norm_num, prime_35⟩

theorem prime_37 : Nat.Prime 16975143302271505426897585653131126520182328037821729720833840187223 := by
  refine prime_of_cert _ 3 224
    [2, 3, 3, 3, 13, 1531, 173897, 1746751, 12088361983, 1392542208042011209,
      3088888502468305782559] ?_ (by decide +kernel)
  simp only [List.forall_mem_cons, List.not_mem_nil, false_implies, implies_true, and_true]
  exact ⟨by norm_num, by norm_num, by norm_num, by norm_num, by norm_num, by norm_num,
      by norm_num, by norm_num, prime_32, prime_31, prime_36⟩

theorem prime_38 : Nat.Prime 40644377 := by
  refine prime_of_cert _ 3 26
    [2, 2, 2, 71, 163, 439] ?_ (by decide +kernel)
  simp only [List.forall_mem_cons, List.not_mem_nil, false_implies, implies_true, and_true]
  exact ⟨by norm_num, by norm_num, by norm_num, by norm_num, by norm_num, by norm_num⟩

theorem prime_39 : Nat.Prime 741640062627530801524787141901937474059940781097519023905821316144415759504705008092818711693940737 := by
  refine prime_of_cert _ 3 329
    [2, 2, 2, 2, 2, 2, 2, 2, 2, 2, 2, 1129, 26813, 40644377, 17338437577121,
      16975143302271505426897585653131126520182328037821729720833840187223] ?_ (by decide +kernel)
  simp only [List.forall_mem_cons, List.not_mem_nil, false_implies, implies_true, and_true]
  exact ⟨by norm_num, by norm_num, by norm_num, by norm_num, by norm_num, by norm_num,
      by norm_num, by norm_num, by norm_num, by norm_num, by norm_num, by norm_num, by norm_num,
      prime_38, prime_28, prime_37⟩

/-- the number of non-zero states -/
def period : ℕ := 2 ^ 1024 - 1

theorem period_lt : period < 2 ^ 1024 := by decide +kernel

theorem period_pos : 0 < period := by decide +kernel

/-- the prime factors of `2 ^ 1024 - 1` -/
def factors : List ℕ :=
  [3,
   5,
   17,
   257,
   65537,
   641,
   6700417,
   274177,
   67280421310721,
   59649589127497217,
   5704689200685129054721,
   1238926361552897,
   93461639715357977769163558199606896584051237541638188580280321,
   2424833,
   7455602825647884208337395736200454918783366342657,
   741640062627530801524787141901937474059940781097519023905821316144415759504705008092818711693940737]

theorem factors_prime : ∀ q ∈ factors, q.Prime := by
  unfold factors
  simp only [List.forall_mem_cons, List.not_mem_nil, false_implies, implies_true, and_true]
  exact ⟨by norm_num, by norm_num, by norm_num, by norm_num, by norm_num, by norm_num,
      by norm_num, by norm_num, prime_0, prime_3, prime_6, prime_8, prime_19, by norm_num,
      prime_27, prime_39⟩

theorem factors_prod : factors.prod = period := by decide +kernel

theorem dvd_factors {q : ℕ} (hq : q.Prime) (h : q ∣ period) : q ∈ factors := by
  rw [← factors_prod] at h
  obtain ⟨r, hr, hqr⟩ := (Prime.dvd_prod_iff hq.prime).1 h
  rw [(Nat.prime_dvd_prime_iff_eq hq (factors_prime r hr)).1 hqr]
  exact hr

end Verif.PrimeCert
