import Verif.Model.Decimal
import Verif.Props.ParamsInterp
import Verif.Props.Random
import Mathlib.Tactic.FieldSimp
import Mathlib.Tactic.NormNum
import Mathlib.Tactic.Push

set_option autoImplicit false

/-!
# C102: numbers in parameter files

What the words of a parameter file mean as numbers, independently of the scanning functions of the model: a number is
described by its sign and its digits, and the theorems compute what the conversions make of the text.
-/

namespace Verif.Decimal

open Verif.Params

/-! ## Texts of numbers -/

/-- all characters are digits -/
def Digits (s : List UInt8) : Prop := ∀ c ∈ s, isDigit c = true

/-- specification: text of an optional sign (`some true` is a minus) -/
def signText : Option Bool → List UInt8
  | none => []
  | some true => [45]
  | some false => [43]

/-- specification: text of an optional decimal point with its digits -/
def pointText : Option (List UInt8) → List UInt8
  | none => []
  | some fp => 46 :: fp

/-- specification: text of an optional exponent: sign and digits after the letter `e` or `E` -/
def expText : Option (Bool × Option Bool × List UInt8) → List UInt8
  | none => []
  | some (cap, o, ds) => (if cap then 69 else 101) :: (signText o ++ ds)

/-- specification: value of the exponent -/
def expVal : Option (Bool × Option Bool × List UInt8) → ℤ
  | none => 0
  | some (_, o, ds) => if o = some true then -(digitsVal ds : ℤ) else digitsVal ds

theorem scan (ds tail : List UInt8) (hd : Digits ds) (ht : ∀ c ∈ tail.head?, isDigit c = false) :
    (ds ++ tail).takeWhile isDigit = ds ∧ (ds ++ tail).dropWhile isDigit = tail := by
  constructor
  · rw [List.takeWhile_append_of_pos hd]
    cases tail with
    | nil => simp
    | cons c cs => simp [ht c (by simp)]
  · rw [List.dropWhile_append_of_pos hd]
    cases tail with
    | nil => simp
    | cons c cs => simp [ht c (by simp)]

theorem isDigit_iff (c : UInt8) : isDigit c = true ↔ 48 ≤ c.toNat ∧ c.toNat ≤ 57 := by
  simp [isDigit, UInt8.le_iff_toNat_le]

/-- a sign is recognised before anything that is not a sign itself -/
theorem sign_text (o : Option Bool) (s : List UInt8) (h : ∀ c ∈ s.head?, c ≠ 45 ∧ c ≠ 43) :
    sign (signText o ++ s) = (decide (o = some true), s) := by
  match o with
  | none =>
    cases s with
    | nil => rfl
    | cons c cs =>
      obtain ⟨h1, h2⟩ := h c (by simp)
      simp [signText, sign, h1, h2]
  | some true => simp [signText, sign]
  | some false => simp [signText, sign]

theorem skip (ws s : List UInt8) (hw : ∀ c ∈ ws, isSpace c = true) (hs : ∀ c ∈ s.head?, isSpace c = false) :
    (ws ++ s).dropWhile isSpace = s := by
  rw [List.dropWhile_append_of_pos hw]
  cases s with
  | nil => simp
  | cons c cs => simp [hs c (by simp)]

/-- no white space, no sign -/
theorem digit_plain {c : UInt8} (h : isDigit c = true) : isSpace c = false ∧ c ≠ 45 ∧ c ≠ 43 ∧ c ≠ 46 := by
  rw [isDigit_iff] at h
  refine ⟨?_, ?_, ?_, ?_⟩
  · have e1 : c ≠ 32 := by rintro rfl; revert h; decide
    have e2 : ¬ (c ≤ 13) := by
      rw [UInt8.le_iff_toNat_le]
      have : (13 : UInt8).toNat = 13 := rfl
      omega
    simp [isSpace, e1, e2]
  all_goals (rintro rfl; revert h; decide)

theorem head_digit {ds : List UInt8} (hd : Digits ds) {tail : List UInt8} (h0 : ds ≠ []) :
    ∀ c ∈ (ds ++ tail).head?, isDigit c = true := by
  cases ds with
  | nil => exact absurd rfl h0
  | cons d ds => intro c hc; simp at hc; subst hc; exact hd _ (by simp)

theorem head_signText {o : Option Bool} {s : List UInt8} {P : UInt8 → Prop} (h45 : P 45) (h43 : P 43)
    (hs : ∀ c ∈ s.head?, P c) : ∀ c ∈ (signText o ++ s).head?, P c := by
  match o with
  | none => exact hs
  | some true => intro c hc; simp [signText] at hc; subst hc; exact h45
  | some false => intro c hc; simp [signText] at hc; subst hc; exact h43

/-- C102: white space, a sign and digits are read as the integer they denote, whatever follows the digits. -/
theorem strtol_text (ws : List UInt8) (hw : ∀ c ∈ ws, isSpace c = true) (o : Option Bool) (ds : List UInt8)
    (hd : Digits ds) (h0 : ds ≠ []) (tail : List UInt8) (ht : ∀ c ∈ tail.head?, isDigit c = false) :
    strtol (ws ++ (signText o ++ (ds ++ tail))) = if o = some true then -(digitsVal ds : ℤ) else digitsVal ds := by
  have h1 := head_digit hd (tail := tail) h0
  unfold strtol
  rw [skip ws _ hw (head_signText (by decide) (by decide) fun c hc => (digit_plain (h1 c hc)).1),
    sign_text o _ fun c hc => ⟨(digit_plain (h1 c hc)).2.1, (digit_plain (h1 c hc)).2.2.1⟩]
  simp only [(scan ds tail hd ht).1, signed]
  by_cases h : o = some true <;> simp [h]

/-- C102: a text without a number is read as zero by `atoi` and `atoll`: no error is reported. -/
theorem strtol_junk (ws : List UInt8) (hw : ∀ c ∈ ws, isSpace c = true) (o : Option Bool) (s : List UInt8)
    (hs : ∀ c ∈ s.head?, isDigit c = false ∧ isSpace c = false ∧ c ≠ 45 ∧ c ≠ 43) :
    strtol (ws ++ (signText o ++ s)) = 0 := by
  unfold strtol
  rw [skip ws _ hw (head_signText (by decide) (by decide) fun c hc => (hs c hc).2.1),
    sign_text o _ fun c hc => (hs c hc).2.2]
  have : s.takeWhile isDigit = [] := by
    cases s with
    | nil => rfl
    | cons c cs => simp [(hs c (by simp)).1]
  simp only [this, signed, digitsVal, List.foldl_nil]
  split <;> simp

/-! ### Floating-point numbers -/

/-- characters of decimal numbers -/
def plain (c : UInt8) : Bool := isDigit c || c == 43 || c == 45 || c == 46 || c == 69 || c == 101

theorem plain_lower {c : UInt8} (h : plain c = true) : lower c ≠ 105 ∧ lower c ≠ 110 ∧ lower c ≠ 120 := by
  simp only [plain, Bool.or_eq_true, beq_iff_eq] at h
  rcases h with ((((h | rfl) | rfl) | rfl) | rfl) | rfl
  · rw [isDigit_iff] at h
    have : lower c = c := by
      have : ¬ (65 ≤ c) := by
        rw [UInt8.le_iff_toNat_le]
        have : (65 : UInt8).toNat = 65 := rfl
        omega
      simp [lower, this]
    rw [this]
    refine ⟨?_, ?_, ?_⟩ <;> (rintro rfl; revert h; decide)
  all_goals decide

theorem special_plain {s : List UInt8} (h : ∀ c ∈ s, plain c = true) : special s = false := by
  have key : ∀ c ∈ (s.take 3).map lower, c ≠ 105 ∧ c ≠ 110 ∧ c ≠ 120 := by
    intro c hc
    obtain ⟨d, hd, rfl⟩ := List.mem_map.1 hc
    exact plain_lower (h d (List.mem_of_mem_take hd))
  unfold special
  simp only
  generalize (s.take 3).map lower = l at key
  have e1 : l ≠ [105, 110, 102] := by rintro rfl; exact (key 105 (by simp)).1 rfl
  have e2 : l ≠ [110, 97, 110] := by rintro rfl; exact (key 110 (by simp)).2.1 rfl
  have e3 : l.take 2 ≠ [48, 120] := by
    intro e
    exact (key 120 (List.mem_of_mem_take (i := 2) (by rw [e]; simp))).2.2 rfl
  simp [e1, e2, e3]

theorem plain_signText (o : Option Bool) : ∀ c ∈ signText o, plain c = true := by
  match o with
  | none => intro c hc; cases hc
  | some true => decide
  | some false => decide

theorem plain_digits {ds : List UInt8} (h : Digits ds) : ∀ c ∈ ds, plain c = true := by
  intro c hc; simp [plain, h c hc]

/-- the exponent is well-formed: at least one digit -/
def ExpOk (ex : Option (Bool × Option Bool × List UInt8)) : Prop :=
  ∀ x ∈ ex, Digits x.2.2 ∧ x.2.2 ≠ []

theorem plain_expText {ex : Option (Bool × Option Bool × List UInt8)} (h : ExpOk ex) :
    ∀ c ∈ expText ex, plain c = true := by
  match ex, h with
  | none, _ => intro c hc; cases hc
  | some (cap, o, ds), h =>
    intro c hc
    simp only [expText, List.mem_cons, List.mem_append] at hc
    rcases hc with rfl | hc | hc
    · cases cap <;> decide
    · exact plain_signText o c hc
    · exact plain_digits (h _ rfl).1 c hc

theorem exponent_text {ex : Option (Bool × Option Bool × List UInt8)} (h : ExpOk ex) :
    exponent (expText ex) = expVal ex := by
  match ex, h with
  | none, _ => rfl
  | some (cap, o, ds), h =>
    obtain ⟨h1, h2⟩ := h _ rfl
    simp only at h1 h2
    have hl : ((if cap then 69 else 101 : UInt8) = 101 ∨ (if cap then 69 else 101 : UInt8) = 69) := by
      cases cap <;> simp
    have hd := head_digit h1 (tail := []) h2
    rw [List.append_nil] at hd
    simp only [expText, exponent, hl, if_true]
    rw [sign_text o ds fun c hc => ⟨(digit_plain (hd c hc)).2.1, (digit_plain (hd c hc)).2.2.1⟩]
    have hs := (scan ds [] h1 (by simp)).1
    rw [List.append_nil] at hs
    simp only [hs, expVal, signed]
    by_cases h : o = some true <;> simp [h]

theorem head_expText {ex : Option (Bool × Option Bool × List UInt8)} :
    ∀ c ∈ (expText ex).head?, isDigit c = false ∧ c ≠ 46 := by
  match ex with
  | none => intro c hc; cases hc
  | some (cap, o, ds) =>
    intro c hc
    simp only [expText, List.head?_cons, Option.mem_def, Option.some.injEq] at hc
    subst hc
    cases cap <;> decide

theorem fraction_text (pt : Option (List UInt8)) (hp : ∀ fp ∈ pt, Digits fp)
    (ex : Option (Bool × Option Bool × List UInt8)) :
    fraction (pointText pt ++ expText ex) = (pt.getD [], expText ex) := by
  match pt, hp with
  | none, _ =>
    simp only [pointText, List.nil_append, Option.getD_none]
    have := head_expText (ex := ex)
    cases h : expText ex with
    | nil => rfl
    | cons c cs =>
      rw [h] at this
      simp [fraction, (this c (by simp)).2]
  | some fp, hp =>
    have := scan fp (expText ex) (hp _ rfl) fun c hc => (head_expText c hc).1
    simp only [pointText, List.cons_append, fraction, if_true, this.1, this.2, Option.getD_some]

/-- C102: `[white space][sign]digits[.digits][e[sign]digits]` with a digit before or after the point is read as the
decimal number it denotes. -/
theorem strtod_text (ws : List UInt8) (hw : ∀ c ∈ ws, isSpace c = true) (o : Option Bool) (ip : List UInt8)
    (hi : Digits ip) (pt : Option (List UInt8)) (hp : ∀ fp ∈ pt, Digits fp)
    (ex : Option (Bool × Option Bool × List UInt8)) (he : ExpOk ex) (h0 : ip ≠ [] ∨ pt.getD [] ≠ []) :
    strtod (ws ++ (signText o ++ (ip ++ (pointText pt ++ expText ex)))) =
      some ((if o = some true then -1 else 1) * (digitsVal (ip ++ pt.getD []) : ℚ)
        * 10 ^ (expVal ex - (pt.getD []).length)) := by
  have hplain : ∀ c ∈ ip ++ (pointText pt ++ expText ex), plain c = true := by
    intro c hc
    simp only [List.mem_append] at hc
    rcases hc with hc | hc | hc
    · exact plain_digits hi c hc
    · match pt, hp, hc with
      | some fp, hp, hc =>
        simp only [pointText, List.mem_cons] at hc
        rcases hc with rfl | hc
        · decide
        · exact plain_digits (hp _ rfl) c hc
    · exact plain_expText he c hc
  have hhead : ∀ c ∈ (ip ++ (pointText pt ++ expText ex)).head?, isDigit c = true ∨ c = 46 := by
    intro c hc
    by_cases hip : ip = []
    · subst hip
      match pt, h0, hc with
      | none, h0, _ => simp at h0
      | some fp, _, hc =>
        simp only [pointText, List.nil_append, List.cons_append, List.head?_cons, Option.mem_def,
          Option.some.injEq] at hc
        exact Or.inr hc.symm
    · exact Or.inl (head_digit hi hip c hc)
  have hsp : ∀ c ∈ (ip ++ (pointText pt ++ expText ex)).head?, isSpace c = false ∧ c ≠ 45 ∧ c ≠ 43 := by
    intro c hc
    rcases hhead c hc with h | rfl
    · exact ⟨(digit_plain h).1, (digit_plain h).2.1, (digit_plain h).2.2.1⟩
    · decide
  have hrest : ∀ c ∈ (pointText pt ++ expText ex).head?, isDigit c = false := by
    intro c hc
    match pt, hc with
    | none, hc => exact (head_expText c hc).1
    | some fp, hc =>
      simp only [pointText, List.cons_append, List.head?_cons, Option.mem_def, Option.some.injEq] at hc
      subst hc; decide
  unfold strtod
  rw [skip ws _ hw (head_signText (by decide) (by decide) fun c hc => (hsp c hc).1),
    sign_text o _ fun c hc => (hsp c hc).2]
  simp only [special_plain hplain, Bool.false_eq_true, if_false, (scan ip _ hi hrest).1, (scan ip _ hi hrest).2,
    fraction_text pt hp ex, exponent_text he, signed]
  rw [if_neg (fun h => h0.elim (fun h' => h' h.1) fun h' => h' h.2)]
  by_cases h : o = some true <;> simp [h]

/-- C102: a text that starts neither with a number nor with "inf", "nan" is read as zero by `atof`: no error is
reported. -/
theorem strtod_junk (s : List UInt8)
    (hs : ∀ c ∈ s.head?, isDigit c = false ∧ isSpace c = false ∧ c ≠ 45 ∧ c ≠ 43 ∧ c ≠ 46 ∧
      lower c ≠ 105 ∧ lower c ≠ 110) : strtod s = some 0 := by
  cases s with
  | nil => rfl
  | cons c cs =>
    obtain ⟨h1, h2, h3, h4, h5, h6, h7⟩ := hs c (by simp)
    have hc : c ≠ 48 := by rintro rfl; revert h1; decide
    have hl : lower c ≠ 48 := by
      intro e
      unfold lower at e
      split at e
      · rename_i hr
        simp only [Bool.and_eq_true, decide_eq_true_eq, UInt8.le_iff_toNat_le] at hr
        have := congrArg UInt8.toNat e
        rw [UInt8.toNat_add] at this
        simp at this hr
        omega
      · exact hc e
    have hsp : special (c :: cs) = false := by
      simp [special, h6, h7, hl]
    unfold strtod
    simp [h2, sign, h3, h4, hsp, h1, fraction, h5]

/-! ## Writing numbers -/

/-- specification: the decimal digits of a number -/
def dec (n : ℕ) : List UInt8 := (Nat.toDigits 10 n).map fun c => UInt8.ofNat c.toNat

theorem digit_char {c : Char} (h : c.isDigit = true) : 48 ≤ c.toNat ∧ c.toNat ≤ 57 := by
  simp only [Char.isDigit, Bool.and_eq_true, decide_eq_true_eq, UInt32.le_iff_toNat_le] at h
  exact h

theorem dec_digits (n : ℕ) : Digits (dec n) := by
  intro c hc
  obtain ⟨d, hd, rfl⟩ := List.mem_map.1 hc
  have := digit_char (Nat.isDigit_of_mem_toDigits (by norm_num) (by norm_num) hd)
  rw [isDigit_iff, UInt8.toNat_ofNat', Nat.mod_eq_of_lt (by omega)]
  exact this

theorem dec_ne (n : ℕ) : dec n ≠ [] := by
  intro h
  have := Nat.length_toDigits_pos (b := 10) (n := n)
  have h' : (dec n).length = 0 := by rw [h]; rfl
  rw [dec, List.length_map] at h'
  omega

theorem digitsVal_dec (n : ℕ) : digitsVal (dec n) = n := by
  have h : ∀ (l : List Char), (∀ c ∈ l, c.isDigit = true) → ∀ k : ℕ,
      (l.map fun c => UInt8.ofNat c.toNat).foldl (fun n c => 10 * n + (c.toNat - 48)) k = Nat.ofDigitChars 10 l k := by
    intro l hl
    induction l with
    | nil => intro k; simp
    | cons c l ih =>
      intro k
      have hc := digit_char (hl c (by simp))
      rw [List.map_cons, List.foldl_cons, ih fun d hd => hl d (by simp [hd]), Nat.ofDigitChars_cons,
        UInt8.toNat_ofNat', Nat.mod_eq_of_lt (by omega)]
      rfl
  unfold digitsVal dec
  rw [h _ fun c hc => Nat.isDigit_of_mem_toDigits (by norm_num) (by norm_num) hc]
  exact Nat.ofDigitChars_ten_toDigits

theorem dec_length {n k : ℕ} (hk : 0 < k) (h : n < 10 ^ k) : (dec n).length ≤ k := by
  rw [dec, List.length_map]
  exact (Nat.length_toDigits_le_iff (by norm_num) hk).2 h

/-- specification: text of an integer -/
def intText (n : ℤ) : Token := signText (if n < 0 then some true else none) ++ dec n.natAbs

theorem strtol_intText (n : ℤ) : strtol (intText n) = n := by
  have h := strtol_text [] (by simp) (if n < 0 then some true else none) (dec n.natAbs) (dec_digits _) (dec_ne _) []
    (by simp)
  rw [List.append_nil, List.nil_append] at h
  rw [intText, h, digitsVal_dec]
  by_cases hn : n < 0
  · simp only [hn, if_true]; omega
  · simp only [hn, if_false, reduceCtorEq]; omega

/-- C102: every `int` is read back from its text -/
theorem atoi_intText {n : ℤ} (h1 : -2 ^ 31 ≤ n) (h2 : n < 2 ^ 31) : atoi (intText n) = some n := by
  unfold atoi; rw [strtol_intText, if_pos ⟨h1, h2⟩]

/-- C102: every `long long` is read back from its text -/
theorem atoll_intText {n : ℤ} (h1 : -2 ^ 63 ≤ n) (h2 : n < 2 ^ 63) : atoll (intText n) = some n := by
  unfold atoll; rw [strtol_intText, if_pos ⟨h1, h2⟩]

/-- specification: text of `± n / 10^k` -/
def decText (neg : Bool) (n k : ℕ) : Token :=
  signText (if neg then some true else none) ++ (dec n ++ (101 :: 45 :: dec k))

theorem strtod_decText (neg : Bool) (n k : ℕ) :
    strtod (decText neg n k) = some ((if neg then -1 else 1) * (n : ℚ) / 10 ^ k) := by
  have h := strtod_text [] (by simp) (if neg then some true else none) (dec n) (dec_digits n) none (by simp)
    (some (false, some true, dec k)) (by rintro x ⟨⟩; exact ⟨dec_digits k, dec_ne k⟩) (Or.inl (dec_ne n))
  have e : signText (some true) = [45] := rfl
  simp only [pointText, expText, e, List.nil_append, List.cons_append, List.append_nil, Option.getD_none,
    digitsVal_dec, expVal, if_true, List.length_nil, Nat.cast_zero, sub_zero, Bool.false_eq_true, if_false] at h
  unfold decText
  rw [h, zpow_neg, zpow_natCast, div_eq_mul_inv]
  cases neg <;> simp

/-- the finite doubles -/
def IsDouble (x : ℝ) : Prop := x ∈ Random.Binary64 ∧ |x| < 2 ^ 1024

/-- the largest double is below the numbers that overflow -/
theorem IsDouble.lt {x : ℝ} (h : IsDouble x) : |x| < 2 ^ 1024 - 2 ^ 970 := by
  have h2 := h.2
  have e1 : (2 : ℝ) ^ 1024 = 2 ^ 54 * 2 ^ 970 := by rw [← pow_add]
  have e2 : (2 : ℝ) ^ (971 : ℤ) = 2 * 2 ^ 970 := by
    rw [show (971 : ℤ) = ((971 : ℕ) : ℤ) from rfl, zpow_natCast, ← pow_succ']
  have e3 : (2 : ℝ) ^ ((971 : ℤ) + 52) = 2 ^ 53 * 2 ^ 970 := by
    rw [show (971 : ℤ) + 52 = ((53 + 970 : ℕ) : ℤ) from rfl, zpow_natCast, pow_add]
  have hgap := Random.binary64_gap 971 x h.1
  rw [e1] at h2 ⊢
  rw [e2, e3] at hgap
  have hP : (0 : ℝ) < 2 ^ 970 := by positivity
  clear e1 e2 e3
  generalize (2 : ℝ) ^ 970 = P at *
  have h2P : 0 ≤ 2 * P := by positivity
  by_cases hlo : 2 ^ 53 * P ≤ |x|
  · obtain ⟨j, hj⟩ := hgap hlo
    have e : |x| = (|j| : ℤ) * (2 * P) := by
      rw [hj, abs_mul, Int.cast_abs, abs_of_pos (show 0 < 2 * P by positivity)]
    rw [e] at h2 ⊢
    have hj1 : |j| < 2 ^ 53 := by
      by_contra hc
      have : (2 ^ 53 : ℝ) ≤ ((|j| : ℤ) : ℝ) := by exact_mod_cast not_lt.1 hc
      have := mul_le_mul_of_nonneg_right this h2P
      linarith
    have : ((|j| : ℤ) : ℝ) ≤ 2 ^ 53 - 1 := by
      have : |j| ≤ 2 ^ 53 - 1 := by omega
      exact_mod_cast this
    have := mul_le_mul_of_nonneg_right this h2P
    linarith
  · push Not at hlo
    nlinarith

/-- every finite double is a decimal fraction of moderate length -/
theorem IsDouble.decimal {x : ℝ} (h : IsDouble x) :
    ∃ (neg : Bool) (n k : ℕ), n < 10 ^ 800 ∧ k < 10 ^ 4 ∧ x = (if neg then -1 else 1) * (n : ℝ) / 10 ^ k := by
  obtain ⟨⟨m, e, hm, he, rfl⟩, hx⟩ := h
  have hs : ((m : ℤ) : ℝ) = (if m < 0 then -1 else 1) * (m.natAbs : ℝ) := by
    rw [Nat.cast_natAbs]
    split
    · rename_i h; rw [abs_of_neg h]; push_cast; ring
    · rename_i h; rw [abs_of_nonneg (by omega)]; ring
  have hm' : m.natAbs < 2 ^ 53 := by rw [Int.abs_eq_natAbs] at hm; omega
  rcases le_or_gt 0 e with he0 | he0
  · obtain ⟨k, rfl⟩ := Int.eq_ofNat_of_zero_le he0
    refine ⟨decide (m < 0), m.natAbs * 2 ^ k, 0, ?_, by norm_num, ?_⟩
    · have h1 : ((m.natAbs * 2 ^ k : ℕ) : ℝ) < 2 ^ 1024 := by
        refine lt_of_le_of_lt (le_of_eq ?_) hx
        rw [abs_mul, abs_of_nonneg (show (0 : ℝ) ≤ 2 ^ (k : ℤ) by positivity)]
        push_cast
        rw [Nat.cast_natAbs, Int.cast_abs]
        norm_cast
      have h2 : m.natAbs * 2 ^ k < 2 ^ 1024 := by exact_mod_cast h1
      exact h2.trans (by decide +kernel)
    · rw [hs]
      push_cast
      simp only [decide_eq_true_eq, zpow_natCast, pow_zero, div_one]
      ring
  · obtain ⟨k, hk⟩ := Int.eq_ofNat_of_zero_le (show 0 ≤ -e by omega)
    obtain rfl : e = -(k : ℤ) := by omega
    have hk' : k ≤ 1074 := by omega
    refine ⟨decide (m < 0), m.natAbs * 5 ^ k, k, ?_, by omega, ?_⟩
    · calc m.natAbs * 5 ^ k ≤ 2 ^ 53 * 5 ^ 1074 :=
            Nat.mul_le_mul hm'.le (Nat.pow_le_pow_right (by norm_num) hk')
        _ < 10 ^ 800 := by decide +kernel
    · rw [hs]
      push_cast
      simp only [decide_eq_true_eq, zpow_neg, zpow_natCast]
      rw [show (10 : ℝ) = 2 * 5 by norm_num, mul_pow]
      field_simp

/-- C102: for every finite double there is a text of at most 810 characters from which a correctly rounding library
reads exactly this double. -/
theorem atof_complete {rnd : ℝ → ℝ} (hr : Random.RoundsToNearest rnd) {cv : Conv ℝ} (hcv : Std rnd cv) {x : ℝ}
    (h : IsDouble x) :
    ∃ s : Token, cv.atof s = x ∧ s ≠ [] ∧ s.length ≤ 810 ∧ ∀ c ∈ s, plain c = true := by
  obtain ⟨neg, n, k, hn, hk, hx⟩ := h.decimal
  have hlen := dec_length (by norm_num) hn
  have hlk := dec_length (by norm_num) hk
  refine ⟨decText neg n k, ?_, ?_, ?_, ?_⟩
  · have hq : (((if neg then -1 else 1) * (n : ℚ) / 10 ^ k : ℚ) : ℝ) = x := by
      rw [hx]; cases neg <;> push_cast <;> simp
    rw [hcv.atof _ _ (strtod_decText neg n k) (by rw [hq]; exact h.lt), hq]
    exact Random.rnd_self hr h.1
  · intro e
    have := congrArg List.length e
    simp [decText] at this
  · simp only [decText, List.length_append, List.length_cons]
    have : (signText (if neg then some true else none)).length ≤ 1 := by cases neg <;> simp [signText]
    omega
  · intro c hc
    simp only [decText, List.mem_append, List.mem_cons] at hc
    rcases hc with hc | hc | rfl | rfl | hc
    · exact plain_signText _ c hc
    · exact plain_digits (dec_digits n) c hc
    · decide
    · decide
    · exact plain_digits (dec_digits k) c hc

end Verif.Decimal
