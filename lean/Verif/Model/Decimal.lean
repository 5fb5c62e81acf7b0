import Verif.Model.Params
import Mathlib.Algebra.Order.Field.Rat
import Mathlib.Data.Rat.Cast.Defs
import Mathlib.Data.Real.Basic

set_option autoImplicit false

/-!
# Model of `atoi`, `atoll` and `atof`

The functions of the C library (C11, 7.22.1) by which `src/param_parser.c` converts words into numbers, in the
locale "C" (the program never calls `setlocale`).  `none` stands for a text whose conversion is undefined (the value
cannot be represented) or is not described here (infinities, "not a number" and hexadecimal numbers).
-/

namespace Verif.Decimal

open Verif.Params (Token Conv)

/-- `isspace` -/
def isSpace (c : UInt8) : Bool := c == 32 || (9 ≤ c && c ≤ 13)

/-- `isdigit` -/
def isDigit (c : UInt8) : Bool := 48 ≤ c && c ≤ 57

/-- value of a sequence of decimal digits -/
def digitsVal (s : List UInt8) : ℕ := s.foldl (fun n c => 10 * n + (c.toNat - 48)) 0

/-- optional sign: is it a minus, and what follows -/
def sign : List UInt8 → Bool × List UInt8
  | [] => (false, [])
  | c :: cs => if c = 45 then (true, cs) else if c = 43 then (false, cs) else (false, c :: cs)

/-- the value of a number with the given sign -/
def signed (neg : Bool) (n : ℕ) : ℤ := if neg then -(n : ℤ) else n

/-- the mathematical value `strtol` finds for base 10: white space, sign and digits; what follows is ignored, and a
text without digits has the value zero -/
def strtol (s : Token) : ℤ :=
  let r := sign (s.dropWhile isSpace)
  signed r.1 (digitsVal (r.2.takeWhile isDigit))

/-- `atoi` (param_parser.c:112, 113, 226, 236, …): undefined if the value does not fit an `int` -/
def atoi (s : Token) : Option ℤ :=
  if -2 ^ 31 ≤ strtol s ∧ strtol s < 2 ^ 31 then some (strtol s) else none

/-- `atoll` (param_parser.c:347): undefined if the value does not fit a `long long` -/
def atoll (s : Token) : Option ℤ :=
  if -2 ^ 63 ≤ strtol s ∧ strtol s < 2 ^ 63 then some (strtol s) else none

/-- lower case of an ASCII letter -/
def lower (c : UInt8) : UInt8 := if 65 ≤ c && c ≤ 90 then c + 32 else c

/-- the text starts an infinity, a "not a number" or a hexadecimal number -/
def special (s : List UInt8) : Bool :=
  let l := (s.take 3).map lower
  l == [105, 110, 102] || l == [110, 97, 110] || l.take 2 == [48, 120]

/-- digits after a decimal point, and what follows -/
def fraction : List UInt8 → List UInt8 × List UInt8
  | [] => ([], [])
  | c :: cs => if c = 46 then (cs.takeWhile isDigit, cs.dropWhile isDigit) else ([], c :: cs)

/-- exponent part; a letter `e` that is not followed by a number does not belong to the number -/
def exponent : List UInt8 → ℤ
  | [] => 0
  | c :: cs =>
    if c = 101 ∨ c = 69 then
      let r := sign cs
      signed r.1 (digitsVal (r.2.takeWhile isDigit))
    else 0

/-- the mathematical value `strtod` finds: white space, sign, digits with an optional decimal point and an optional
exponent; a text without digits has the value zero -/
def strtod (s : Token) : Option ℚ :=
  let r := sign (s.dropWhile isSpace)
  if special r.2 then none else
  let ip := r.2.takeWhile isDigit
  let fp := fraction (r.2.dropWhile isDigit)
  if ip = [] ∧ fp.1 = [] then some 0 else
  some ((signed r.1 (digitsVal (ip ++ fp.1)) : ℚ) * 10 ^ (exponent fp.2 - fp.1.length))

/-- The conversions `cv` are those of a C library that rounds correctly by `rnd` (`atof`, param_parser.c:120, 142, 298,
…).  Nothing is said about texts for which the conversion is undefined.  Numbers from `2^1024 - 2^970` on are rounded
to a number beyond the largest double. -/
structure Std (rnd : ℝ → ℝ) (cv : Conv ℝ) : Prop where
  atoi : ∀ s n, Decimal.atoi s = some n → cv.atoi s = n
  atoll : ∀ s n, Decimal.atoll s = some n → cv.atoll s = n
  atof : ∀ s q, strtod s = some q → |(q : ℝ)| < 2 ^ 1024 - 2 ^ 970 → cv.atof s = rnd q

end Verif.Decimal
