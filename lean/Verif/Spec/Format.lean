import Mathlib.Data.Rat.Defs
import Mathlib.Algebra.Order.Ring.Rat

/-!
# Specification: reading numbers in decimal notation
-/

namespace GPyABCD
namespace Interp

/-- `s` is the number `q` in decimal notation: perhaps a minus sign, some digits, a point, and some digits. -/
def Decimal (s : String) (q : ℚ) : Prop :=
  ∃ (neg : Bool) (whole part : List Char), s.toList = (if neg then ['-'] else []) ++ whole ++ '.' :: part ∧
    (∀ c ∈ whole, c.isDigit = true) ∧ (∀ c ∈ part, c.isDigit = true) ∧
    q = (if neg then -1 else 1) * ((Nat.ofDigitChars 10 whole 0 : ℚ) + (Nat.ofDigitChars 10 part 0 : ℚ) / 10 ^ part.length)

/-- `s` has digits before the point and two behind it. -/
def TwoPlaces (s : String) : Prop :=
  ∃ (sign whole part : List Char), s.toList = sign ++ whole ++ '.' :: part ∧ sign ⊆ ['-'] ∧ whole ≠ [] ∧ (∀ c ∈ whole, c.isDigit = true) ∧
    part.length = 2 ∧ (∀ c ∈ part, c.isDigit = true)

end Interp
end GPyABCD
