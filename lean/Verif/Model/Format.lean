import Mathlib.Data.Rat.Floor
import Mathlib.Algebra.Order.Field.Basic

/-!
# How numbers are printed in descriptions (`KernelExpansion/kernelInterpretation.py`)

`'{:.2f}'.format(v)`, used for every parameter in `kernelInterpretation.py:16-86`. Floats are rational numbers, and Python rounds their exact value
to two places, halves to even. Simplified: the values `inf` and `nan` and the negative zero are left out.
-/

namespace GPyABCD
namespace Interp

/-- The nearest integer, the even one if there are two. -/
def roundEven (q : ℚ) : ℤ :=
  if q - ⌊q⌋ < 1 / 2 then ⌊q⌋
  else if 1 / 2 < q - ⌊q⌋ then ⌊q⌋ + 1
  else if ⌊q⌋ % 2 = 0 then ⌊q⌋ else ⌊q⌋ + 1

/-- Hundredths as they are printed: the sign is that of the number, also when it rounds to zero. -/
def hundredths (neg : Bool) (n : ℕ) : String :=
  (if neg then "-" else "") ++ toString (n / 100) ++ "." ++ toString (n / 10 % 10) ++ toString (n % 10)

/-- `'{:.2f}'.format(v)`, `kernelInterpretation.py:16-86`. -/
def fmt2 (v : ℚ) : String := hundredths (decide (v < 0)) (roundEven (|v| * 100)).toNat

example : fmt2 (314159 / 100000) = "3.14" ∧ fmt2 (-1 / 8) = "-0.12" ∧ fmt2 (3 / 8) = "0.38" ∧ fmt2 1234 = "1234.00" ∧ fmt2 (-1 / 1000) = "-0.00" := by
  decide +kernel

end Interp
end GPyABCD
