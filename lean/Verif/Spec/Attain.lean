import Verif.Spec.Units
import Verif.Model.Ops

/-!
# Specification: what one expression can reach of another's fits
-/

namespace GPyABCD
namespace Kern

/-- Whatever log-likelihood a fit of `k` has on the data, fits of `r` with the same noise come as close to it as wanted. -/
def Reaches (cfg : Cfg) {n : ℕ} (X y : Fin n → ℝ) (k r : KE) : Prop :=
  ∀ g noise, FittedTo cfg k g → 0 < noise → (covY cfg X g noise).det ≠ 0 → ∀ ε : ℝ, 0 < ε →
    ∃ g', FittedTo cfg r g' ∧ (covY cfg X g' noise).det ≠ 0 ∧ |logLik cfg X y g' noise - logLik cfg X y g noise| < ε

end Kern

namespace KE

/-- What an expression grows to with the help of the base kernel `b`: sums, products (with neither noise nor a constant), changes to it and from it and to itself,
in `kernelExpressionOperations.py:20-106`. -/
def grown (cfg : Cfg) (S : KE) (b : Base) : List KE :=
  add cfg S (base b) ++ (if b = .WN ∨ b = .C then [] else multiply cfg S (base b)) ++ bothChanges cfg S (some (base b)) ++ bothChanges cfg S none

end KE
end GPyABCD
