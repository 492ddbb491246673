import Verif.Spec.Units

/-!
# Specification: likelihoods without bound
-/

namespace GPyABCD
namespace Kern

/-- Fits of the expression to the data can have any log-likelihood, however high. -/
def Unbounded (cfg : Cfg) (k : KE) {n : ℕ} (X y : Fin n → ℝ) : Prop := ∀ B : ℝ, ∃ L ∈ attainable cfg k X y, B < L

end Kern
end GPyABCD
