import Verif.Spec.Units
import Verif.Spec.Shape
import Verif.Model.Count
import Verif.Model.Misc
import Verif.Props.KernelTree

/-!
# Specification: the scores an expression can have
-/

namespace GPyABCD
namespace Kern
open KE Params

/-- A simplified expression of base kernels other than the sigmoidal ones. -/
def Simplified (cfg : Cfg) (r : KE) : Prop := ∃ k, wf k = true ∧ (∀ b ∈ bases k, b.isSigmoid = false) ∧ r = simplify cfg k

/-- The scores of the fits of an expression with noise of at least `δ` (and periodic lengthscales in the exact regime); `score` is of the log-likelihood, the number of data
and the number of parameters. -/
def scores (score : ℝ → ℕ → ℕ → ℝ) (cfg : Cfg) (δ : ℝ) {n : ℕ} (X y : Fin n → ℝ) (r : KE) : Set ℝ :=
  {s | ∃ g noise, FittedTo cfg r g ∧ Exact g ∧ δ ≤ noise ∧ s = score (logLik cfg X y g noise) n (modelK g)}

end Kern
end GPyABCD
