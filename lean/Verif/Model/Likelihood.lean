import Verif.Model.KernelTree
import Mathlib.LinearAlgebra.Matrix.NonsingularInverse
import Mathlib.Analysis.SpecialFunctions.Log.Basic
import Mathlib.Analysis.SpecialFunctions.Trigonometric.Basic

/-!
# The log-likelihood of a model

`/repo/GPy_ABCD/Models/model.py:65` (`_ll`), from which all scores but `LA_LOO` are computed, over the reals, with one output. Trusted on the side of GPy, which is not in
`/repo` (`ExactGaussianInference.inference`): with `Ky` the covariance matrix plus the variance of the likelihood on the diagonal (and a constant 1e-8, which counts as part
of `noise` here) and `alpha = Ky⁻¹ y`,

* `log_likelihood()` is `0.5 * (-n * log(2π) - log det Ky - sum(alpha * y))`;
* the matrix `dL_dK` given to `update_gradients_full` of the kernel is `0.5 * (alpha alphaᵀ - Ky⁻¹)`;
* the gradient of the variance of the likelihood is the sum of the diagonal of `dL_dK`.
-/

namespace GPyABCD
namespace Kern
open Params Sops

/-- `Ky`. -/
noncomputable def covY (cfg : Cfg) {n : ℕ} (X : Fin n → ℝ) (g : GK ℝ) (noise : ℝ) : Matrix (Fin n) (Fin n) ℝ :=
  Matrix.of (kerK cfg X g) + noise • (1 : Matrix (Fin n) (Fin n) ℝ)

/-- `_ll()`, `model.py:65`, of a model with the data `X`, `y`, the kernel `g` and the variance `noise` of the likelihood. -/
noncomputable def logLik (cfg : Cfg) {n : ℕ} (X y : Fin n → ℝ) (g : GK ℝ) (noise : ℝ) : ℝ :=
  0.5 * (-n * Real.log (2 * Real.pi) - Real.log (covY cfg X g noise).det - ∑ i, (covY cfg X g noise)⁻¹.mulVec y i * y i)

/-- The `dL_dK` that the kernel's `update_gradients_full` (`Model/KernelTree`) is called with while fitting, `model.py:24-34`. -/
noncomputable def dLdK (cfg : Cfg) {n : ℕ} (X y : Fin n → ℝ) (g : GK ℝ) (noise : ℝ) : Arr n :=
  fun i j => 0.5 * ((covY cfg X g noise)⁻¹.mulVec y i * (covY cfg X g noise)⁻¹.mulVec y j - (covY cfg X g noise)⁻¹ i j)

/-- The gradient of the variance of the likelihood. -/
noncomputable def noiseGrad (cfg : Cfg) {n : ℕ} (X y : Fin n → ℝ) (g : GK ℝ) (noise : ℝ) : ℝ := ∑ i, dLdK cfg X y g noise i i

end Kern
end GPyABCD
