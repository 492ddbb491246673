import Verif.Model.Likelihood
import Verif.Model.Loo

/-!
# What the leave-one-out score is computed from

`/repo/GPy_ABCD/Util/modelUtil.py:15` calls `m.inference_method.LOO(m.kern, m.X, m.Y, m.likelihood, m.posterior)`, which is GPy's and not in `/repo`. Trusted here is what
`ExactGaussianInference.LOO` is known to return: with `alpha` (`woodbury_vector`) and `Ky⁻¹` (`woodbury_inv`) of the posterior, for each data point
`-(0.5 * log(2π) - 0.5 * log(c) + 0.5 * alpha**2 / c)`, where `c` is the point's entry on the diagonal of `Ky⁻¹`.
-/

namespace GPyABCD
namespace Kern
open Params Sops

/-- `ExactGaussianInference.LOO`, called in `modelUtil.py:15`. -/
noncomputable def looGPy (cfg : Cfg) {n : ℕ} (X y : Fin n → ℝ) (g : GK ℝ) (noise : ℝ) : Fin n → ℝ := fun i =>
  -(0.5 * Real.log (2 * Real.pi) - 0.5 * Real.log ((covY cfg X g noise)⁻¹ i i) + 0.5 * (covY cfg X g noise)⁻¹.mulVec y i ^ 2 / (covY cfg X g noise)⁻¹ i i)

/-- `LA_LOO(m, ll, n, k)`, `modelUtil.py:15`, of the fitted model `m`. -/
noncomputable def laLooOf (cfg : Cfg) {n : ℕ} (X y : Fin n → ℝ) (g : GK ℝ) (noise : ℝ) : ℝ := Score.laLoo (List.ofFn (looGPy cfg X y g noise))

end Kern
end GPyABCD
