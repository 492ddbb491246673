import Verif.Model.Predict
import Mathlib.Probability.Distributions.Gaussian.Real

/-!
# Specification: how well data points are predicted from the others
-/

namespace GPyABCD
namespace Kern
open Params Sops

/-- The prediction (`Model/Predict`, `model.py:46-53`) of the data point `i` by the model fitted with the kernel `g`, if it had only seen the others. -/
noncomputable def withoutPoint (cfg : Cfg) (ppf : ℝ → ℝ) {n : ℕ} (X y : Fin (n + 1) → ℝ) (g : GK ℝ) (noise : ℝ) (i : Fin (n + 1)) : Except PredErr (Prediction 1) :=
  predict cfg ppf (X ∘ i.succAbove) (y ∘ i.succAbove) g noise (fun _ : Fin 1 => X i)

/-- The predicted variance. -/
noncomputable def Prediction.var (u : Prediction 1) : ℝ :=
  match u.covariance with
  | .column v => v 0
  | .matrix A => A 0 0

/-- The density a prediction gives to an observed value: that of the normal distribution with the predicted mean and variance. -/
noncomputable def Prediction.density (u : Prediction 1) (y : ℝ) : ℝ := ProbabilityTheory.gaussianPDFReal (u.mean 0) (Real.toNNReal u.var) y

end Kern
end GPyABCD
