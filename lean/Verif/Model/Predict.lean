import Verif.Model.KernelCross
import Mathlib.LinearAlgebra.Matrix.NonsingularInverse
import Mathlib.Analysis.SpecialFunctions.Pow.NNReal

/-!
# `GPModel.predict`

`/repo/GPy_ABCD/Models/model.py:49-52`, over the reals, with one output and with `Y_metadata`, `kern` and `likelihood` left out, as is usual. Trusted on the side of
GPy, which is not in `/repo` (`GP.predict`, `GP.predict_quantiles`, `Gaussian.predictive_values`, `Gaussian.predictive_quantiles`, exact inference):

* `_raw_predict` gives the mean `K(X, X*)ᵀ (K(X) + noise)⁻¹ y` and, with `full_cov`, the matrix `K(X*) - K(X, X*)ᵀ (K(X) + noise)⁻¹ K(X, X*)`, and without it
  the same with `Kdiag(X*)` and the diagonal of the product;
* `predict` adds the noise to the variances, or to the diagonal, if `include_likelihood`;
* `predict_quantiles` gives, for each entry `q` of `quantiles`, `norm.ppf(q / 100) * sqrt(variance + noise) + mean`, always from the variances without `full_cov`.

The function `norm.ppf` of scipy is a parameter. The square root of a negative number is 0 here and nan there; `C96_sound_partial` shows that there are none.
-/

namespace GPyABCD
namespace Kern
open Params Sops

/-- The array under `'covariance'`: a column of variances, or a matrix. -/
inductive CovArr (m : ℕ)
  | column (v : Fin m → ℝ)
  | matrix (A : Fin m → Fin m → ℝ)

/-- The dictionary that `predict` returns, `model.py:52`. -/
structure Prediction (m : ℕ) where
  /-- `'mean'` -/
  mean : Fin m → ℝ
  /-- `'covariance'` -/
  covariance : CovArr m
  /-- `'low_quantile'` -/
  low : Fin m → ℝ
  /-- `'high_quantile'` -/
  high : Fin m → ℝ

/-- `IndexError` -/
inductive PredErr | index
  deriving DecidableEq

/-- The mean of `_raw_predict`. -/
noncomputable def rawMean (cfg : Cfg) {n m : ℕ} (X y : Fin n → ℝ) (Y : Fin m → ℝ) (g : GK ℝ) (noise : ℝ) : Fin m → ℝ :=
  (Matrix.of (kerK2 cfg X Y g)).transpose.mulVec
    ((Matrix.of (kerK cfg X g) + noise • (1 : Matrix (Fin n) (Fin n) ℝ))⁻¹.mulVec y)

/-- What the observations take away from the prior covariance. -/
noncomputable def explained (cfg : Cfg) {n m : ℕ} (X : Fin n → ℝ) (Y : Fin m → ℝ) (g : GK ℝ) (noise : ℝ) : Fin m → Fin m → ℝ :=
  (Matrix.of (kerK2 cfg X Y g)).transpose * (Matrix.of (kerK cfg X g) + noise • (1 : Matrix (Fin n) (Fin n) ℝ))⁻¹ * Matrix.of (kerK2 cfg X Y g)

/-- The variances of `_raw_predict` without `full_cov`. -/
noncomputable def rawVar (cfg : Cfg) {n m : ℕ} (X : Fin n → ℝ) (Y : Fin m → ℝ) (g : GK ℝ) (noise : ℝ) : Fin m → ℝ :=
  fun i => kerDiag cfg Y g i - explained cfg X Y g noise i i

/-- The matrix of `_raw_predict` with `full_cov`. -/
noncomputable def rawCov (cfg : Cfg) {n m : ℕ} (X : Fin n → ℝ) (Y : Fin m → ℝ) (g : GK ℝ) (noise : ℝ) : Fin m → Fin m → ℝ :=
  fun i j => kerK cfg Y g i j - explained cfg X Y g noise i j

/-- The second value of `self.model.predict(X, full_cov, …, include_likelihood)`, `model.py:50`. -/
noncomputable def predictCov (cfg : Cfg) {n m : ℕ} (X : Fin n → ℝ) (Y : Fin m → ℝ) (g : GK ℝ) (noise : ℝ) (fullCov includeLik : Bool) : CovArr m :=
  if fullCov then .matrix (fun i j => rawCov cfg X Y g noise i j + if includeLik ∧ i = j then noise else 0)
  else .column (fun i => rawVar cfg X Y g noise i + if includeLik then noise else 0)

/-- One of the arrays of `self.model.predict_quantiles(X, quantiles, …)`, `model.py:51`. -/
noncomputable def quantileAt (cfg : Cfg) {n m : ℕ} (ppf : ℝ → ℝ) (X y : Fin n → ℝ) (Y : Fin m → ℝ) (g : GK ℝ) (noise q : ℝ) : Fin m → ℝ :=
  fun i => ppf (q / 100) * Real.sqrt (rawVar cfg X Y g noise i + noise) + rawMean cfg X y Y g noise i

/-- `predict(X, quantiles, full_cov, include_likelihood = …)`, `model.py:49-52`, of a model that has been fitted: `X`, `y` are its data, `g` its kernel, `noise` the
variance of its likelihood, and `Y` the new inputs. -/
noncomputable def predict (cfg : Cfg) {n m : ℕ} (ppf : ℝ → ℝ) (X y : Fin n → ℝ) (g : GK ℝ) (noise : ℝ) (Y : Fin m → ℝ) (quantiles : List ℝ := [2.5, 97.5])
    (fullCov : Bool := false) (includeLik : Bool := true) : Except PredErr (Prediction m) :=
  match quantiles.map (quantileAt cfg ppf X y Y g noise) with
  | lo :: hi :: _ => .ok ⟨rawMean cfg X y Y g noise, predictCov cfg X Y g noise fullCov includeLik, lo, hi⟩
  | _ => .error .index

end Kern
end GPyABCD
