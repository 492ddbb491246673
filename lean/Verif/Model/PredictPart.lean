import Verif.Model.Predict

/-!
# `GPModel.predict` with a kernel of its own

`/repo/GPy_ABCD/Models/model.py:49-52` with the argument `kern`, which is handed on to both calls of GPy. Simplified as `Model/Predict`; trusted in addition, on the side of GPy:
`_raw_predict` takes `K(X, X*)` and `K(X*)` from `kern` if it is given, while `(K(X) + noise)⁻¹` is that of the fitted kernel.
-/

namespace GPyABCD
namespace Kern
open Params Sops

/-- The mean of `_raw_predict`: `g` has been fitted, `h` is used at the new inputs. -/
noncomputable def rawMeanWith (cfg : Cfg) {n m : ℕ} (X y : Fin n → ℝ) (Y : Fin m → ℝ) (g h : GK ℝ) (noise : ℝ) : Fin m → ℝ :=
  (Matrix.of (kerK2 cfg X Y h)).transpose.mulVec
    ((Matrix.of (kerK cfg X g) + noise • (1 : Matrix (Fin n) (Fin n) ℝ))⁻¹.mulVec y)

/-- What the observations take away from the prior covariance. -/
noncomputable def explainedWith (cfg : Cfg) {n m : ℕ} (X : Fin n → ℝ) (Y : Fin m → ℝ) (g h : GK ℝ) (noise : ℝ) : Fin m → Fin m → ℝ :=
  (Matrix.of (kerK2 cfg X Y h)).transpose * (Matrix.of (kerK cfg X g) + noise • (1 : Matrix (Fin n) (Fin n) ℝ))⁻¹ * Matrix.of (kerK2 cfg X Y h)

/-- The variances of `_raw_predict` without `full_cov`. -/
noncomputable def rawVarWith (cfg : Cfg) {n m : ℕ} (X : Fin n → ℝ) (Y : Fin m → ℝ) (g h : GK ℝ) (noise : ℝ) : Fin m → ℝ :=
  fun i => kerDiag cfg Y h i - explainedWith cfg X Y g h noise i i

/-- The matrix of `_raw_predict` with `full_cov`. -/
noncomputable def rawCovWith (cfg : Cfg) {n m : ℕ} (X : Fin n → ℝ) (Y : Fin m → ℝ) (g h : GK ℝ) (noise : ℝ) : Fin m → Fin m → ℝ :=
  fun i j => kerK cfg Y h i j - explainedWith cfg X Y g h noise i j

/-- The second value of `self.model.predict(X, full_cov, Y_metadata, kern, likelihood, include_likelihood)`, `model.py:50`. -/
noncomputable def predictCovWith (cfg : Cfg) {n m : ℕ} (X : Fin n → ℝ) (Y : Fin m → ℝ) (g h : GK ℝ) (noise : ℝ) (fullCov includeLik : Bool) : CovArr m :=
  if fullCov then .matrix (fun i j => rawCovWith cfg X Y g h noise i j + if includeLik ∧ i = j then noise else 0)
  else .column (fun i => rawVarWith cfg X Y g h noise i + if includeLik then noise else 0)

/-- One of the arrays of `self.model.predict_quantiles(X, quantiles, Y_metadata, kern, likelihood)`, `model.py:51`. -/
noncomputable def quantileAtWith (cfg : Cfg) {n m : ℕ} (ppf : ℝ → ℝ) (X y : Fin n → ℝ) (Y : Fin m → ℝ) (g h : GK ℝ) (noise q : ℝ) : Fin m → ℝ :=
  fun i => ppf (q / 100) * Real.sqrt (rawVarWith cfg X Y g h noise i + noise) + rawMeanWith cfg X y Y g h noise i

/-- `predict(X, quantiles, full_cov, kern = …, include_likelihood = …)`, `model.py:49-52`: the kernel used is the given one, or the fitted one for `None`. -/
noncomputable def predictWith (cfg : Cfg) {n m : ℕ} (ppf : ℝ → ℝ) (X y : Fin n → ℝ) (g : GK ℝ) (noise : ℝ) (Y : Fin m → ℝ) (kern : Option (GK ℝ)) (quantiles : List ℝ := [2.5, 97.5])
    (fullCov : Bool := false) (includeLik : Bool := true) : Except PredErr (Prediction m) :=
  match quantiles.map (quantileAtWith cfg ppf X y Y g (kern.getD g) noise) with
  | lo :: hi :: _ => .ok ⟨rawMeanWith cfg X y Y g (kern.getD g) noise, predictCovWith cfg X Y g (kern.getD g) noise fullCov includeLik, lo, hi⟩
  | _ => .error .index

end Kern
end GPyABCD
