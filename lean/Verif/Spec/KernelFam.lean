import Verif.Model.KernelCross
import Mathlib.LinearAlgebra.Matrix.NonsingularInverse
import Verif.Spec.Params

/-!
# Specification: the values a kernel may be given, and its covariance function
-/

namespace GPyABCD
namespace Kern
open Params Sops

/-- Values the optimiser can give the linked parameters: variances, lengthscales, periods, slopes and widths are kept positive (`Logexp`),
offsets and locations are free; `linearOffsetKernel.py:32-43`, `periodicKernel.py:63-84`, `changeOperators.py:15-37`. -/
def AdmPD (p : PD ℝ) : Prop :=
  (∀ v ∈ p.variance, 0 < v) ∧ (∀ v ∈ p.lengthscale, 0 < v) ∧ (∀ v ∈ p.period, 0 < v) ∧ (∀ v ∈ p.slope, 0 < v) ∧ ∀ v ∈ p.width, 0 < v

mutual
/-- All values in a kernel are such. -/
def Adm : GK ℝ → Prop
  | .base _ p => AdmPD p
  | .comb _ parts => AdmL parts
  | .change _ p l r => AdmPD p ∧ Adm l ∧ Adm r
/-- Over a list. -/
def AdmL : List (GK ℝ) → Prop
  | [] => True
  | k :: ks => Adm k ∧ AdmL ks
end

/-- At any number of different points the matrix `K(X)` has the values of `f` as entries. -/
def CovOf (cfg : Cfg) (g : GK ℝ) (f : Cov) : Prop :=
  ∀ (n : ℕ) (X : Fin n → ℝ), Function.Injective X → ∀ i j, kerK cfg X g i j = f (X i) (X j)

mutual
/-- No noise in a kernel. -/
def NoWN : GK ℝ → Prop
  | .base b _ => b ≠ .WN
  | .comb _ parts => NoWNL parts
  | .change _ _ l r => NoWN l ∧ NoWN r
/-- Over a list. -/
def NoWNL : List (GK ℝ) → Prop
  | [] => True
  | k :: ks => NoWN k ∧ NoWNL ks
end

/-- Predicted covariances at new inputs `Y` of the latent function, given noisy observations at `X`: what GPy's exact inference, behind `predict`
(`Models/model.py:49-52`), computes from the three matrices. -/
noncomputable def predCov (cfg : Cfg) {n m : ℕ} (X : Fin n → ℝ) (Y : Fin m → ℝ) (g : GK ℝ) (noise : ℝ) : Matrix (Fin m) (Fin m) ℝ :=
  Matrix.of (kerK cfg Y g) - (Matrix.of (kerK2 cfg X Y g)).transpose * (Matrix.of (kerK cfg X g) + noise • (1 : Matrix (Fin n) (Fin n) ℝ))⁻¹ * Matrix.of (kerK2 cfg X Y g)

end Kern
end GPyABCD
