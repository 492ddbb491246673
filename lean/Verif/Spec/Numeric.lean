import Verif.Spec.Sem
import Mathlib.Algebra.BigOperators.Fin

/-!
# Specification: covariances and loss functions
-/

namespace GPyABCD

/-- Covariance function: symmetric, and every quadratic form on finitely many points is non-negative. -/
def IsCov (k : Cov) : Prop :=
  (∀ x y, k x y = k y x) ∧
  ∀ (n : ℕ) (x c : Fin n → ℝ), 0 ≤ ∑ i, ∑ j, c i * c j * k (x i) (x j)

/-- `sum(dL_dK * K(X, X2))`, the linear approximation of the loss whose derivatives the gradients are. -/
def linLoss {n m : ℕ} (dL : Fin n → Fin m → ℝ) (k : Cov) (X : Fin n → ℝ) (X2 : Fin m → ℝ) : ℝ :=
  ∑ i, ∑ j, dL i j * k (X i) (X2 j)

/-- A symmetric square array. -/
def SymmArr {n : ℕ} (dL : Fin n → Fin n → ℝ) : Prop := ∀ i j, dL i j = dL j i

/-- The real kernels with the periodic kernel's lengthscale in the two regimes computed exactly. -/
def exactI (cfg : Cfg) (V : Set ℝ) : Interp where
  F
    | .PER => {f | ∃ v ∈ V, ∃ p l, 0 < p ∧ 0 < l ∧ (l > 10000 ∨ 1 / l ^ 2 < 3.75) ∧ f = Kern.per v p l}
    | b => (realI cfg V).F b
  chg := (realI cfg V).chg

end GPyABCD
