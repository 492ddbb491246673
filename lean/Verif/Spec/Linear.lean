import Mathlib.Data.Fintype.BigOperators
import Mathlib.Data.Real.Basic

/-!
# Specification: linear covariance and losses in any number of dimensions
-/

namespace GPyABCD.Lin

/-- `k(x, y) = sum_k v_k x_k y_k`, the formula in the documentation of the kernel. -/
def cov {q : ℕ} (v : Fin q → ℝ) (x y : Fin q → ℝ) : ℝ := ∑ k, v k * x k * y k

/-- `sum_ij dL_ij k(x_i, z_j)`. -/
def loss {n m q : ℕ} (dL : Fin n → Fin m → ℝ) (v : Fin q → ℝ) (X : Fin n → Fin q → ℝ) (Z : Fin m → Fin q → ℝ) : ℝ := ∑ i, ∑ j, dL i j * cov v (X i) (Z j)

/-- `sum_i dL_i k(x_i, x_i)`. -/
def lossDiag {n q : ℕ} (dL : Fin n → ℝ) (v : Fin q → ℝ) (X : Fin n → Fin q → ℝ) : ℝ := ∑ i, dL i * cov v (X i) (X i)

/-- `X` with the entry in row `i` and column `k` replaced. -/
def move {n q : ℕ} (X : Fin n → Fin q → ℝ) (i : Fin n) (k : Fin q) (t : ℝ) : Fin n → Fin q → ℝ := fun i' k' => if i' = i ∧ k' = k then t else X i' k'

/-- `x` with the entry `k` replaced. -/
def setAt {q : ℕ} (x : Fin q → ℝ) (k : Fin q) (t : ℝ) : Fin q → ℝ := fun k' => if k' = k then t else x k'

end GPyABCD.Lin
