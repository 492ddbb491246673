import Mathlib.Analysis.SpecialFunctions.Sqrt
import Mathlib.Data.Fintype.BigOperators

/-!
# The linear kernel in any number of dimensions

`/repo/GPy_ABCD/Kernels/linearKernel.py`, over the reals. Inputs of shape `(n, q)` are functions `Fin n → Fin q → ℝ`. `X2 = None` and a given `X2` are
two definitions each, because their `dL_dK` have different shapes. The psi statistics (which need GPy's variational inference) are left out.
-/

namespace GPyABCD.Lin

/-- `variance`, `linearKernel.py:36-51`: one number, or one for every input dimension (`ARD`). -/
inductive Var (q : ℕ)
  | one (v : ℝ)
  | ard (v : Fin q → ℝ)

/-- `variance` as numpy repeats it along the last axis of an array of shape `(n, q)`. -/
def Var.at {q : ℕ} : Var q → Fin q → ℝ
  | .one v, _ => v
  | .ard v, k => v k

/-- `_dot_product(X, X2)`, `linearKernel.py:79-84`. -/
def dot {n m q : ℕ} (X : Fin n → Fin q → ℝ) (X2 : Fin m → Fin q → ℝ) : Fin n → Fin m → ℝ := fun i j => ∑ k, X i k * X2 j k

/-- `K(X)`, `linearKernel.py:68-77` with `X2 = None`; `tdot(A)` is `A.dot(A.T)`. -/
noncomputable def K1 {n q : ℕ} (v : Var q) (X : Fin n → Fin q → ℝ) : Fin n → Fin n → ℝ :=
  match v with
  | .ard v => dot (fun i k => X i k * √(v k)) (fun i k => X i k * √(v k))
  | .one v => fun i j => dot X X i j * v

/-- `K(X, X2)`, `linearKernel.py:68-77`. -/
noncomputable def K2 {n m q : ℕ} (v : Var q) (X : Fin n → Fin q → ℝ) (X2 : Fin m → Fin q → ℝ) : Fin n → Fin m → ℝ :=
  match v with
  | .ard v =>
    let rv := fun k => √(v k)
    dot (fun i k => X i k * rv k) (fun i k => X2 i k * rv k)
  | .one v => fun i j => dot X X2 i j * v

/-- `Kdiag`, `linearKernel.py:86-87`. -/
def Kdiag {n q : ℕ} (v : Var q) (X : Fin n → Fin q → ℝ) : Fin n → ℝ := fun i => ∑ k, v.at k * X i k ^ 2

/-- `(dL_dK + dL_dK.T) / 2`, `linearKernel.py:90, 111`. -/
noncomputable def half {n : ℕ} (dL : Fin n → Fin n → ℝ) : Fin n → Fin n → ℝ := fun i j => (dL i j + dL j i) / 2

/-- `variance.gradient` after `update_gradients_full(dL_dK, X)`, `linearKernel.py:89-100`. -/
noncomputable def grad1 {n q : ℕ} (v : Var q) (dL : Fin n → Fin n → ℝ) (X : Fin n → Fin q → ℝ) : Var q :=
  let dL := half dL
  match v with
  | .ard _ => .ard fun k => ∑ i, (∑ j, dL i j * X j k) * X i k
  | .one _ => .one (∑ i, ∑ j, dot X X i j * dL i j)

/-- `variance.gradient` after `update_gradients_full(dL_dK, X, X2)`, `linearKernel.py:89-100`. -/
def grad2 {n m q : ℕ} (v : Var q) (dL : Fin n → Fin m → ℝ) (X : Fin n → Fin q → ℝ) (X2 : Fin m → Fin q → ℝ) : Var q :=
  match v with
  | .ard _ => .ard fun k => ∑ i, (∑ j, dL i j * X2 j k) * X i k
  | .one _ => .one (∑ i, ∑ j, dot X X2 i j * dL i j)

/-- `variance.gradient` after `update_gradients_diag(dL_dKdiag, X)`, `linearKernel.py:102-107`. -/
def gradDiag {n q : ℕ} (v : Var q) (dL : Fin n → ℝ) (X : Fin n → Fin q → ℝ) : Var q :=
  let tmp := fun i k => dL i * X i k ^ 2
  match v with
  | .ard _ => .ard fun k => ∑ i, tmp i k
  | .one _ => .one (∑ i, ∑ k, tmp i k)

/-- `gradients_X(dL_dK, X)`, `linearKernel.py:110-113`. -/
noncomputable def gradientsX1 {n q : ℕ} (v : Var q) (dL : Fin n → Fin n → ℝ) (X : Fin n → Fin q → ℝ) : Fin n → Fin q → ℝ :=
  let dL := half dL
  fun i k => (∑ j, dL i j * X j k) * (2 * v.at k)

/-- `gradients_X(dL_dK, X, X2)`, `linearKernel.py:114-116`. -/
def gradientsX2 {n m q : ℕ} (v : Var q) (dL : Fin n → Fin m → ℝ) (_X : Fin n → Fin q → ℝ) (X2 : Fin m → Fin q → ℝ) : Fin n → Fin q → ℝ :=
  fun i k => (∑ j, dL i j * X2 j k) * v.at k

/-- `gradients_XX(dL_dK, X, X2)`, `linearKernel.py:118-134`: zeros. -/
def gradientsXX {n m q : ℕ} (_v : Var q) (_dL : Fin n → Fin m → ℝ) (_X : Fin n → Fin q → ℝ) (_X2 : Fin m → Fin q → ℝ) : Fin n → Fin m → Fin q → Fin q → ℝ :=
  fun _ _ _ _ => 0

/-- `gradients_X_diag(dL_dKdiag, X)`, `linearKernel.py:142-143`. -/
def gradientsXDiag {n q : ℕ} (v : Var q) (dL : Fin n → ℝ) (X : Fin n → Fin q → ℝ) : Fin n → Fin q → ℝ := fun i k => 2 * v.at k * dL i * X i k

/-- `gradients_XX_diag(dL_dKdiag, X)`, `linearKernel.py:145-146`: zeros. -/
def gradientsXXDiag {n q : ℕ} (_v : Var q) (_dL : Fin n → ℝ) (_X : Fin n → Fin q → ℝ) : Fin n → Fin q → Fin q → ℝ := fun _ _ _ => 0

end GPyABCD.Lin
