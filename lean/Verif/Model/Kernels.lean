import Verif.Model.KE
import Mathlib.Analysis.SpecialFunctions.Trigonometric.Basic
import Mathlib.Analysis.SpecialFunctions.Exp
import Mathlib.Analysis.SpecialFunctions.Sqrt
import Mathlib.Topology.Algebra.InfiniteSum.Basic
import Mathlib.Data.Nat.Factorial.Basic

/-!
# Covariance formulas

Scalar formulas of the kernels, over the reals (floating point is not modelled): every kernel is the
function giving one entry `K(X, X2)[i, j]` from `x = X[i]`, `y = X2[j]` (inputs are one-dimensional
throughout the package). `White`, `Bias` and `RBF` are GPy's; they are modelled by their documented
formulas.
-/

namespace GPyABCD

/-- One covariance function. -/
abbrev Cov := ℝ → ℝ → ℝ

namespace Kern

/-- `_sigmoid_function`, `Kernels/sigmoidalKernels.py:13`. -/
noncomputable def sigmoid (a : ℝ) : ℝ := (1 + a / (1 + |a|)) / 2

/-- `_sigmoid_function_d`, `sigmoidalKernels.py:15`. -/
noncomputable def sigmoidD (a : ℝ) : ℝ := 0.5 / (1 + |a|) ^ 2

/-- `_core_sigmoid_function`, `sigmoidalKernels.py:27`. -/
noncomputable def core (a : ℝ) : ℝ := a / (1 + |a|)

/-- `_inv_core_sigmoid_d`, `sigmoidalKernels.py:33`. -/
noncomputable def invCoreD (a : ℝ) : ℝ := -1 / a ^ 2

/-- `_phi_S`, `sigmoidalKernels.py:102-104`. -/
noncomputable def phiS (loc slope : ℝ) (reverse : Bool) (x : ℝ) : ℝ :=
  let asc := sigmoid ((x - loc) / slope)
  if reverse then 1 - asc else asc

/-- `_phi_SI`, `sigmoidalKernels.py:174-179`. -/
noncomputable def phiSI (loc slope width : ℝ) (reverse : Bool) (x : ℝ) : ℝ :=
  let asc := sigmoid ((x - loc) / slope)
  let desc := sigmoid ((x - loc - width) / (-slope))
  let height := core (width / (2 * slope))
  let hat := (asc + desc - 1) / height
  if reverse then 1 - hat else hat

/-- GPy's `BasisFuncKernel.K` for a one-dimensional basis: `variance * phi(X) phi(X2)^T`. -/
noncomputable def basisK (v : ℝ) (phi : ℝ → ℝ) : Cov := fun x y => v * (phi x * phi y)

/-- GPy's `White` between points of one data set: `variance` on equal points. -/
noncomputable def white (v : ℝ) : Cov := fun x y => if x = y then v else 0

/-- GPy's `Bias`. -/
def bias (v : ℝ) : Cov := fun _ _ => v

/-- GPy's `RBF`. -/
noncomputable def rbf (v l : ℝ) : Cov := fun x y => v * Real.exp (-((x - y) / l) ^ 2 / 2)

/-- `Linear.K` (`Kernels/linearKernel.py`), one-dimensional: `sigma^2 x y`. -/
def linear (v : ℝ) : Cov := fun x y => v * x * y

/-- `LinearWithOffset.K`, `Kernels/linearOffsetKernel.py:58-60`. -/
def linearOffset (v o : ℝ) : Cov := fun x y => v * (x - o) * (y - o)

/-- `scipy.special.i0`: modified Bessel function of the first kind of order 0, by its power series. -/
noncomputable def i0 (z : ℝ) : ℝ := ∑' k : ℕ, (z ^ 2 / 4) ^ k / ((k.factorial : ℝ) ^ 2)

/-- `_embi0`, `Kernels/periodicKernel.py:12-16`. -/
noncomputable def embi0 (x : ℝ) : ℝ :=
  let y := 3.75 / x
  let f := 0.39894228 + (0.01328592 + (0.00225319 + (-0.00157565 + (0.00916281 + (-0.02057706 + (0.02635537 + (-0.01647633 + (0.00392377)*y)*y)*y)*y)*y)*y)*y)*y
  f / √x

/-- `_embi1`, `periodicKernel.py:17-21`. -/
noncomputable def embi1 (x : ℝ) : ℝ :=
  let y := 3.75 / x
  let f := 0.39894228 + (-0.03988024 + (-0.00362018 + (0.00163801 + (-0.01031555 + (0.02282967 + (-0.02895312 + (0.01787654 + (-0.00420059)*y)*y)*y)*y)*y)*y)*y)*y
  f / √x

/-- `_embi0min1`, `periodicKernel.py:22-26`. -/
noncomputable def embi0min1 (x : ℝ) : ℝ :=
  let y := 3.75 / x
  let f := (0.05316616 + (0.00587337 + (-0.00321366 + (0.01947836 + (-0.04340673 + (0.05530849 + (-0.03435287 + (0.00812436)*y)*y)*y)*y)*y)*y)*y)*y
  f / √x

/-- The three regimes of `PureStdPeriodicKernel.K`, `periodicKernel.py:95-109`, as a function of the
cosine term and the lengthscale, for unit variance. -/
noncomputable def perCore (l : ℝ) (cosTerm : ℝ) : ℝ :=
  let invL2 := 1 / l ^ 2
  if l > 10000 then cosTerm
  else if invL2 < 3.75 then
    (Real.exp (cosTerm * invL2) - i0 invL2) / (Real.exp invL2 - i0 invL2)
  else
    (Real.exp ((cosTerm - 1) * invL2) - embi0 invL2) / (1 - embi0 invL2)

/-- `PureStdPeriodicKernel.K`, `periodicKernel.py:95-109`. -/
noncomputable def per (v p l : ℝ) : Cov := fun x y => v * perCore l (Real.cos ((2 * Real.pi / p) * (x - y)))

/-- `ChangeKernelBase.K`, `Kernels/changeOperators.py:54-55`, for a sigmoid basis function `phi` and its
reverse `phiR` (both sigmoidal kernels have variance 1). -/
noncomputable def changeK (first second : Cov) (phi phiR : ℝ → ℝ) : Cov := fun x y =>
  first x y * basisK 1 phiR x y + second x y * basisK 1 phi x y

end Kern
end GPyABCD
