import Verif.Model.Kernels
import Mathlib.Algebra.BigOperators.Fin
import Mathlib.Data.Fintype.BigOperators

/-!
# Gradients and diagonals of the kernels

`update_gradients_full` and `Kdiag` of the package's own kernels, over the reals. Arrays of shape `(n, 1)`
are functions `Fin n → ℝ`, matrices `Fin n → Fin m → ℝ`. numpy's `isnan` guards never fire over the reals.
`BasisFuncKernel.update_gradients_full` (GPy, the variance gradient of the sigmoids) is not modelled.
-/

namespace GPyABCD.Kern

/-- `(A * B).sum()`. -/
def msum {n m : ℕ} (A B : Fin n → Fin m → ℝ) : ℝ := ∑ i, ∑ j, A i j * B i j

/-- `a.dot(b.T)` of two columns. -/
def dotT {n m : ℕ} (a : Fin n → ℝ) (b : Fin m → ℝ) : Fin n → Fin m → ℝ := fun i j => a i * b j

/-- `K(X, X2)` of a covariance. -/
def matK {n m : ℕ} (k : Cov) (X : Fin n → ℝ) (X2 : Fin m → ℝ) : Fin n → Fin m → ℝ := fun i j => k (X i) (X2 j)

/-! ## Linear with offset -/

/-- `LinearWithOffset._Kdiag`, `Kernels/linearOffsetKernel.py:86-88`: the sum over the only column. -/
def linearOffsetKdiag {n : ℕ} (v o : ℝ) (X : Fin n → ℝ) : Fin n → ℝ := fun i => v * (X i - o) ^ 2

/-- `variance.gradient`, `linearOffsetKernel.py:69, 72`. -/
def linearOffsetGradV {n m : ℕ} (o : ℝ) (dL : Fin n → Fin m → ℝ) (X : Fin n → ℝ) (X2 : Fin m → ℝ) : ℝ :=
  msum dL (fun i j => (X i - o) * (X2 j - o))

/-- `offset.gradient`, `linearOffsetKernel.py:70, 73`: `X2` is not transposed, so `2 * offset - X - X2` is a
column (both have `n` rows, or numpy raises) which the product with `dL_dK` repeats in every column. -/
def linearOffsetGradO {n : ℕ} (v o : ℝ) (dL : Fin n → Fin n → ℝ) (X X2 : Fin n → ℝ) : ℝ :=
  msum dL (fun i _ => v * (2 * o - X i - X2 i))

/-- `Linear.Kdiag`, `Kernels/linearKernel.py:86-87`. -/
def linearKdiag {n : ℕ} (v : ℝ) (X : Fin n → ℝ) : Fin n → ℝ := fun i => v * X i ^ 2

/-- `Linear.update_gradients_full` with `X2 = None` and no ARD, `linearKernel.py:89-100`. -/
noncomputable def linearGradV {n : ℕ} (dL : Fin n → Fin n → ℝ) (X : Fin n → ℝ) : ℝ :=
  msum (fun i j => X i * X j) (fun i j => (dL i j + dL j i) / 2)

/-- `Linear.update_gradients_full` with `X2` given and no ARD, `linearKernel.py:100`. -/
def linearGradV2 {n m : ℕ} (dL : Fin n → Fin m → ℝ) (X : Fin n → ℝ) (X2 : Fin m → ℝ) : ℝ :=
  msum (fun i j => X i * X2 j) dL

/-! ## Sigmoidal kernels -/

/-- `_update_gradients_full_S_1`, `Kernels/sigmoidalKernels.py:106-121`: location and slope gradients, the
latter 1.0 if the slope is fixed. -/
noncomputable def gradS1 {n : ℕ} (v l s : ℝ) (fixed : Bool) (phi1 : Fin n → ℝ) (dL : Fin n → Fin n → ℝ) (X : Fin n → ℝ) : ℝ × ℝ :=
  let arg := fun i => (X i - l) / s
  let sigD := fun i => sigmoidD (arg i)
  let dphiL := fun i => sigD i / (-s)
  let gl := v * 2 * msum dL (dotT phi1 dphiL)
  if fixed then (gl, 1)
  else
    let dphiS := fun i => sigD i * (-arg i / s)
    (gl, v * 2 * msum dL (dotT phi1 dphiS))

/-- `_update_gradients_full_S_2`, `sigmoidalKernels.py:123-139`; `phi2.dot(dphi1.T)` has as many rows as
`X2`, so both inputs must have the same number of points. -/
noncomputable def gradS2 {n : ℕ} (v l s : ℝ) (fixed : Bool) (phi1 phi2 : Fin n → ℝ) (dL : Fin n → Fin n → ℝ) (X X2 : Fin n → ℝ) : ℝ × ℝ :=
  let arg := fun i => (X i - l) / s
  let arg2 := fun i => (X2 i - l) / s
  let sigD := fun i => sigmoidD (arg i)
  let sigD2 := fun i => sigmoidD (arg2 i)
  let dphi1L := fun i => sigD i / (-s)
  let dphi2L := fun i => sigD2 i / (-s)
  let gl := v * msum dL (fun i j => dotT phi1 dphi2L i j + dotT phi2 dphi1L i j)
  if fixed then (gl, 1)
  else
    let dphi1S := fun i => sigD i * (-arg i / s)
    let dphi2S := fun i => sigD2 i * (-arg2 i / s)
    (gl, v * msum dL (fun i j => dotT phi1 dphi2S i j + dotT phi2 dphi1S i j))

/-- `SigmoidalKernel.update_gradients_full`, `sigmoidalKernels.py:80-99`: the values written to
`location.gradient` and `slope.gradient` (`none`: not written because the slope is fixed). `X2 = none` also
stands for `X2 is X`. -/
noncomputable def gradS {n : ℕ} (v l s : ℝ) (reverse fixed : Bool) (dL : Fin n → Fin n → ℝ) (X : Fin n → ℝ)
    (X2 : Option (Fin n → ℝ)) : ℝ × Option ℝ :=
  let phi1 := fun i => phiS l s reverse (X i)
  let g := match X2 with
    | none => gradS1 v l s fixed phi1 dL X
    | some X2 => gradS2 v l s fixed phi1 (fun i => phiS l s reverse (X2 i)) dL X X2
  let gl := if reverse then -g.1 else g.1
  let gs := if fixed then none else some (if reverse then -g.2 else g.2)
  (gl, gs)

/-- `_update_gradients_full_SI`, `sigmoidalKernels.py:181-230`: location, slope and width gradients. -/
noncomputable def gradSI' {n : ℕ} (v l s w : ℝ) (reverse fixed : Bool) (phi1 phi2 : Fin n → ℝ) (dL : Fin n → Fin n → ℝ) (X X2 : Fin n → ℝ) : ℝ × ℝ × ℝ :=
  let arg := fun i => (X i - l) / s
  let arg2 := fun i => (X2 i - l) / s
  let argW := fun i => (X i - l - w) / (-s)
  let argW2 := fun i => (X2 i - l - w) / (-s)
  let sigD := fun i => sigmoidD (arg i)
  let sigD2 := fun i => sigmoidD (arg2 i)
  let sigDW := fun i => sigmoidD (argW i)
  let sigDW2 := fun i => sigmoidD (argW2 i)
  let num1 := fun i => sigmoid (arg i) + sigmoid (argW i) - 1
  let num2 := fun i => sigmoid (arg2 i) + sigmoid (argW2 i) - 1
  let hArg := w / (2 * s)
  let invH := 1 / core hArg
  let invHD := invCoreD hArg
  let dinvW := invHD / (2 * s)
  let dinvS := invHD * (-hArg / s)
  let dphi1L := fun i => ((-sigD i + sigDW i) / s) * invH
  let dphi2L := fun i => ((-sigD2 i + sigDW2 i) / s) * invH
  let gl := v * msum dL (fun i j => dotT phi1 dphi2L i j + dotT phi2 dphi1L i j)
  let dphi1S := fun i => ((sigD i * arg i + sigDW i * argW i) / (-s)) * invH + num1 i * dinvS
  let dphi2S := fun i => ((sigD2 i * arg2 i + sigDW2 i * argW2 i) / (-s)) * invH + num2 i * dinvS
  let gs := if fixed then 1 else v * msum dL (fun i j => dotT phi1 dphi2S i j + dotT phi2 dphi1S i j)
  let dphi1W := fun i => (sigDW i / s) * invH + num1 i * dinvW
  let dphi2W := fun i => (sigDW2 i / s) * invH + num2 i * dinvW
  let gw := v * msum dL (fun i j => dotT phi1 dphi2W i j + dotT phi2 dphi1W i j)
  if reverse then (-gl, (if fixed then gs else -gs), -gw) else (gl, gs, gw)

/-- `SigmoidalIndicatorKernel.update_gradients_full`, `sigmoidalKernels.py:158-171`: the values written to
the location, slope (if not fixed) and width gradients. -/
noncomputable def gradSI {n : ℕ} (v l s w : ℝ) (reverse fixed : Bool) (dL : Fin n → Fin n → ℝ) (X : Fin n → ℝ)
    (X2 : Option (Fin n → ℝ)) : ℝ × Option ℝ × ℝ :=
  let X2 := X2.getD X
  let g := gradSI' v l s w reverse fixed (fun i => phiSI l s w reverse (X i)) (fun i => phiSI l s w reverse (X2 i)) dL X X2
  (g.1, (if fixed then none else some g.2.1), g.2.2)

/-! ## Change kernels -/

/-- `ChangeKernelBase.Kdiag`, `Kernels/changeOperators.py:57-59`, from the branches' diagonals. -/
def changeKdiag {n : ℕ} (firstD secondD : Fin n → ℝ) (phi phiR : ℝ → ℝ) (X : Fin n → ℝ) : Fin n → ℝ := fun i =>
  firstD i * (1 * phiR (X i) ^ 2) + secondD i * (1 * phi (X i) ^ 2)

/-- `ChangePointKernel.update_gradients_full`, `changeOperators.py:64-72`, location and slope (the branches'
own gradients are delegated to them): only the gradient of `sigmoidal` is used. -/
noncomputable def changePointGrad {n : ℕ} (l s : ℝ) (fixed : Bool) (second : Cov) (dL : Fin n → Fin n → ℝ) (X : Fin n → ℝ) : ℝ × Option ℝ :=
  let g := gradS 1 l s false false (fun i j => dL i j * second (X i) (X j)) X none
  (g.1, if fixed then none else g.2)

/-- What `changeOperators.py:70-72` would compute with its commented-out halves. -/
noncomputable def changePointGradFull {n : ℕ} (l s : ℝ) (first second : Cov) (dL : Fin n → Fin n → ℝ) (X : Fin n → ℝ) : ℝ :=
  (gradS 1 l s false false (fun i j => dL i j * second (X i) (X j)) X none).1 +
  (gradS 1 l s true false (fun i j => dL i j * first (X i) (X j)) X none).1

/-- `ChangeWindowKernel.update_gradients_full`, `changeOperators.py:64-72, 116-118`: location, slope, width. -/
noncomputable def changeWindowGrad {n : ℕ} (l s w : ℝ) (fixed : Bool) (second : Cov) (dL : Fin n → Fin n → ℝ) (X : Fin n → ℝ) : ℝ × Option ℝ × ℝ :=
  let g := gradSI 1 l s w false false (fun i j => dL i j * second (X i) (X j)) X none
  (g.1, (if fixed then none else g.2.1), g.2.2)

/-- `ChangeWindowShiftedSidesBase.K`, `Kernels/changeWindowShiftedSides.py:66-69`: the third sigmoid sits at
`location + width`. -/
noncomputable def shiftedSidesK (first second : Cov) (shift l s w : ℝ) : Cov := fun x y =>
  first x y * basisK 1 (phiS l s true) x y + second x y * basisK 1 (phiSI l s w false) x y +
    (first x y + shift) * basisK 1 (phiS (l + w) s false) x y

/-- `ChangeWindowIndependentBase.K`, `Kernels/changeWindowThreePart.py:64-66`. -/
noncomputable def threePartK (first second third : Cov) (l s w : ℝ) : Cov := fun x y =>
  first x y * basisK 1 (phiS l s true) x y + second x y * basisK 1 (phiSI l s w false) x y +
    third x y * basisK 1 (phiS (l + w) s false) x y

/-! ## Purely periodic kernel -/

/-- `scipy.special.i1`: modified Bessel function of the first kind of order 1, by its power series. -/
noncomputable def i1 (z : ℝ) : ℝ := ∑' k : ℕ, z / 2 * (z ^ 2 / 4) ^ k / ((k.factorial : ℝ) * ((k + 1).factorial : ℝ))

/-- `PureStdPeriodicKernel.Kdiag`, `Kernels/periodicKernel.py:114-117`. -/
def perKdiag {n : ℕ} (v : ℝ) (_X : Fin n → ℝ) : Fin n → ℝ := fun _ => v

/-- `dK_dV`, `periodicKernel.py:127, 145, 162`, one entry. -/
noncomputable def perDV (p l d : ℝ) : ℝ :=
  let cosT := Real.cos ((2 * Real.pi / p) * d)
  let z := 1 / l ^ 2
  if l > 10000 then cosT
  else if z < 3.75 then (Real.exp (cosT * z) - i0 z) / (Real.exp z - i0 z)
  else (Real.exp ((cosT - 1) * z) - embi0 z) / (1 - embi0 z)

/-- `dK_dp`, `periodicKernel.py:129, 147, 164`, one entry. -/
noncomputable def perDP (v p l d : ℝ) : ℝ :=
  let arg := (2 * Real.pi / p) * d
  let cosT := Real.cos arg
  let sinT := Real.sin arg
  let z := 1 / l ^ 2
  if l > 10000 then v / p * arg * sinT
  else if z < 3.75 then v / p * z * arg * sinT * Real.exp (cosT * z) / (Real.exp z - i0 z)
  else v / p * z * arg * sinT * Real.exp ((cosT - 1) * z) / (1 - embi0 z)

/-- `dK_dl`, `periodicKernel.py:131-133, 149, 166`, one entry. -/
noncomputable def perDL (v p l d : ℝ) : ℝ :=
  let cosT := Real.cos ((2 * Real.pi / p) * d)
  let z := 1 / l ^ 2
  let dz := -2 * z / l
  if l > 10000 then 0.0001 / l
  else if z < 3.75 then
    let denom := Real.exp z - i0 z
    let e := Real.exp (cosT * z)
    let kn := (e - i0 z) / denom
    dz * v * ((cosT * e - i1 z) - kn * (Real.exp z - i1 z)) / denom
  else
    let denom := 1 - embi0 z
    let e := Real.exp ((cosT - 1) * z)
    let kn := (e - embi0 z) / denom
    dz * v * ((cosT - 1) * e + embi0min1 z - kn * embi0min1 z) / denom

/-- `PureStdPeriodicKernel.update_gradients_full`, `periodicKernel.py:119-170`: variance, period and
lengthscale gradients. -/
noncomputable def perGrad {n m : ℕ} (v p l : ℝ) (dL : Fin n → Fin m → ℝ) (X : Fin n → ℝ) (X2 : Fin m → ℝ) : ℝ × ℝ × ℝ :=
  (msum dL (fun i j => perDV p l (X i - X2 j)), msum dL (fun i j => perDP v p l (X i - X2 j)),
    msum dL (fun i j => perDL v p l (X i - X2 j)))

end GPyABCD.Kern
