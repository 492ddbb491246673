import Verif.Model.Gradients
import Verif.Model.Params

/-!
# Covariance matrices, diagonals and gradients of whole kernels

`K(X)`, `Kdiag(X)` and `update_gradients_full(dL_dK, X)` of the kernels that `to_kernel` makes (`Params.GK`), to any depth, over the reals.

Change kernels: `Kernels/changeOperators.py`. A change kernel computes with, and writes gradients to, the branches it was given; the copies the
optimiser sees are another matter (C55). Here `GK.change` has the branches it was given.

Assumed of GPy, which is not in the repository:
* `Add.K`, `Add.Kdiag` are the sums over the parts, and every part is given the same `dL_dK`;
* `Prod.K`, `Prod.Kdiag` are the products over the parts, and every part is given `dL_dK` times the product of the other parts' `K`;
* `White`, `Bias` and `RBF` have their documented covariances and gradients (`White.K(X)` is `variance * I`, by index);
* `BasisFuncKernel.update_gradients_full` gives the variance the gradient `sum(dL_dK * phi phi^T)`.

The starting values of parameters that are not linked: variance 1 (`Kernels/*.py` constructors and GPy's), slopes 0.5 in change kernels
(`changeOperators.py:88, 107`) and 0.2 in sigmoidal kernels (`sigmoidalKernels.py:44, 72, 148`). All other parameters are linked in the kernels
that the code makes; their starting values below are those of the constructors.
-/

namespace GPyABCD
namespace Kern
open Params Sops

/-- A square array. -/
abbrev Arr (n : ℕ) := Fin n → Fin n → ℝ

/-- `A * B`, entry by entry. -/
def Arr.mul {n : ℕ} (A B : Arr n) : Arr n := fun i j => A i j * B i j

/-- `A + B`. -/
def Arr.add {n : ℕ} (A B : Arr n) : Arr n := fun i j => A i j + B i j

/-- The variance of a base kernel. -/
def varOf (p : PD ℝ) : ℝ := p.variance.getD 1

/-- The direction of the basic sigmoids, `baseKernels.py:46-51`. -/
def reversed : Base → Bool
  | .Sr => true
  | .SIr => true
  | _ => false

/-- The basis function of a sigmoid. -/
noncomputable def sigPhi (b : Base) (p : PD ℝ) : ℝ → ℝ :=
  match b with
  | .SI | .SIr => phiSI (p.location.getD 0) (p.slope.getD 0.2) (p.width.getD 1) (reversed b)
  | _ => phiS (p.location.getD 0) (p.slope.getD 0.2) (reversed b)

/-- `K(X)` of a base kernel; `baseKernels.py:28-57`. -/
noncomputable def baseK (cfg : Cfg) {n : ℕ} (X : Fin n → ℝ) (b : Base) (p : PD ℝ) : Arr n :=
  match b with
  | .WN => fun i j => if i = j then varOf p else 0
  | .C => matK (bias (varOf p)) X X
  | .LIN => if cfg.linOffset then matK (linearOffset (varOf p) (p.offset.getD 0)) X X else matK (linear (varOf p)) X X
  | .SE => matK (rbf (varOf p) (p.lengthscale.getD 1)) X X
  | .PER => matK (per (varOf p) (p.period.getD 1) (p.lengthscale.getD 1)) X X
  | b => matK (basisK (varOf p) (sigPhi b p)) X X

/-- `Kdiag(X)` of a base kernel. -/
noncomputable def baseKdiag (cfg : Cfg) {n : ℕ} (X : Fin n → ℝ) (b : Base) (p : PD ℝ) : Fin n → ℝ :=
  match b with
  | .WN => fun _ => varOf p
  | .C => fun _ => varOf p
  | .LIN => if cfg.linOffset then linearOffsetKdiag (varOf p) (p.offset.getD 0) X else linearKdiag (varOf p) X
  | .SE => fun _ => varOf p
  | .PER => perKdiag (varOf p) X
  | b => fun i => varOf p * sigPhi b p (X i) ^ 2

/-- Gradients are kept for the linked parameters. -/
def onLinked (p g : PD ℝ) : PD ℝ :=
  ⟨p.variance.bind fun _ => g.variance, p.lengthscale.bind fun _ => g.lengthscale, p.period.bind fun _ => g.period, p.offset.bind fun _ => g.offset,
    p.location.bind fun _ => g.location, p.slope.bind fun _ => g.slope, p.width.bind fun _ => g.width⟩

/-- The gradients `update_gradients_full(dL_dK, X)` of a base kernel writes, before looking at which are linked. -/
noncomputable def baseGrad' (cfg : Cfg) {n : ℕ} (X : Fin n → ℝ) (dL : Arr n) (b : Base) (p : PD ℝ) : PD ℝ :=
  match b with
  | .WN => { variance := some (∑ i, dL i i) }
  | .C => { variance := some (∑ i, ∑ j, dL i j) }
  | .LIN =>
    if cfg.linOffset then
      { variance := some (linearOffsetGradV (p.offset.getD 0) dL X X), offset := some (linearOffsetGradO (varOf p) (p.offset.getD 0) dL X X) }
    else { variance := some (linearGradV dL X) }
  | .SE =>
    let l := p.lengthscale.getD 1
    { variance := some (msum dL (matK (rbf 1 l) X X)),
      lengthscale := some (msum dL (fun i j => rbf (varOf p) l (X i) (X j) * ((X i - X j) / l) ^ 2 / l)) }
  | .PER =>
    let g := perGrad (varOf p) (p.period.getD 1) (p.lengthscale.getD 1) dL X X
    { variance := some g.1, period := some g.2.1, lengthscale := some g.2.2 }
  | .SI | .SIr =>
    let g := gradSI (varOf p) (p.location.getD 0) (p.slope.getD 0.2) (p.width.getD 1) (reversed b) p.slope.isNone dL X none
    { variance := some (msum dL (matK (basisK 1 (sigPhi b p)) X X)), location := some g.1, slope := g.2.1, width := some g.2.2 }
  | b =>
    let g := gradS (varOf p) (p.location.getD 0) (p.slope.getD 0.2) (reversed b) p.slope.isNone dL X none
    { variance := some (msum dL (matK (basisK 1 (sigPhi b p)) X X)), location := some g.1, slope := g.2 }

/-- The gradients of the linked parameters. -/
noncomputable def baseGrad (cfg : Cfg) {n : ℕ} (X : Fin n → ℝ) (dL : Arr n) (b : Base) (p : PD ℝ) : PD ℝ := onLinked p (baseGrad' cfg X dL b p)

/-- `sigmoidal` and, with `rev`, `sigmoidal_reverse` of a change kernel, `changeOperators.py:27-37, 49-51, 112-114`. -/
noncomputable def changePhi (c : CC) (p : PD ℝ) (rev : Bool) : ℝ → ℝ :=
  match c with
  | .CP => phiS (p.location.getD 0) (p.slope.getD 0.5) rev
  | .CW => phiSI (p.location.getD 0) (p.slope.getD 0.5) (p.width.getD 1) rev

/-- `self.sigmoidal.K(X)`, `self.sigmoidal_reverse.K(X)`. -/
noncomputable def changeSig {n : ℕ} (X : Fin n → ℝ) (c : CC) (p : PD ℝ) (rev : Bool) : Arr n := matK (basisK 1 (changePhi c p rev)) X X

/-- Own gradients of a change kernel, `changeOperators.py:64-72, 116-118`, from `dL_dK * second.K(X)`. The sigmoid inside does not have a fixed slope. -/
noncomputable def changeGrad {n : ℕ} (X : Fin n → ℝ) (dL2 : Arr n) (c : CC) (p : PD ℝ) : PD ℝ :=
  onLinked p (match c with
  | .CP =>
    let g := gradS 1 (p.location.getD 0) (p.slope.getD 0.5) false false dL2 X none
    { location := some g.1, slope := g.2 }
  | .CW =>
    let g := gradSI 1 (p.location.getD 0) (p.slope.getD 0.5) (p.width.getD 1) false false dL2 X none
    { location := some g.1, slope := g.2.1, width := some g.2.2 })

mutual
/-- `K(X)`. -/
noncomputable def kerK (cfg : Cfg) {n : ℕ} (X : Fin n → ℝ) : GK ℝ → Arr n
  | .base b p => baseK cfg X b p
  | .comb .sum parts => kerSum cfg X parts
  | .comb .prod parts => kerProd cfg X parts
  | .change c p l r => ((kerK cfg X l).mul (changeSig X c p true)).add ((kerK cfg X r).mul (changeSig X c p false))
/-- Sum over parts. -/
noncomputable def kerSum (cfg : Cfg) {n : ℕ} (X : Fin n → ℝ) : List (GK ℝ) → Arr n
  | [] => fun _ _ => 0
  | k :: ks => (kerK cfg X k).add (kerSum cfg X ks)
/-- Product over parts. -/
noncomputable def kerProd (cfg : Cfg) {n : ℕ} (X : Fin n → ℝ) : List (GK ℝ) → Arr n
  | [] => fun _ _ => 1
  | k :: ks => (kerK cfg X k).mul (kerProd cfg X ks)
end

mutual
/-- `Kdiag(X)`; `changeOperators.py:57-59`. -/
noncomputable def kerDiag (cfg : Cfg) {n : ℕ} (X : Fin n → ℝ) : GK ℝ → Fin n → ℝ
  | .base b p => baseKdiag cfg X b p
  | .comb .sum parts => diagSum cfg X parts
  | .comb .prod parts => diagProd cfg X parts
  | .change c p l r => changeKdiag (kerDiag cfg X l) (kerDiag cfg X r) (changePhi c p false) (changePhi c p true) X
/-- Sum over parts. -/
noncomputable def diagSum (cfg : Cfg) {n : ℕ} (X : Fin n → ℝ) : List (GK ℝ) → Fin n → ℝ
  | [] => fun _ => 0
  | k :: ks => fun i => kerDiag cfg X k i + diagSum cfg X ks i
/-- Product over parts. -/
noncomputable def diagProd (cfg : Cfg) {n : ℕ} (X : Fin n → ℝ) : List (GK ℝ) → Fin n → ℝ
  | [] => fun _ => 1
  | k :: ks => fun i => kerDiag cfg X k i * diagProd cfg X ks i
end

mutual
/-- `update_gradients_full(dL_dK, X)`: the kernel with gradients in the place of values. -/
noncomputable def kerGrad (cfg : Cfg) {n : ℕ} (X : Fin n → ℝ) (dL : Arr n) : GK ℝ → GK ℝ
  | .base b p => .base b (baseGrad cfg X dL b p)
  | .comb .sum parts => .comb .sum (gradSum cfg X dL parts)
  | .comb .prod parts => .comb .prod (gradProd cfg X dL parts)
  | .change c p l r => .change c (changeGrad X (dL.mul (kerK cfg X r)) c p) (kerGrad cfg X (dL.mul (changeSig X c p true)) l)
      (kerGrad cfg X (dL.mul (changeSig X c p false)) r)
/-- `Add`: the same for all parts. -/
noncomputable def gradSum (cfg : Cfg) {n : ℕ} (X : Fin n → ℝ) (dL : Arr n) : List (GK ℝ) → List (GK ℝ)
  | [] => []
  | k :: ks => kerGrad cfg X dL k :: gradSum cfg X dL ks
/-- `Prod`: `dL` is `dL_dK` times the parts before. -/
noncomputable def gradProd (cfg : Cfg) {n : ℕ} (X : Fin n → ℝ) (dL : Arr n) : List (GK ℝ) → List (GK ℝ)
  | [] => []
  | k :: ks => kerGrad cfg X (dL.mul (kerProd cfg X ks)) k :: gradProd cfg X (dL.mul (kerK cfg X k)) ks
end

end Kern
end GPyABCD
