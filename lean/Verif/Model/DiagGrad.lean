import Verif.Model.KernelTree

/-!
# Gradients through the diagonal

`update_gradients_diag(dL_dKdiag, X)` of the kernels that `to_kernel` makes. `none` is `NotImplementedError`; what was written before it was raised is not kept.

Assumed of GPy, which is not in the repository:
* `Kern.update_gradients_diag` raises `NotImplementedError`, which `LinearWithOffset` and `PureStdPeriodicKernel` inherit (`linearOffsetKernel.py` and
  `periodicKernel.py` define none);
* `White`, `Bias` and `RBF` give the variance the sum of `dL_dKdiag`, and `RBF` gives the lengthscale 0;
* `Add` gives every part the same `dL_dKdiag`, and `Prod` gives every part `dL_dKdiag` times the product of the other parts' `Kdiag`.
-/

namespace GPyABCD
namespace Kern
open Params Sops

/-- Base kernels; `linearKernel.py:102-107` without ARD, `sigmoidalKernels.py:62-63`. -/
def baseDiagGrad (cfg : Cfg) {n : ℕ} (X dL : Fin n → ℝ) (b : Base) (p : PD ℝ) : Option (PD ℝ) :=
  match b with
  | .WN => some (onLinked p { variance := some (∑ i, dL i) })
  | .C => some (onLinked p { variance := some (∑ i, dL i) })
  | .SE => some (onLinked p { variance := some (∑ i, dL i), lengthscale := some 0 })
  | .LIN => if cfg.linOffset then none else some (onLinked p { variance := some (∑ i, dL i * X i ^ 2) })
  | .PER => none
  | .S | .Sr | .SI | .SIr => none

mutual
/-- `update_gradients_diag(dL_dKdiag, X)`: the kernel with gradients in the place of values. A change kernel (`changeOperators.py:75-83, 120-122`) calls
its second branch and then its own sigmoid, which raises (`sigmoidalKernels.py:62-63`), whatever the branch does. -/
noncomputable def kerDiagGrad (cfg : Cfg) {n : ℕ} (X dL : Fin n → ℝ) : GK ℝ → Option (GK ℝ)
  | .base b p => (baseDiagGrad cfg X dL b p).map (GK.base b)
  | .comb .sum parts => (diagGradSum cfg X dL parts).map (GK.comb .sum)
  | .comb .prod parts => (diagGradProd cfg X dL parts).map (GK.comb .prod)
  | .change c p _ r =>
    match kerDiagGrad cfg X (fun i => dL i * changePhi c p false (X i) ^ 2) r with
    | none => none
    | some _ => none
/-- `Add`: the same for all parts. -/
noncomputable def diagGradSum (cfg : Cfg) {n : ℕ} (X dL : Fin n → ℝ) : List (GK ℝ) → Option (List (GK ℝ))
  | [] => some []
  | k :: ks =>
    match kerDiagGrad cfg X dL k, diagGradSum cfg X dL ks with
    | some g, some gs => some (g :: gs)
    | _, _ => none
/-- `Prod`: `dL` is `dL_dKdiag` times the parts before. -/
noncomputable def diagGradProd (cfg : Cfg) {n : ℕ} (X dL : Fin n → ℝ) : List (GK ℝ) → Option (List (GK ℝ))
  | [] => some []
  | k :: ks =>
    match kerDiagGrad cfg X (fun i => dL i * diagProd cfg X ks i) k, diagGradProd cfg X (fun i => dL i * kerDiag cfg X k i) ks with
    | some g, some gs => some (g :: gs)
    | _, _ => none
end

end Kern
end GPyABCD
