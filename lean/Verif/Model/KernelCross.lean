import Verif.Model.KernelTree

/-!
# Cross-covariances of whole kernels

`K(X, X2)` with two sets of points, as predictions at new inputs need it. The same assumptions on GPy as in `Model/KernelTree.lean`; `White.K(X, X2)` is zero
when a second set is given, whatever is in it.
-/

namespace GPyABCD
namespace Kern
open Params Sops

/-- An array. -/
abbrev Arr2 (n m : ℕ) := Fin n → Fin m → ℝ

/-- `K(X, X2)` of a base kernel; `linearKernel.py:69-84`, `linearOffsetKernel.py:58-60`, `periodicKernel.py:95-109`, and of GPy's. -/
noncomputable def baseK2 (cfg : Cfg) {n m : ℕ} (X : Fin n → ℝ) (Y : Fin m → ℝ) (b : Base) (p : PD ℝ) : Arr2 n m :=
  match b with
  | .WN => fun _ _ => 0
  | .C => matK (bias (varOf p)) X Y
  | .LIN => if cfg.linOffset then matK (linearOffset (varOf p) (p.offset.getD 0)) X Y else matK (linear (varOf p)) X Y
  | .SE => matK (rbf (varOf p) (p.lengthscale.getD 1)) X Y
  | .PER => matK (per (varOf p) (p.period.getD 1) (p.lengthscale.getD 1)) X Y
  | b => matK (basisK (varOf p) (sigPhi b p)) X Y

/-- `self.sigmoidal.K(X, X2)`, `self.sigmoidal_reverse.K(X, X2)`. -/
noncomputable def changeSig2 {n m : ℕ} (X : Fin n → ℝ) (Y : Fin m → ℝ) (c : CC) (p : PD ℝ) (rev : Bool) : Arr2 n m :=
  matK (basisK 1 (changePhi c p rev)) X Y

mutual
/-- `K(X, X2)`; `changeOperators.py:54-55`. -/
noncomputable def kerK2 (cfg : Cfg) {n m : ℕ} (X : Fin n → ℝ) (Y : Fin m → ℝ) : GK ℝ → Arr2 n m
  | .base b p => baseK2 cfg X Y b p
  | .comb .sum parts => kerSum2 cfg X Y parts
  | .comb .prod parts => kerProd2 cfg X Y parts
  | .change c p l r => fun i j => kerK2 cfg X Y l i j * changeSig2 X Y c p true i j + kerK2 cfg X Y r i j * changeSig2 X Y c p false i j
/-- Sum over parts. -/
noncomputable def kerSum2 (cfg : Cfg) {n m : ℕ} (X : Fin n → ℝ) (Y : Fin m → ℝ) : List (GK ℝ) → Arr2 n m
  | [] => fun _ _ => 0
  | k :: ks => fun i j => kerK2 cfg X Y k i j + kerSum2 cfg X Y ks i j
/-- Product over parts. -/
noncomputable def kerProd2 (cfg : Cfg) {n m : ℕ} (X : Fin n → ℝ) (Y : Fin m → ℝ) : List (GK ℝ) → Arr2 n m
  | [] => fun _ _ => 1
  | k :: ks => fun i j => kerK2 cfg X Y k i j * kerProd2 cfg X Y ks i j
end

end Kern
end GPyABCD
