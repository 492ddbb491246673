import Verif.Model.KernelTree
import Verif.Spec.Sops

/-!
# Specification: entries of the covariance matrices of single terms
-/

namespace GPyABCD
namespace Kern
open Params Sops

/-- The change operator whose weights are a sigmoid, and whether it is the weight of the first branch. -/
def weightOf : Base → CC × Bool
  | .SI => (.CW, false)
  | .SIr => (.CW, true)
  | .Sr => (.CP, true)
  | _ => (.CP, false)

/-- The entry at `i`, `j` of the matrix of a factor of variance one: for `WN`, `C`, `LIN`, `SE` and `PER` that of the base kernel's `K(X)`, for the sigmoids that
of the weight of a branch of a change kernel (`changeOperators.py:54-55`). Lengthscales of `PER` are positive (`Logexp`); if one was not, the entry here is 1. -/
noncomputable def entry (cfg : Cfg) {n : ℕ} (X : Fin n → ℝ) (i j : Fin n) (b : Base) (p : PD ℝ) : ℝ :=
  match b with
  | .S | .Sr | .SI | .SIr => changeSig X (weightOf b).1 p (weightOf b).2 i j
  | .PER => if ∀ l ∈ p.lengthscale, 0 < l then baseK cfg X .PER { p with variance := some 1 } i j else 1
  | b => baseK cfg X b { p with variance := some 1 } i j

end Kern
end GPyABCD
