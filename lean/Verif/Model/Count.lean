import Verif.Model.Params

/-!
# The number of estimated parameters

`GPModel._k`, `/repo/GPy_ABCD/Models/model.py:67`: `self.model._size_transformed()`, GPy's count of the parameters of the regression that are not fixed. They are
the linked parameters of the kernel and the variance of the Gaussian noise; a change kernel has linked copies of its branches (`changeOperators.py:16-17`).
-/

namespace GPyABCD
namespace Params
open Sops

variable {α : Type}

/-- 1 for a parameter that is linked. -/
def one? (o : Option α) : Nat := if o.isSome then 1 else 0

/-- Of one kernel. -/
def sizePD (p : PD α) : Nat :=
  one? p.variance + one? p.lengthscale + one? p.period + one? p.offset + one? p.location + one? p.slope + one? p.width

mutual
/-- Of a kernel with all its parts. -/
def sizeK : GK α → Nat
  | .base _ p => sizePD p
  | .comb _ parts => sizeKL parts
  | .change _ p l r => sizePD p + sizeK l + sizeK r
/-- Over a list. -/
def sizeKL : List (GK α) → Nat
  | [] => 0
  | k :: ks => sizeK k + sizeKL ks
end

/-- `_k()` of a model with this kernel: `GPRegression` adds the noise variance. -/
def modelK (g : GK α) : Nat := sizeK g + 1

end Params
end GPyABCD
