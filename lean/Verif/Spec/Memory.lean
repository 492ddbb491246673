import Verif.Spec.Reach
import Verif.Model.Predict
import Mathlib.Algebra.Order.Monoid.Unbundled.WithTop

/-!
# Specification: what far inputs remember of the data

Powers of the inputs again, as in `Spec/Reach`, but of covariances between the data and inputs far out on one side; `⊥` for those that vanish faster than any power.
-/

namespace GPyABCD
namespace Kern
open Params Sops

/-- Of a base kernel: squared exponentials and white noise forget, lines grow, others stay as they are. -/
def memBase : Base → WithBot ℤ
  | .LIN => 1
  | .SE => ⊥
  | .WN => ⊥
  | _ => 0

mutual
/-- The power with which covariances between data and inputs far out on that side grow, or fade if it is negative: the greatest over a sum, added up over a product;
a change point takes one off the branch that it leaves, a window two off its second branch. -/
def memory (after : Bool) : KE → WithBot ℤ
  | .base b => memBase b
  | .comm .sum b cs => max ((b.elements.map memBase).foldr max ⊥) (memMax after cs)
  | .comm .prod b cs => (b.elements.map memBase).sum + memSum after cs
  | .change .CP l r => if after then max (memory after l + ((-1 : ℤ) : WithBot ℤ)) (memory after r) else max (memory after l) (memory after r + ((-1 : ℤ) : WithBot ℤ))
  | .change .CW l r => max (memory after l) (memory after r + ((-2 : ℤ) : WithBot ℤ))
/-- The greatest over a list. -/
def memMax (after : Bool) : List KE → WithBot ℤ
  | [] => ⊥
  | k :: ks => max (memory after k) (memMax after ks)
/-- The sum over a list. -/
def memSum (after : Bool) : List KE → WithBot ℤ
  | [] => 0
  | k :: ks => memory after k + memSum after ks
end

/-- The prediction of the same kernel and noise from no data at all. -/
noncomputable def fromNothing (cfg : Cfg) (ppf : ℝ → ℝ) (g : GK ℝ) (noise : ℝ) {m : ℕ} (Y : Fin m → ℝ) (qs : List ℝ) (fc il : Bool) : Except PredErr (Prediction m) :=
  predict cfg ppf (Fin.elim0 : Fin 0 → ℝ) Fin.elim0 g noise Y qs fc il

/-- Variances or covariances, of the same form, that differ by at most `ε` where `P` holds. -/
def CovArr.Near {m : ℕ} (ε : ℝ) (P : Fin m → Prop) : CovArr m → CovArr m → Prop
  | .column v, .column w => ∀ i, P i → |v i - w i| ≤ ε
  | .matrix A, .matrix B => ∀ i j, P i → P j → |A i j - B i j| ≤ ε
  | _, _ => False

/-- Predictions that differ by at most `ε` where `P` holds. -/
def Prediction.Near {m : ℕ} (ε : ℝ) (P : Fin m → Prop) (u v : Prediction m) : Prop :=
  (∀ j, P j → |u.mean j - v.mean j| ≤ ε ∧ |u.low j - v.low j| ≤ ε ∧ |u.high j - v.high j| ≤ ε) ∧ u.covariance.Near ε P v.covariance

end Kern
end GPyABCD
