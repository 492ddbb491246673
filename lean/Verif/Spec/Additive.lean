import Verif.Spec.Shape
import Verif.Model.Grammar

/-!
# Specification: additive searches

Searches whose rules never multiply, from start kernels without products.
-/

namespace GPyABCD
namespace KE

/-- The production rules that do not multiply. -/
def RuleName.additive : RuleName → Bool
  | .plus_base | .replace_base | .change_new_base | .change_same | .change_window_constant | .change_window_linear
  | .change_point_linear | .replace_with_singleton | .remove_some_term => true
  | .times_base | .times_shifted_base | .try_higher_curves => false

/-- The production rules that make no change windows. -/
def RuleName.windowless : RuleName → Bool
  | .change_new_base | .change_same | .change_window_constant | .change_window_linear => false
  | _ => true

mutual
/-- How many change operators a sum adds up, sums in sums included. -/
def tops : KE → Nat
  | base _ => 0
  | comm _ _ cs => topsL cs
  | change _ _ _ => 1
/-- Over a list. -/
def topsL : List KE → Nat
  | [] => 0
  | k :: ks => tops k + topsL ks
end

/-- A sum, and one that adds at most one change operator to base kernels. -/
def slimNode : KE → Bool
  | comm o _ cs => decide (o = .sum) && decide (topsL cs ≤ 1)
  | _ => true

/-- No products, and no sum adds up several change operators. -/
def slim (k : KE) : Bool := allNodes slimNode k

end KE
end GPyABCD
