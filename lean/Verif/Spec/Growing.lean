import Verif.Spec.Shape
import Verif.Model.Grammar

/-!
# Specification: rules that only add to an expression
-/

namespace GPyABCD
namespace KE

/-- The production rules that keep everything there is: they add, multiply or make change operators. `try_higher_curves` belongs to
them as long as there is no `SE` for it to delete. -/
def RuleName.growing (cfg : Cfg) : RuleName → Bool
  | .plus_base | .times_base | .times_shifted_base | .change_new_base | .change_same | .change_window_constant | .change_window_linear
  | .change_point_linear => true
  | .try_higher_curves => !cfg.includeSE
  | .replace_base | .replace_with_singleton | .remove_some_term => false

end KE
end GPyABCD
