import Mathlib.Data.Real.Basic

/-!
# The leave-one-out score, `/repo/GPy_ABCD/Util/modelUtil.py:15`
-/

namespace GPyABCD
namespace Score

/-- `LA_LOO`, `modelUtil.py:15`: `np.mean` of what the inference method's `LOO` returns, one number for each data point. GPy's `LOO` is not modelled: the numbers
are an argument (of no points the mean is NaN; GPy has at least one). -/
noncomputable def laLoo (loo : List ℝ) : ℝ := loo.sum / loo.length

end Score
end GPyABCD
