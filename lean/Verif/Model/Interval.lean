import Mathlib.Data.Real.Basic

namespace GPyABCD
namespace Util

/-- `interval_overlap(a, b)`, `/repo/GPy_ABCD/Util/genericUtil.py:137-138`, on reals instead of floats. -/
noncomputable def intervalOverlap (a b : ℝ × ℝ) : ℝ := max 0 (min a.2 b.2 - max a.1 b.1)

end Util
end GPyABCD
