import Verif.Spec.Moves

/-!
# The search space (C104)

Which expressions the documentation means by "the language of kernel expressions", written down without the grammar.
-/

namespace GPyABCD
open KE

/-- An expression of the language: simplified everywhere, kinds alternating, nothing empty, base kernels that the search uses; one base
kernel alone is written as a sum of one term. -/
structure InLanguage (cfg : Cfg) (T : KE) : Prop where
  notBase : T.isBase = false
  normal : normal cfg T = true
  noEmpty : noEmpty T = true
  bases : ∀ b ∈ bases T, Searched cfg b
  single : T.isSingleton = true → ∃ b, T = comm .sum [(b, 1)] []

/-- A number of rounds, from the size of an expression: 8 for every sum or product, 4 for every change operator, 1 for every base kernel. -/
def rounds (T : KE) : Nat := 8 * nodes T + 4 * (changes T).length + (bases T).length

/-- The same for the Minimal rules: 5 for every sum or product, 3 for every change operator, 3 for every base kernel. -/
def roundsMinimal (T : KE) : Nat := 5 * nodes T + 3 * (changes T).length + 3 * (bases T).length

end GPyABCD
