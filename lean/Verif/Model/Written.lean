import Verif.Model.KE

/-!
# Expressions as users write them

An expression written down with `SumKE(...)`, `ProductKE(...)` and `ChangeKE(...)` calls inside each other, as `grammar.py:121-130` and the README do.
The text is given as the tree of its calls (a `KE` as well); the constructors simplify as they are called, the innermost first.
-/

namespace GPyABCD
namespace KE

mutual
/-- The value of nested constructor calls: `commutative_base.py:12-19`, `change.py:12-19`; strings stay strings. -/
def build (cfg : Cfg) : KE → KE
  | base b => base b
  | comm op bts cts => mkC cfg op bts (buildL cfg cts)
  | change c l r => mkChange cfg c (build cfg l) (build cfg r)
/-- Over a list of arguments. -/
def buildL (cfg : Cfg) : List KE → List KE
  | [] => []
  | k :: ks => build cfg k :: buildL cfg ks
end

end KE
end GPyABCD
