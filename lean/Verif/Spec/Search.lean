import Verif.Model.Search

/-!
# Specifications for the search
-/

namespace GPyABCD
namespace Search

/-- The beam of round `r` (counted from 0) asked for by the argument. -/
def beamAt : BeamArg → Nat → Option Int
  | .int b, _ => some b
  | .list bs, r => if r < bs.length then bs[r]? else bs.getLast?
  | .other, _ => none

/-- A total preorder on utilities: floats without NaN. -/
structure TotalLe {R : Type} (le : R → R → Bool) : Prop where
  trans : ∀ a b c, le a b = true → le b c = true → le a c = true
  total : ∀ a b, (le a b || le b a) = true

end Search
end GPyABCD
