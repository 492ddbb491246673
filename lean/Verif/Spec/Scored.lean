import Verif.Model.Scored
import Verif.Spec.Search

/-!
# Specifications for searches with any scoring function
-/

namespace GPyABCD
namespace Search

variable {K D R ε : Type}

/-- The search (`Model/Search.lean`) in which a model that cannot be scored counts as one that cannot be fitted. -/
def SEnv.plain [Inhabited R] (E : SEnv K D R ε) : Env K D R (ScoreErr ε) where
  eqv := E.eqv
  expand := E.expand
  le a b := !E.lt b a
  score d := match E.score d with | .ok u => u | .error _ => default
  fit n k :=
    match E.fit n k with
    | .error e => .error (.fit e)
    | .ok d =>
      match E.score d with
      | .error e => .error (.score e)
      | .ok _ => .ok d

/-- Utilities can all be compared (no `nan`), and `sorted` is right about 64 models or more. -/
structure Comparable [Inhabited R] (E : SEnv K D R ε) : Prop where
  le : TotalLe E.plain.le
  big : ∀ ms, 64 ≤ ms.length → E.big ms = sortMods E.plain ms

end Search
end GPyABCD
