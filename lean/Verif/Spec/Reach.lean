import Verif.Spec.Fading

/-!
# Specification: how fast an expression grows on either side

`after` is the side: towards larger inputs if `true`, towards smaller ones otherwise.
-/

namespace GPyABCD
namespace Kern
open Params Sops

/-- At least `D` out on that side. -/
def Far (after : Bool) (D x : ℝ) : Prop := D ≤ if after then x else -x

mutual
/-- How many linear kernels are still multiplied with each other out on that side: a change point takes one of those off the branch that it leaves, a window two off
its second branch. -/
def reach (after : Bool) : KE → ℕ
  | .base b => if b = .LIN then 1 else 0
  | .comm .sum b cs => max (if .LIN ∈ b.elements then 1 else 0) (reachMax after cs)
  | .comm .prod b cs => b.elements.count .LIN + reachSum after cs
  | .change .CP l r => if after then max (reach after l - 1) (reach after r) else max (reach after l) (reach after r - 1)
  | .change .CW l r => max (reach after l) (reach after r - 2)
/-- The most over a list. -/
def reachMax (after : Bool) : List KE → ℕ
  | [] => 0
  | k :: ks => max (reach after k) (reachMax after ks)
/-- The sum over a list. -/
def reachSum (after : Bool) : List KE → ℕ
  | [] => 0
  | k :: ks => reach after k + reachSum after ks
end

/-- The part of a change point that its first branch makes up. -/
noncomputable def pointFirst (p : PD ℝ) (l : GK ℝ) : GK ℝ := .comb .prod [l, .base .Sr { location := p.location, slope := some (slopeOf p) }]

end Kern
end GPyABCD
