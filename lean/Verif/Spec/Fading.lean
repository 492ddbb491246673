import Verif.Spec.Units
import Verif.Model.PredictPart
import Verif.Spec.Shape

/-!
# Specification: where a change operator has switched

`d` is a distance: how far an input is inside, or outside, of where the second branch is said to be active.
-/

namespace GPyABCD
namespace Kern
open Params Sops

/-- At least `d` inside of where the second branch is active. -/
def OnSide (c : CC) (p : PD ℝ) (d x : ℝ) : Prop :=
  match c with
  | .CP => p.location.getD 0 + d ≤ x
  | .CW => p.location.getD 0 + d ≤ x ∧ x + d ≤ p.location.getD 0 + p.width.getD 1

/-- At least `d` outside of it. -/
def OffSide (c : CC) (p : PD ℝ) (d x : ℝ) : Prop :=
  match c with
  | .CP => x + d ≤ p.location.getD 0
  | .CW => x + d ≤ p.location.getD 0 ∨ p.location.getD 0 + p.width.getD 1 + d ≤ x

/-- The slope of a change kernel, 0.5 if it is fixed (`changeOperators.py:88, 107`). -/
noncomputable def slopeOf (p : PD ℝ) : ℝ := p.slope.getD 0.5

/-- No linear kernel in an expression. -/
def NoLin (k : KE) : Prop := Base.LIN ∉ KE.bases k

mutual
/-- How many linear kernels are multiplied with each other in an expression. -/
def degree : KE → ℕ
  | .base b => if b = .LIN then 1 else 0
  | .comm .sum b cs => max (if .LIN ∈ b.elements then 1 else 0) (degreeMax cs)
  | .comm .prod b cs => b.elements.count .LIN + degreeSum cs
  | .change _ l r => max (degree l) (degree r)
/-- The most over a list. -/
def degreeMax : List KE → ℕ
  | [] => 0
  | k :: ks => max (degree k) (degreeMax ks)
/-- The sum over a list. -/
def degreeSum : List KE → ℕ
  | [] => 0
  | k :: ks => degree k + degreeSum ks
end

/-- The part of a window that its first branch makes up. -/
noncomputable def firstPart (p : PD ℝ) (l : GK ℝ) : GK ℝ :=
  .comb .prod [l, .base .SIr { location := p.location, slope := some (slopeOf p), width := p.width }]

/-- The part of a change point that its second branch makes up: that branch times the sigmoid. -/
noncomputable def secondPart (p : PD ℝ) (r : GK ℝ) : GK ℝ := .comb .prod [r, .base .S { location := p.location, slope := some (slopeOf p) }]

end Kern
end GPyABCD
