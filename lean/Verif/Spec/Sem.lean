import Verif.Model.Kernels
import Mathlib.Algebra.Group.Pointwise.Set.Basic
import Mathlib.Algebra.Group.Pointwise.Set.BigOperators
import Mathlib.Algebra.BigOperators.Group.List.Basic

/-!
# Specification: what a kernel expression denotes

A family is the set of covariance functions an expression can take on as its parameters range over
their allowed values. Sums and products of families are pointwise, all terms having independent
parameters.
-/

namespace GPyABCD
open scoped Pointwise

/-- A set of covariance functions. -/
abbrev Fam := Set Cov

/-- Families of the base kernels and of the two change operators. -/
structure Interp where
  /-- family of a base kernel -/
  F : Base → Fam
  /-- family of a change operator from the families of its branches -/
  chg : CC → Fam → Fam → Fam

/-- Sum or product of a list of families. -/
def opFold : Op → List Fam → Fam
  | .sum, l => l.sum
  | .prod, l => l.prod

namespace KE

mutual
/-- The family of an expression. -/
def den (I : Interp) : KE → Fam
  | base b => I.F b
  | comm o c cs => opFold o (c.elements.map I.F ++ denL I cs)
  | change c l r => I.chg c (den I l) (den I r)
/-- The families of a list of expressions. -/
def denL (I : Interp) : List KE → List Fam
  | [] => []
  | k :: ks => den I k :: denL I ks
end

end KE

/-- The basis functions available to a change operator: changepoints have a location, changewindows
also a positive width; the slope is positive, and fixed to 0.5 by `__FIX_SIGMOIDAL_KERNELS_SLOPE`
(`changeOperators.py:15`). Pairs (sigmoid, reversed sigmoid). -/
def basisOf (cfg : Cfg) : CC → Set ((ℝ → ℝ) × (ℝ → ℝ))
  | .CP => {p | ∃ loc slope, 0 < slope ∧ (cfg.fixSlope = true → slope = 0.5) ∧
      p = (Kern.phiS loc slope false, Kern.phiS loc slope true)}
  | .CW => {p | ∃ loc slope width, 0 < slope ∧ (cfg.fixSlope = true → slope = 0.5) ∧ 0 < width ∧
      p = (Kern.phiSI loc slope width false, Kern.phiSI loc slope width true)}

/-- Family of a change operator: every choice of a covariance for each branch and of the change
parameters. -/
def chgFam (cfg : Cfg) (c : CC) (A B : Fam) : Fam :=
  {f | ∃ a ∈ A, ∃ b ∈ B, ∃ p ∈ basisOf cfg c, f = Kern.changeK a b p.1 p.2}

/-- The real kernels with variances in a set `V` of allowed values (positive reals for fitted kernels;
non-negative reals to include the limit), `Kernels/baseKernels.py:28-51`. Lengthscales, periods and
widths are positive; the sigmoids' slope is fixed to 0.2 by `__FIX_SIGMOIDAL_KERNELS_SLOPE`. -/
def realF (cfg : Cfg) (V : Set ℝ) : Base → Fam
  | .WN => {f | ∃ v ∈ V, f = Kern.white v}
  | .C => {f | ∃ v ∈ V, f = Kern.bias v}
  | .LIN => {f | ∃ v ∈ V, ∃ o, (cfg.linOffset = false → o = 0) ∧ f = Kern.linearOffset v o}
  | .SE => {f | ∃ v ∈ V, ∃ l, 0 < l ∧ f = Kern.rbf v l}
  | .PER => {f | ∃ v ∈ V, ∃ p l, 0 < p ∧ 0 < l ∧ f = Kern.per v p l}
  | .S => sig false
  | .Sr => sig true
  | .SI => sigI false
  | .SIr => sigI true
where
  /-- sigmoidal kernels -/
  sig (rev : Bool) : Fam := {f | ∃ v ∈ V, ∃ loc slope, 0 < slope ∧ (cfg.fixSlope = true → slope = 0.2) ∧
    f = Kern.basisK v (Kern.phiS loc slope rev)}
  /-- sigmoidal indicator kernels -/
  sigI (rev : Bool) : Fam := {f | ∃ v ∈ V, ∃ loc slope width, 0 < slope ∧ (cfg.fixSlope = true → slope = 0.2) ∧
    0 < width ∧ f = Kern.basisK v (Kern.phiSI loc slope width rev)}

/-- Interpretation by the real kernels with variances in `V`. -/
def realI (cfg : Cfg) (V : Set ℝ) : Interp := ⟨realF cfg V, chgFam cfg⟩

/-- The same with LIN read as LIN plus a constant where it has an offset: what the code takes it for when it drops constants beside it
(`commutatives.py:20-21`). -/
def roomyI (cfg : Cfg) (V : Set ℝ) : Interp :=
  ⟨fun | .LIN => if cfg.linOffset = true then realF cfg V .LIN + realF cfg V .C else realF cfg V .LIN
       | b => realF cfg V b, chgFam cfg⟩

/-- Positive variances: what `Logexp` constraints allow. -/
def posV : Set ℝ := {v | 0 < v}

/-- Non-negative variances: the same including the limit where a term vanishes. -/
def nonnegV : Set ℝ := {v | 0 ≤ v}

/-- LIN and C do not meet while LIN absorbs constants. -/
def LinCOK (cfg : Cfg) (bs : List Base) : Prop := cfg.linOffset = false ∨ Base.C ∉ bs ∨ Base.LIN ∉ bs

/-- The readings of expressions over `bs` that operations should respect: LIN with room for a constant, and, unless LIN meets C there, LIN as it is. -/
def Reading (cfg : Cfg) (bs : List Base) (I : Interp) : Prop := I = roomyI cfg posV ∨ (I = realI cfg posV ∧ LinCOK cfg bs)

/-- Stationary: depends only on the difference of the inputs. -/
def Stat (f : Cov) : Prop := ∀ h x y, f (x + h) (y + h) = f x y

end GPyABCD
