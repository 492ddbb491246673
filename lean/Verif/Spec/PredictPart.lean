import Verif.Spec.Posterior

/-!
# A sum of independent functions

What a kernel that is a sum says about data: the unknown function is a sum of independent functions, one for each part of the kernel.
-/

namespace GPyABCD
open Kern Params Sops ProbabilityTheory MeasureTheory

/-- `F j` are the values at `N` inputs of the function for the part `j` of the sum, whose covariances at these inputs are `K j`, and `e` is the noise. -/
structure SampledParts {Ω : Type} [MeasurableSpace Ω] (P : Measure Ω) {N p : ℕ} (K : Fin p → Fin N → Fin N → ℝ) (noise : ℝ) (F : Fin p → Fin N → Ω → ℝ)
    (e : Fin N → Ω → ℝ) : Prop where
  /-- all values and noises together are normal -/
  joint : HasGaussianLaw (fun ω => ((fun q : Fin p × Fin N => F q.1 q.2 ω), (fun i => e i ω))) P
  f_mean : ∀ j i, ∫ ω, F j i ω ∂P = 0
  e_mean : ∀ i, ∫ ω, e i ω ∂P = 0
  /-- each part says how the values of its function vary together -/
  f_cov : ∀ j a b, cov[F j a, F j b; P] = K j a b
  /-- the functions are independent -/
  indep : ∀ j k a b, j ≠ k → cov[F j a, F k b; P] = 0
  /-- the noise is white -/
  e_cov : ∀ i j, cov[e i, e j; P] = if i = j then noise else 0
  /-- and has nothing to do with the functions -/
  fe_cov : ∀ j a b, cov[F j a, e b; P] = 0

/-- The function: the sum of the functions for the parts. -/
def whole {Ω : Type} {N p : ℕ} (F : Fin p → Fin N → Ω → ℝ) : Fin N → Ω → ℝ := fun i ω => ∑ j, F j i ω

end GPyABCD
