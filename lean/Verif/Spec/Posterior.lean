import Verif.Model.KernelTree
import Mathlib.Probability.Distributions.Gaussian.HasGaussianLaw.Basic
import Mathlib.Probability.Moments.Covariance

/-!
# What a fitted model says about data

The Gaussian process that `GPy.models.GPRegression` stands for: an unknown function whose values at any inputs are normal with mean zero and the kernel's covariances,
observed with independent normal noise.
-/

namespace GPyABCD
open Kern Params Sops ProbabilityTheory MeasureTheory

/-- `f` are the values at the inputs `Z` of a random function that follows the kernel, and `e` the noise of observing them. -/
structure Sampled {Ω : Type} [MeasurableSpace Ω] (P : Measure Ω) (cfg : Cfg) {N : ℕ} (Z : Fin N → ℝ) (g : GK ℝ) (noise : ℝ) (f e : Fin N → Ω → ℝ) : Prop where
  /-- all values and noises together are normal -/
  joint : HasGaussianLaw (fun ω => ((fun i => f i ω), (fun i => e i ω))) P
  f_mean : ∀ i, ∫ ω, f i ω ∂P = 0
  e_mean : ∀ i, ∫ ω, e i ω ∂P = 0
  /-- the kernel says how the values vary together -/
  f_cov : ∀ i j, cov[f i, f j; P] = kerK cfg Z g i j
  /-- the noise is white -/
  e_cov : ∀ i j, cov[e i, e j; P] = if i = j then noise else 0
  /-- and has nothing to do with the function -/
  fe_cov : ∀ i j, cov[f i, e j; P] = 0

variable {Ω : Type} {n m : ℕ} (f e : Fin (n + m) → Ω → ℝ)

/-- What is observed at the first `n` inputs. -/
def observed (ω : Ω) : Fin n → ℝ := fun a => f (Fin.castAdd m a) ω + e (Fin.castAdd m a) ω

/-- What would be found at the other `m` inputs: a new observation, or (without the likelihood) the value of the function itself. -/
def unseen (lik : Bool) (ω : Ω) : Fin m → ℝ := fun i => f (Fin.natAdd n i) ω + if lik then e (Fin.natAdd n i) ω else 0

end GPyABCD
