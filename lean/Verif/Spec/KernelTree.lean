import Verif.Model.KernelTree
import Verif.Spec.Numeric

/-!
# Specification: places in kernels, and what a gradient should be
-/

namespace GPyABCD
namespace Kern
open Params Sops

/-- A kernel with a hole: a place in a kernel. -/
inductive Place
  | here
  /-- part of a sum or product, between others -/
  | part (op : Op) (before : List (GK ℝ)) (C : Place) (after : List (GK ℝ))
  /-- branches of change kernels -/
  | first (c : CC) (p : PD ℝ) (C : Place) (r : GK ℝ)
  | second (c : CC) (p : PD ℝ) (l : GK ℝ) (C : Place)

/-- The kernel with `k` in that place. -/
def Place.fill (k : GK ℝ) : Place → GK ℝ
  | .here => k
  | .part op xs C ys => .comb op (xs ++ C.fill k :: ys)
  | .first c p C r => .change c p (C.fill k) r
  | .second c p l C => .change c p l (C.fill k)

/-- What a kernel has in that place. -/
def Place.get : Place → GK ℝ → Option (GK ℝ)
  | .here, k => some k
  | .part _ xs C _, .comb _ parts => parts[xs.length]?.bind C.get
  | .first _ _ C _, .change _ _ l _ => C.get l
  | .second _ _ _ C, .change _ _ _ r => C.get r
  | _, _ => none

/-- What the entries of the kernel in that place are multiplied with: the other factors, and the sigmoids. -/
noncomputable def Place.weight (cfg : Cfg) {n : ℕ} (X : Fin n → ℝ) : Place → Fin n → Fin n → ℝ
  | .here => fun _ _ => 1
  | .part .sum _ C _ => C.weight cfg X
  | .part .prod xs C ys => fun i j => ((xs ++ ys).map (fun k => kerK cfg X k i j)).prod * C.weight cfg X i j
  | .first c p C _ => fun i j => changePhi c p true (X i) * changePhi c p true (X j) * C.weight cfg X i j
  | .second c p _ C => fun i j => changePhi c p false (X i) * changePhi c p false (X j) * C.weight cfg X i j

/-- The parameters a base kernel has. -/
def parsOf (cfg : Cfg) : Base → List Par
  | .S | .Sr => [.variance, .location, .slope]
  | .SI | .SIr => [.variance, .location, .slope, .width]
  | b => basePars cfg b

/-- Where the covariance is differentiable in a parameter and its formula exact. The positive parameters are positive (they are constrained so);
the lengthscale of a periodic kernel is in the regime of exact formulas. -/
def Regular (b : Base) (p : PD ℝ) : Par → Prop
  | .lengthscale => (b = .SE → ∀ l ∈ p.lengthscale, 0 < l) ∧ (b = .PER → ∀ l ∈ p.lengthscale, 0 < l ∧ l < 10000 ∧ 1 / l ^ 2 < 3.75)
  | .period => ∀ q ∈ p.period, 0 < q
  | .slope => (∀ s ∈ p.slope, 0 < s) ∧ ∀ w ∈ p.width, 0 < w
  | .width => (∀ s ∈ p.slope, 0 < s) ∧ ∀ w ∈ p.width, 0 < w
  | _ => True

end Kern
end GPyABCD
