import Verif.Lemmas.Density
import Mathlib.LinearAlgebra.Matrix.Charpoly.Coeff
import Mathlib.Analysis.Calculus.FDeriv.Pi
import Mathlib.Analysis.Calculus.FDeriv.Mul
import Mathlib.Analysis.Calculus.Deriv.Comp
import Mathlib.Analysis.Calculus.Deriv.Polynomial
import Mathlib.Analysis.SpecialFunctions.Log.Deriv

/-!
# The derivative of the density of normal random vectors by their covariances
-/

namespace GPyABCD
open WithLp

variable {ι : Type} [Fintype ι] [DecidableEq ι]

theorem differentiable_det : Differentiable ℝ (fun K : ι → ι → ℝ => (Matrix.of K).det) := by
  simp only [Matrix.det_apply, Matrix.of_apply]
  fun_prop

theorem differentiable_adjugate (i j : ι) : Differentiable ℝ (fun K : ι → ι → ℝ => (Matrix.of K).adjugate i j) := by
  have h : Differentiable ℝ (fun (K : ι → ι → ℝ) (a b : ι) => if a = j then (Pi.single i 1 : ι → ℝ) b else K a b) := by
    refine differentiable_pi.2 fun a => differentiable_pi.2 fun b => ?_
    by_cases hj : a = j
    · simp only [if_pos hj]; exact differentiable_const _
    · simp only [if_neg hj]; fun_prop
  have h2 := differentiable_det.comp h
  convert! h2 using 1
  funext K
  rw [Matrix.adjugate_apply, Function.comp]
  congr 1
  ext a b
  rw [Matrix.updateRow_apply, Matrix.of_apply, Matrix.of_apply]

theorem differentiableAt_inv {s : ι → ι → ℝ} (hS : (Matrix.of s).det ≠ 0) (i j : ι) : DifferentiableAt ℝ (fun K : ι → ι → ℝ => (Matrix.of K)⁻¹ i j) s := by
  simp only [Matrix.inv_def, Matrix.smul_apply, smul_eq_mul, Ring.inverse_eq_inv']
  have h : DifferentiableAt ℝ (fun K : ι → ι → ℝ => ((Matrix.of K).det)⁻¹) s :=
    DifferentiableAt.fun_inv (h := fun K : ι → ι → ℝ => (Matrix.of K).det) differentiable_det.differentiableAt hS
  exact h.mul (differentiable_adjugate i j).differentiableAt

/-- The derivative of the determinant in a direction. -/
theorem det_line {S : Matrix ι ι ℝ} (hS : S.det ≠ 0) (D : Matrix ι ι ℝ) : HasDerivAt (fun t : ℝ => (S + t • D).det) (S.det * (S⁻¹ * D).trace) 0 := by
  have h : ∀ t : ℝ, (S + t • D).det = S.det * (1 + (S⁻¹ * D).trace * t + (Matrix.det (1 + (Polynomial.X : Polynomial ℝ) • (S⁻¹ * D).map Polynomial.C)).divX.divX.eval t * t ^ 2) := fun t => by
    rw [← Matrix.det_one_add_smul, ← Matrix.det_mul, Matrix.mul_add, Matrix.mul_one, Matrix.mul_smul, ← Matrix.mul_assoc, Matrix.mul_nonsing_inv _ (by simpa using hS), Matrix.one_mul]
  simp_rw [h]
  generalize (Matrix.det (1 + (Polynomial.X : Polynomial ℝ) • (S⁻¹ * D).map Polynomial.C)).divX.divX = q
  refine HasDerivAt.const_mul _ ?_
  have h1 := ((hasDerivAt_id (0 : ℝ)).const_mul (S⁻¹ * D).trace).const_add 1
  have h2 := (q.hasDerivAt (0 : ℝ)).mul ((hasDerivAt_id (0 : ℝ)).pow 2)
  have h3 := h1.add h2
  simp only [mul_one, id, ne_eq, OfNat.ofNat_ne_zero, not_false_eq_true, zero_pow, mul_zero, Nat.cast_ofNat, Nat.add_one_sub_one, pow_one, add_zero, Pi.pow_apply] at h3
  exact h3

omit [DecidableEq ι] in
theorem line (s D : ι → ι → ℝ) : HasDerivAt (fun t : ℝ => (fun a b => s a b + t * D a b : ι → ι → ℝ)) D 0 :=
  hasDerivAt_pi.2 fun a => hasDerivAt_pi.2 fun b => by simpa using ((hasDerivAt_id (0 : ℝ)).mul_const (D a b)).const_add (s a b)

omit [DecidableEq ι] in
/-- A function of matrices, along a line. -/
theorem along {φ : (ι → ι → ℝ) → ℝ} {s : ι → ι → ℝ} (h : DifferentiableAt ℝ φ s) (D : ι → ι → ℝ) :
    HasDerivAt (fun t : ℝ => φ (fun a b => s a b + t * D a b)) (fderiv ℝ φ s D) 0 := by
  have hz : (fun a b => s a b + (0 : ℝ) * D a b : ι → ι → ℝ) = s := by simp
  have h1 : HasFDerivAt φ (fderiv ℝ φ s) (fun a b => s a b + (0 : ℝ) * D a b) := by rw [hz]; exact h.hasFDerivAt
  exact h1.comp_hasDerivAt (0 : ℝ) (line s D)

omit [Fintype ι] [DecidableEq ι] in
theorem of_line (s D : ι → ι → ℝ) (t : ℝ) : Matrix.of (fun a b => s a b + t * D a b) = Matrix.of s + t • Matrix.of D := by
  ext; simp

/-- The derivative of the inverse in a direction. -/
theorem inv_line {s : ι → ι → ℝ} (hS : (Matrix.of s).det ≠ 0) (D : ι → ι → ℝ) (i j : ι) :
    HasDerivAt (fun t : ℝ => (Matrix.of s + t • Matrix.of D)⁻¹ i j) (-((Matrix.of s)⁻¹ * Matrix.of D * (Matrix.of s)⁻¹) i j) 0 := by
  have h1 : ∀ a b, ∃ r, HasDerivAt (fun t : ℝ => (Matrix.of s + t • Matrix.of D)⁻¹ a b) r 0 := fun a b => by
    have := along (differentiableAt_inv hS a b) D
    simp only [of_line] at this
    exact ⟨_, this⟩
  choose R hR using h1
  generalize hs : Matrix.of s = S at *
  generalize hD : Matrix.of D = D' at *
  have hdc : Filter.Tendsto (fun t : ℝ => (S + t • D').det) (nhds 0) (nhds S.det) := by
    have := (det_line hS D').continuousAt.tendsto
    simpa using this
  have hev : ∀ᶠ t : ℝ in nhds 0, (S + t • D') * (S + t • D')⁻¹ = 1 := by
    filter_upwards [hdc.eventually_ne hS] with t ht
    exact Matrix.mul_nonsing_inv _ (by simpa using ht)
  have hR' : S * Matrix.of R + D' * S⁻¹ = 0 := by
    ext a b
    have hd : HasDerivAt (fun t : ℝ => ∑ k, (S a k + t * D' a k) * (S + t • D')⁻¹ k b) (∑ k, (D' a k * (S + (0 : ℝ) • D')⁻¹ k b + (S a k + 0 * D' a k) * R k b)) 0 := by
      refine HasDerivAt.fun_sum fun k _ => ?_
      exact (by simpa using ((hasDerivAt_id (0 : ℝ)).mul_const (D' a k)).const_add (S a k) : HasDerivAt (fun t : ℝ => S a k + t * D' a k) (D' a k) 0).mul (hR k b)
    have hc : HasDerivAt (fun t : ℝ => ∑ k, (S a k + t * D' a k) * (S + t • D')⁻¹ k b) 0 0 := by
      refine (hasDerivAt_const (0 : ℝ) ((1 : Matrix ι ι ℝ) a b)).congr_of_eventuallyEq ?_
      filter_upwards [hev] with t ht
      rw [← ht]
      simp [Matrix.mul_apply]
    have := hd.unique hc
    simp only [zero_smul, add_zero, zero_mul, Finset.sum_add_distrib] at this
    rw [Matrix.add_apply, Matrix.zero_apply, Matrix.mul_apply, Matrix.mul_apply, add_comm]
    exact this
  have hR2 : Matrix.of R = -(S⁻¹ * D' * S⁻¹) := by
    have := congrArg (S⁻¹ * ·) (eq_neg_of_add_eq_zero_left hR')
    simp only [← Matrix.mul_assoc, Matrix.nonsing_inv_mul _ (by simpa using hS : IsUnit S.det), Matrix.one_mul, Matrix.mul_neg] at this
    exact this
  have := hR i j
  have e : R i j = -(S⁻¹ * D' * S⁻¹) i j := by rw [← Matrix.of_apply R, hR2, Matrix.neg_apply]
  rwa [e] at this

/-- The derivative of the logarithm of the density by the covariances. -/
theorem hasFDerivAt_logDensity {s : ι → ι → ℝ} {S : Matrix ι ι ℝ} (hs : Matrix.of s = S) (hS : S.PosDef) (y : ι → ℝ) :
    ∃ L' : (ι → ι → ℝ) →L[ℝ] ℝ, HasFDerivAt (fun K : ι → ι → ℝ => logDensity (Matrix.of K) y) L' s ∧
      ∀ D, L' D = ∑ i, ∑ j, ((S⁻¹.mulVec y i * S⁻¹.mulVec y j - S⁻¹ i j) / 2) * D i j := by
  have hd := hS.det_pos.ne'
  have hsym : S⁻¹.transpose = S⁻¹ := by
    have := hS.inv.1
    ext i j
    simpa using this.apply i j
  have hdiff : DifferentiableAt ℝ (fun K : ι → ι → ℝ => logDensity (Matrix.of K) y) s := by
    have h1 : DifferentiableAt ℝ (fun K : ι → ι → ℝ => Real.log (Matrix.of K).det) s :=
      DifferentiableAt.log (f := fun K : ι → ι → ℝ => (Matrix.of K).det) differentiable_det.differentiableAt (by rwa [hs])
    have h2 : DifferentiableAt ℝ (fun K : ι → ι → ℝ => y ⬝ᵥ (Matrix.of K)⁻¹.mulVec y) s := by
      simp only [dotProduct, Matrix.mulVec]
      exact DifferentiableAt.fun_sum fun i _ => DifferentiableAt.const_mul (DifferentiableAt.fun_sum fun j _ =>
        DifferentiableAt.mul_const (differentiableAt_inv (by rwa [hs]) i j) _) _
    unfold logDensity
    simp only [div_eq_mul_inv]
    exact ((h1.const_sub _).sub h2).mul_const _
  refine ⟨_, hdiff.hasFDerivAt, fun D => ?_⟩
  have h2 := along hdiff D
  simp only [of_line, hs] at h2
  have h3 : HasDerivAt (fun t : ℝ => logDensity (S + t • (Matrix.of D)) y)
      ((0 - (S.det * (S⁻¹ * Matrix.of D).trace) / S.det - ∑ i, y i * ∑ j, -(S⁻¹ * Matrix.of D * S⁻¹) i j * y j) / 2) 0 := by
    unfold logDensity
    refine HasDerivAt.div_const (HasDerivAt.sub (HasDerivAt.sub (hasDerivAt_const _ _) ?_) ?_) _
    · have := (det_line hd (Matrix.of D)).log (by simpa using hd)
      simpa using this
    · simp only [dotProduct, Matrix.mulVec]
      refine HasDerivAt.fun_sum fun i _ => HasDerivAt.const_mul _ (HasDerivAt.fun_sum fun j _ => HasDerivAt.mul_const ?_ _)
      have := inv_line (s := s) (by rwa [hs]) D i j
      rwa [hs] at this
  rw [h2.unique h3, mul_div_cancel_left₀ _ hd]
  have e1 : (S⁻¹ * Matrix.of D).trace = ∑ i, ∑ j, S⁻¹ i j * D i j := by
    rw [Matrix.trace_mul_comm]
    simp only [Matrix.trace, Matrix.diag, Matrix.mul_apply, Matrix.of_apply]
    refine Finset.sum_congr rfl fun i _ => Finset.sum_congr rfl fun j _ => ?_
    rw [← hsym, Matrix.transpose_apply, hsym, mul_comm]
  have e2 : ∑ i, y i * ∑ j, -(S⁻¹ * Matrix.of D * S⁻¹) i j * y j = -∑ i, ∑ j, S⁻¹.mulVec y i * S⁻¹.mulVec y j * D i j := by
    have a1 : ∑ i, y i * ∑ j, -(S⁻¹ * Matrix.of D * S⁻¹) i j * y j = -(y ⬝ᵥ (S⁻¹ * Matrix.of D * S⁻¹).mulVec y) := by
      simp [dotProduct, Matrix.mulVec]
    rw [a1, Matrix.mul_assoc, ← Matrix.mulVec_mulVec, Matrix.dotProduct_mulVec, ← Matrix.mulVec_transpose, hsym, ← Matrix.mulVec_mulVec]
    congr 1
    generalize S⁻¹.mulVec y = α
    simp only [dotProduct, Matrix.mulVec, Matrix.of_apply, Finset.mul_sum]
    exact Finset.sum_congr rfl fun i _ => Finset.sum_congr rfl fun j _ => by ring
  rw [e1, e2]
  simp only [sub_div, sub_mul, Finset.sum_sub_distrib, div_mul_eq_mul_div, ← Finset.sum_div]
  ring

end GPyABCD
