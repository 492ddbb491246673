import Verif.Lemmas.Posterior
import Mathlib.MeasureTheory.Integral.Pi
import Mathlib.MeasureTheory.Measure.Lebesgue.Basic

/-!
# The density of normal random vectors
-/

namespace GPyABCD
open ProbabilityTheory MeasureTheory WithLp
open scoped ENNReal MatrixOrder

variable {ι : Type} [Fintype ι] [DecidableEq ι]

omit [DecidableEq ι] in
/-- Independent standard normal variables have the product of the densities. -/
theorem pi_density : Measure.pi (fun _ : ι => gaussianReal 0 1) = (volume : Measure (ι → ℝ)).withDensity (fun x => ∏ i, gaussianPDF 0 1 (x i)) := by
  refine Measure.pi_eq fun s hs => ?_
  rw [withDensity_apply _ (MeasurableSet.univ_pi hs), volume_pi, Measure.restrict_pi_pi]
  have h0 : ∀ x : ι → ℝ, ∏ i, gaussianPDF 0 1 (x i) = ENNReal.ofReal (∏ i, gaussianPDFReal 0 1 (x i)) := fun x => by
    rw [ENNReal.ofReal_prod_of_nonneg fun i _ => gaussianPDFReal_nonneg ..]; rfl
  have hi : ∀ i, Integrable (gaussianPDFReal 0 1) (volume.restrict (s i)) := fun i => (integrable_gaussianPDFReal 0 1).restrict
  simp_rw [h0]
  rw [← ofReal_integral_eq_lintegral_ofReal (Integrable.fintype_prod fun i => hi i)
    (Filter.Eventually.of_forall fun x => Finset.prod_nonneg fun i _ => gaussianPDFReal_nonneg ..),
    integral_fintype_prod_eq_prod (fun _ => gaussianPDFReal 0 1),
    ENNReal.ofReal_prod_of_nonneg fun i _ => integral_nonneg fun x => gaussianPDFReal_nonneg ..]
  refine Finset.prod_congr rfl fun i _ => ?_
  rw [gaussianReal_apply_eq_integral 0 (by simp)]

/-- The logarithm of the density. -/
noncomputable def logDensity (S : Matrix ι ι ℝ) (y : ι → ℝ) : ℝ :=
  (-(Fintype.card ι : ℝ) * Real.log (2 * Real.pi) - Real.log S.det - y ⬝ᵥ S⁻¹.mulVec y) / 2

theorem mvg_density {S : Matrix ι ι ℝ} (hS : S.PosDef) :
    (multivariateGaussian 0 S).map ofLp = (volume : Measure (ι → ℝ)).withDensity (fun y => ENNReal.ofReal (Real.exp (logDensity S y))) := by
  set B := CFC.sqrt S with hB
  have hBB : B * B = S := CFC.sqrt_mul_sqrt_self _ hS.posSemidef.nonneg
  have hBt : B.transpose = B := by
    have := (Matrix.nonneg_iff_posSemidef.1 (CFC.sqrt_nonneg S)).1
    ext i j
    simpa using this.apply i j
  have hd : B.det * B.det = S.det := by rw [← Matrix.det_mul, hBB]
  have hS0 := hS.det_pos
  have hB0 : B.det ≠ 0 := fun h => by rw [h] at hd; linarith
  have e1 : (multivariateGaussian 0 S).map ofLp = (Measure.pi (fun _ : ι => gaussianReal 0 1)).map (Matrix.toLin' B) := by
    rw [multivariateGaussian, ← map_pi_eq_stdGaussian, Measure.map_map (by fun_prop) (by fun_prop), Measure.map_map (by fun_prop) (by fun_prop)]
    congr 1
    ext x i
    simp [hB]
  have hm : Measurable (Matrix.toLin' B) := (LinearMap.continuous_of_finiteDimensional _).measurable
  rw [e1, pi_density]
  have hv := Real.map_matrix_volume_pi_eq_smul_volume_pi hB0
  have hvol : (volume : Measure (ι → ℝ)) = ENNReal.ofReal |B.det| • Measure.map (Matrix.toLin' B) volume := by
    rw [hv, smul_smul, ← ENNReal.ofReal_mul (abs_nonneg _), ← abs_mul, mul_inv_cancel₀ hB0]
    simp
  ext s hs
  rw [Measure.map_apply hm hs, withDensity_apply _ (hm hs), withDensity_apply _ hs]
  have hmeas : Measurable fun y : ι → ℝ => ENNReal.ofReal (Real.exp (logDensity S y)) := by
    unfold logDensity
    fun_prop
  conv_rhs => rw [hvol]
  rw [Measure.restrict_smul, lintegral_smul_measure, setLIntegral_map hs hmeas hm, smul_eq_mul,
    ← lintegral_const_mul (f := fun x => ENNReal.ofReal (Real.exp (logDensity S (Matrix.toLin' B x)))) _ (hmeas.comp hm)]
  refine lintegral_congr fun x => ?_
  rw [← ENNReal.ofReal_mul (abs_nonneg _)]
  have h0 : ∏ i, gaussianPDF 0 1 (x i) = ENNReal.ofReal (∏ i, gaussianPDFReal 0 1 (x i)) := by
    rw [ENNReal.ofReal_prod_of_nonneg fun i _ => gaussianPDFReal_nonneg ..]; rfl
  rw [h0]
  congr 1
  have hq : (Matrix.toLin' B x) ⬝ᵥ S⁻¹.mulVec (Matrix.toLin' B x) = ∑ i, x i ^ 2 := by
    rw [Matrix.toLin'_apply, Matrix.mulVec_mulVec, ← hBB, Matrix.mul_inv_rev, Matrix.mul_assoc, Matrix.nonsing_inv_mul _ (by simpa using hB0), Matrix.mul_one,
      Matrix.dotProduct_mulVec, ← Matrix.mulVec_transpose, Matrix.transpose_nonsing_inv, hBt, Matrix.mulVec_mulVec, Matrix.nonsing_inv_mul _ (by simpa using hB0), Matrix.one_mulVec]
    simp [dotProduct, sq]
  have hl : Real.log S.det = 2 * Real.log |B.det| := by
    rw [← hd, Real.log_mul hB0 hB0, Real.log_abs]; ring
  have hb : |B.det| = Real.exp (Real.log |B.det|) := (Real.exp_log (abs_pos.2 hB0)).symm
  rw [logDensity, hq, hl]
  conv_rhs => rw [hb]
  rw [← Real.exp_add]
  have hp : ∀ t : ℝ, gaussianPDFReal 0 1 t = Real.exp (-(Real.log (2 * Real.pi)) / 2 - t ^ 2 / 2) := fun t => by
    rw [gaussianPDFReal, Real.exp_sub, neg_div, Real.exp_neg, Real.sqrt_eq_rpow, ← Real.exp_log (x := (2 * Real.pi * ((1 : NNReal) : ℝ)) ^ (1 / 2 : ℝ)) (by positivity), Real.log_rpow (by positivity),
      neg_div, Real.exp_neg]
    simp
    ring_nf
  simp_rw [hp]
  rw [← Real.exp_sum, Finset.sum_sub_distrib, Finset.sum_const, nsmul_eq_mul, Finset.card_univ, ← Finset.sum_div]
  congr 1
  simp only [Real.log_exp]
  ring

end GPyABCD
