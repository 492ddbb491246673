import Verif.Lemmas.Density

/-!
# The true density is the best on average
-/

namespace GPyABCD
open ProbabilityTheory MeasureTheory WithLp
open scoped ENNReal

variable {Ω ι : Type} [MeasurableSpace Ω] {P : Measure Ω} [Fintype ι] [DecidableEq ι]

theorem measurable_logDensity (S : Matrix ι ι ℝ) : Measurable (logDensity S) := by
  unfold logDensity
  fun_prop

theorem density_one {S : Matrix ι ι ℝ} (hS : S.PosDef) : ∫⁻ y, ENNReal.ofReal (Real.exp (logDensity S y)) = 1 := by
  have h := congrArg (fun μ : Measure (ι → ℝ) => μ Set.univ) (mvg_density hS)
  simp only [Measure.map_apply (by fun_prop : Measurable (ofLp : EuclideanSpace ℝ ι → ι → ℝ)) MeasurableSet.univ, Set.preimage_univ, measure_univ, withDensity_apply _ MeasurableSet.univ,
    Measure.restrict_univ] at h
  exact h.symm

/-- The law says what the covariances are. -/
theorem density_inj {S T : Matrix ι ι ℝ} (hS : S.PosDef) (hT : T.PosDef) (h : logDensity S =ᵐ[volume] logDensity T) : S = T := by
  have h1 : (multivariateGaussian 0 S).map ofLp = (multivariateGaussian 0 T).map ofLp := by
    rw [mvg_density hS, mvg_density hT]
    refine withDensity_congr_ae ?_
    filter_upwards [h] with y hy
    rw [hy]
  have h2 : multivariateGaussian 0 S = multivariateGaussian 0 T := by
    have := congrArg (Measure.map (toLp 2)) h1
    rw [Measure.map_map (by fun_prop) (by fun_prop), Measure.map_map (by fun_prop) (by fun_prop)] at this
    simpa [Function.comp_def] using this
  ext i j
  rw [← covariance_eval_multivariateGaussian (μ := 0) hS.posSemidef, h2, covariance_eval_multivariateGaussian hT.posSemidef]

/-- Normal random vectors: on average the logarithm of the density is greatest for their own covariances, and for no others. -/
theorem gibbs {r : ι → Ω → ℝ} {S T : Matrix ι ι ℝ} (hS : S.PosDef) (hT : T.PosDef) (hg : HasGaussianLaw (fun ω k => r k ω) P) (hm : ∀ k, ∫ ω, r k ω ∂P = 0)
    (hc : ∀ k l, cov[r k, r l; P] = S k l) :
    Integrable (fun ω => logDensity T (fun k => r k ω)) P ∧
    ∫ ω, logDensity T (fun k => r k ω) ∂P ≤ ∫ ω, logDensity S (fun k => r k ω) ∂P ∧
    (∫ ω, logDensity T (fun k => r k ω) ∂P = ∫ ω, logDensity S (fun k => r k ω) ∂P → T = S) := by
  have hp := hg.isProbabilityMeasure
  have hmem : ∀ k, MemLp (r k) 2 P := fun k => (hg.eval k).memLp_two
  have hae : AEMeasurable (fun ω k => r k ω) P := hg.aemeasurable
  have hint : ∀ T : Matrix ι ι ℝ, Integrable (fun ω => logDensity T (fun k => r k ω)) P := fun T => by
    unfold logDensity
    refine Integrable.div_const (Integrable.sub (integrable_const _) ?_) _
    simp only [dotProduct, Matrix.mulVec, Finset.mul_sum]
    refine integrable_finsetSum _ fun i _ => integrable_finsetSum _ fun j _ => ?_
    refine (((hmem i).integrable_mul (hmem j)).const_mul (T⁻¹ i j)).congr (Filter.Eventually.of_forall fun ω => ?_)
    simp only [Pi.mul_apply]
    ring
  have hlaw : P.map (fun ω k => r k ω) = (volume : Measure (ι → ℝ)).withDensity (fun y => ENNReal.ofReal (Real.exp (logDensity S y))) := by
    rw [← mvg_density hS, ← law_of_cov hg hm hc, AEMeasurable.map_map_of_aemeasurable (by fun_prop) (hg.toLp_pi 2).aemeasurable]
    rfl
  let d : Ω → ℝ := fun ω => logDensity T (fun k => r k ω) - logDensity S (fun k => r k ω)
  have hd : Integrable d P := (hint T).sub (hint S)
  have hmd : Measurable fun y => Real.exp (logDensity T y - logDensity S y) := ((measurable_logDensity T).sub (measurable_logDensity S)).exp
  have hl : ∫⁻ ω, ENNReal.ofReal (Real.exp (d ω)) ∂P = 1 := by
    have h1 : ∫⁻ ω, ENNReal.ofReal (Real.exp (d ω)) ∂P = ∫⁻ y, ENNReal.ofReal (Real.exp (logDensity T y - logDensity S y)) ∂(P.map (fun ω k => r k ω)) :=
      (lintegral_map' hmd.ennreal_ofReal.aemeasurable hae).symm
    rw [h1, hlaw, lintegral_withDensity_eq_lintegral_mul _ (measurable_logDensity S).exp.ennreal_ofReal hmd.ennreal_ofReal, ← density_one hT]
    refine lintegral_congr fun y => ?_
    simp only [Pi.mul_apply]
    rw [← ENNReal.ofReal_mul (Real.exp_nonneg _), ← Real.exp_add]
    congr 2
    ring
  have hde : AEStronglyMeasurable (fun ω => Real.exp (d ω)) P := (Real.continuous_exp.measurable.comp_aemeasurable hd.aemeasurable).aestronglyMeasurable
  have hie : Integrable (fun ω => Real.exp (d ω)) P := by
    refine ⟨hde, ?_⟩
    rw [hasFiniteIntegral_iff_ofReal (Filter.Eventually.of_forall fun ω => Real.exp_nonneg _), hl]
    exact ENNReal.one_lt_top
  have he : ∫ ω, Real.exp (d ω) ∂P = 1 := by
    rw [integral_eq_lintegral_of_nonneg_ae (Filter.Eventually.of_forall fun ω => Real.exp_nonneg _) hde, hl, ENNReal.toReal_one]
  have hsub : ∫ ω, d ω ∂P = ∫ ω, logDensity T (fun k => r k ω) ∂P - ∫ ω, logDensity S (fun k => r k ω) ∂P := integral_sub (hint T) (hint S)
  have hn : ∀ ω, 0 ≤ Real.exp (d ω) - 1 - d ω := fun ω => by have := Real.add_one_le_exp (d ω); linarith
  have hi : Integrable (fun ω => Real.exp (d ω) - 1 - d ω) P := (hie.sub (integrable_const 1)).sub hd
  have hv : ∫ ω, (Real.exp (d ω) - 1 - d ω) ∂P = -∫ ω, d ω ∂P := by
    have h1 : Integrable (fun ω => Real.exp (d ω) - 1) P := hie.sub (integrable_const 1)
    rw [integral_sub h1 hd, integral_sub hie (integrable_const 1), he]
    simp
  refine ⟨hint T, ?_, fun heq => ?_⟩
  · have := integral_nonneg (μ := P) (f := fun ω => Real.exp (d ω) - 1 - d ω) hn
    rw [hv] at this
    linarith
  · have h0 : ∫ ω, (Real.exp (d ω) - 1 - d ω) ∂P = 0 := by rw [hv, hsub, heq, sub_self, neg_zero]
    rw [integral_eq_zero_iff_of_nonneg hn hi] at h0
    refine density_inj hT hS ?_
    have h1 : ∀ᵐ ω ∂P, logDensity T (fun k => r k ω) = logDensity S (fun k => r k ω) := by
      filter_upwards [h0] with ω hω
      by_contra hne
      have := Real.add_one_lt_exp (x := d ω) (sub_ne_zero.2 hne)
      simp only [Pi.zero_apply] at hω
      linarith
    have h2 : ∀ᵐ y ∂(P.map (fun ω k => r k ω)), logDensity T y = logDensity S y :=
      (ae_map_iff hae (measurableSet_eq_fun (measurable_logDensity T) (measurable_logDensity S))).2 h1
    rw [hlaw] at h2
    refine (withDensity_absolutelyContinuous' (measurable_logDensity S).exp.ennreal_ofReal.aemeasurable (Filter.Eventually.of_forall fun y => ?_)).ae_le h2
    simpa using Real.exp_pos _

end GPyABCD
