import Mathlib.Probability.Distributions.Gaussian.Multivariate
import Mathlib.Probability.Distributions.Gaussian.HasGaussianLaw.Basic
import Mathlib.Probability.Distributions.Gaussian.HasGaussianLaw.Independence
import Mathlib.LinearAlgebra.Matrix.PosDef

/-!
# Conditioning normal random vectors

If the random vectors `o` and `t` are jointly normal, then given `o` the vector `t` is normal, with the usual mean and covariance matrix.
-/

namespace GPyABCD
open ProbabilityTheory MeasureTheory WithLp

variable {Ω ι κ : Type} [MeasurableSpace Ω] {P : Measure Ω} [Fintype ι] [DecidableEq ι] [Fintype κ] [DecidableEq κ]

theorem mvg_shift (μ : EuclideanSpace ℝ κ) (S : Matrix κ κ ℝ) : multivariateGaussian μ S = (multivariateGaussian 0 S).map (fun z => μ + z) := by
  rw [multivariateGaussian, multivariateGaussian, Measure.map_map (by fun_prop) (by fun_prop)]
  congr 1
  ext x
  simp

/-- Covariances of random variables are a covariance matrix. -/
theorem psd_of_cov [IsProbabilityMeasure P] {r : κ → Ω → ℝ} (hmem : ∀ k, MemLp (r k) 2 P) {S : Matrix κ κ ℝ} (hc : ∀ k l, cov[r k, r l; P] = S k l) :
    S.PosSemidef := by
  refine Matrix.PosSemidef.of_dotProduct_mulVec_nonneg ?_ fun x => ?_
  · ext k l
    simp only [Matrix.conjTranspose_apply, star_trivial]
    rw [← hc, ← hc, covariance_comm]
  · have h : star x ⬝ᵥ S.mulVec x = Var[fun ω => ∑ k, x k * r k ω; P] := by
      rw [← covariance_self (memLp_finsetSum _ fun k _ => (hmem k).const_mul _).aemeasurable,
        covariance_fun_sum_fun_sum (fun k => (hmem k).const_mul _) (fun k => (hmem k).const_mul _)]
      simp only [dotProduct, Matrix.mulVec, Finset.mul_sum, Pi.star_apply, star_trivial]
      exact Finset.sum_congr rfl fun k _ => Finset.sum_congr rfl fun l _ => by rw [covariance_const_mul_left, covariance_const_mul_right, hc]; ring
    rw [h]
    exact variance_nonneg _ _

/-- A normal random vector with mean zero has the law that its covariances say. -/
theorem law_of_cov {r : κ → Ω → ℝ} (hg : HasGaussianLaw (fun ω k => r k ω) P) (hm : ∀ k, ∫ ω, r k ω ∂P = 0) {S : Matrix κ κ ℝ}
    (hc : ∀ k l, cov[r k, r l; P] = S k l) : P.map (fun ω => toLp 2 (fun k => r k ω)) = multivariateGaussian 0 S := by
  have hp := hg.isProbabilityMeasure
  have hL : HasGaussianLaw (fun ω => toLp 2 (fun k => r k ω)) P := hg.toLp_pi 2
  have hmem : ∀ k, MemLp (r k) 2 P := fun k => (hg.eval k).memLp_two
  have i1 := hL.isGaussian_map
  have hS := psd_of_cov hmem hc
  apply IsGaussian.ext
  · rw [integral_id_multivariateGaussian']
    simp only [id_eq]
    rw [integral_map hL.aemeasurable (by fun_prop)]
    ext k
    have := (EuclideanSpace.proj k : EuclideanSpace ℝ κ →L[ℝ] ℝ).integral_comp_comm hL.integrable
    exact this.symm.trans (hm k)
  · ext x y
    rw [covarianceBilin_apply_pi hmem, covarianceBilin_multivariateGaussian hS]
    simp only [hc, dotProduct, Matrix.mulVec, Finset.mul_sum]
    exact Finset.sum_congr rfl fun i _ => Finset.sum_congr rfl fun j _ => by ring

/-- Given `o`, the vector `t` is normal: the mean and the covariance matrix. -/
theorem conditioning {o : ι → Ω → ℝ} {t : κ → Ω → ℝ} (hg : HasGaussianLaw (fun ω => ((fun a => o a ω), (fun k => t k ω))) P)
    (ho : ∀ a, ∫ ω, o a ω ∂P = 0) (ht : ∀ k, ∫ ω, t k ω ∂P = 0) {A : Matrix ι ι ℝ} {B : Matrix ι κ ℝ} {D : Matrix κ κ ℝ} (hA : IsUnit A)
    (hoo : ∀ a b, cov[o a, o b; P] = A a b) (hot : ∀ a k, cov[o a, t k; P] = B a k) (htt : ∀ k l, cov[t k, t l; P] = D k l) :
    (D - B.transpose * A⁻¹ * B).PosSemidef ∧ ∀ {C : Set ((ι → ℝ) × EuclideanSpace ℝ κ)}, MeasurableSet C →
    P {ω | ((fun a => o a ω), toLp 2 (fun k => t k ω)) ∈ C} =
      ∫⁻ y, multivariateGaussian (toLp 2 (B.transpose.mulVec (A⁻¹.mulVec y))) (D - B.transpose * A⁻¹ * B) {z | (y, z) ∈ C} ∂(P.map (fun ω a => o a ω)) := by
  have hp := hg.isProbabilityMeasure
  set W : Matrix κ ι ℝ := B.transpose * A⁻¹ with hW
  have hWA : W * A = B.transpose := by rw [hW, Matrix.mul_assoc, Matrix.nonsing_inv_mul _ ((Matrix.isUnit_iff_isUnit_det _).1 hA), Matrix.mul_one]
  have hmo : ∀ a, MemLp (o a) 2 P := fun a => (hg.fst.eval a).memLp_two
  have hmt : ∀ k, MemLp (t k) 2 P := fun k => (hg.snd.eval k).memLp_two
  set w : κ → Ω → ℝ := fun k ω => ∑ a, W k a * o a ω with hw
  set r : κ → Ω → ℝ := fun k ω => t k ω - w k ω with hr
  have hmw : ∀ k, MemLp (w k) 2 P := fun k => memLp_finsetSum _ fun a _ => (hmo a).const_mul _
  have hwo : ∀ k a, cov[w k, o a; P] = B a k := by
    intro k a
    rw [hw, covariance_fun_sum_left (fun b => (hmo b).const_mul _) (hmo a)]
    have : B a k = (W * A) k a := by rw [hWA]; rfl
    rw [this, Matrix.mul_apply]
    exact Finset.sum_congr rfl fun b _ => by rw [covariance_const_mul_left, hoo]
  have hwt : ∀ k l, cov[w k, t l; P] = (W * B) k l := by
    intro k l
    rw [hw, covariance_fun_sum_left (fun b => (hmo b).const_mul _) (hmt l), Matrix.mul_apply]
    exact Finset.sum_congr rfl fun b _ => by rw [covariance_const_mul_left, hot]
  have hww : ∀ k l, cov[w k, w l; P] = (W * B) k l := by
    intro k l
    rw [show w l = fun ω => ∑ a, W l a * o a ω from rfl, covariance_fun_sum_right (fun b => (hmo b).const_mul _) (hmw k)]
    have e : ∀ a, cov[w k, fun ω => W l a * o a ω; P] = B a k * W l a := fun a => by rw [covariance_const_mul_right, hwo, mul_comm]
    simp only [e]
    have : W * B = (W * B).transpose := by
      have hs : A.transpose = A := by
        ext a b
        rw [Matrix.transpose_apply, ← hoo, ← hoo, covariance_comm]
      rw [hW, Matrix.transpose_mul, Matrix.transpose_mul, Matrix.transpose_transpose, Matrix.transpose_nonsing_inv, hs, Matrix.mul_assoc]
    rw [this, Matrix.transpose_apply, Matrix.mul_apply]
    exact Finset.sum_congr rfl fun a _ => mul_comm _ _
  have hro : ∀ a k, cov[o a, r k; P] = 0 := by
    intro a k
    rw [hr, covariance_fun_sub_right (hmo a) (hmt k) (hmw k), hot, covariance_comm, hwo, sub_self]
  have hrr : ∀ k l, cov[r k, r l; P] = (D - W * B) k l := by
    intro k l
    rw [hr, covariance_fun_sub_fun_sub (hmt k) (hmw k) (hmt l) (hmw l), htt, hwt, hww, covariance_comm, hwt, Matrix.sub_apply]
    have : (W * B) l k = (W * B) k l := by rw [← hww, ← hww, covariance_comm]
    rw [this]; ring
  have hrm : ∀ k, ∫ ω, r k ω ∂P = 0 := by
    intro k
    rw [hr]
    simp only []
    rw [integral_sub ((hmt k).integrable (by norm_num)) ((hmw k).integrable (by norm_num)), ht, hw]
    simp only []
    rw [integral_finsetSum _ fun a _ => ((hmo a).integrable (by norm_num)).const_mul _]
    simp [integral_const_mul, ho]
  have hgr : HasGaussianLaw (fun ω => ((fun a => o a ω), (fun k => r k ω))) P := by
    have := hg.map_fun ((ContinuousLinearMap.fst ℝ (ι → ℝ) (κ → ℝ)).prod
      (ContinuousLinearMap.snd ℝ (ι → ℝ) (κ → ℝ) - (LinearMap.toContinuousLinearMap (Matrix.toLin' W)).comp (ContinuousLinearMap.fst ℝ (ι → ℝ) (κ → ℝ))))
    exact this
  have hind : IndepFun (fun ω a => o a ω) (fun ω => toLp 2 (fun k => r k ω)) P :=
    (hgr.indepFun_of_covariance_eval hro).comp measurable_id (by fun_prop : Measurable (fun z : κ → ℝ => toLp 2 z))
  have hlaw : P.map (fun ω => toLp 2 (fun k => r k ω)) = multivariateGaussian 0 (D - W * B) := law_of_cov hgr.snd hrm hrr
  have ho' : AEMeasurable (fun ω a => o a ω) P := hgr.fst.aemeasurable
  have hr' : AEMeasurable (fun ω => toLp 2 (fun k => r k ω)) P := (hgr.snd.toLp_pi 2).aemeasurable
  have hprod := (indepFun_iff_map_prod_eq_prod_map_map ho' hr').1 hind
  set m : (ι → ℝ) → EuclideanSpace ℝ κ := fun y => toLp 2 (B.transpose.mulVec (A⁻¹.mulVec y)) with hm
  have hmm : Measurable m := by
    have : Continuous fun y : ι → ℝ => B.transpose.mulVec (A⁻¹.mulVec y) := by fun_prop
    exact (by fun_prop : Measurable (fun z : κ → ℝ => toLp 2 z)).comp this.measurable
  have hF : Measurable fun p : (ι → ℝ) × EuclideanSpace ℝ κ => (p.1, m p.1 + p.2) := by fun_prop
  refine ⟨psd_of_cov (fun k => (hmt k).sub (hmw k)) hrr, fun {C} hC => ?_⟩
  have hset : {ω | ((fun a => o a ω), toLp 2 (fun k => t k ω)) ∈ C} =
      (fun ω => ((fun a => o a ω), toLp 2 (fun k => r k ω))) ⁻¹' ((fun p => (p.1, m p.1 + p.2)) ⁻¹' C) := by
    ext ω
    have : toLp 2 (fun k => t k ω) = m (fun a => o a ω) + toLp 2 (fun k => r k ω) := by
      ext k
      have e : (B.transpose.mulVec (A⁻¹.mulVec fun a => o a ω)) k = w k ω := by rw [Matrix.mulVec_mulVec, ← hW]; rfl
      simp only [hm, PiLp.add_apply, e, hr]
      ring
    simp only [Set.mem_ofPred_eq, Set.mem_preimage, this]
  rw [hset, ← Measure.map_apply_of_aemeasurable (ho'.prodMk hr') (hF hC), hprod, Measure.prod_apply (hF hC), hlaw]
  refine lintegral_congr fun y => ?_
  have hm' := Measure.map_apply (μ := multivariateGaussian 0 (D - W * B)) (f := fun z => m y + z) (by fun_prop) (measurable_prodMk_left (x := y) hC)
  rw [mvg_shift (m y)]
  exact hm'.symm

end GPyABCD
