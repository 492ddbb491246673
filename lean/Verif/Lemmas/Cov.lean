import Verif.Spec.Numeric
import Verif.Model.Gradients
import Verif.Lemmas.PerFacts
import Mathlib.Analysis.Matrix.Order
import Mathlib.Analysis.SpecialFunctions.Exponential
import Mathlib.Analysis.Complex.Trigonometric

/-! # Covariance functions -/

namespace GPyABCD
open Finset

namespace IsCov

/-- The matrix of a covariance on a list of points. -/
theorem posSemidef {k : Cov} (h : IsCov k) {n : ℕ} (x : Fin n → ℝ) :
    (Matrix.of fun i j => k (x i) (x j)).PosSemidef := by
  refine Matrix.PosSemidef.of_dotProduct_mulVec_nonneg ?_ fun c => ?_
  · ext i j
    simp [Matrix.conjTranspose_apply, h.1 (x i) (x j)]
  · have := h.2 n x c
    simp only [dotProduct, Matrix.mulVec, mul_sum, Matrix.of_apply, Pi.star_apply, star_trivial]
    refine this.trans_eq (sum_congr rfl fun i _ => sum_congr rfl fun j _ => by ring)

theorem of_posSemidef {k : Cov} (hs : ∀ x y, k x y = k y x)
    (h : ∀ (n : ℕ) (x : Fin n → ℝ), (Matrix.of fun i j => k (x i) (x j)).PosSemidef) : IsCov k := by
  refine ⟨hs, fun n x c => ?_⟩
  have := (h n x).dotProduct_mulVec_nonneg c
  simp only [dotProduct, Matrix.mulVec, mul_sum, Matrix.of_apply, Pi.star_apply, star_trivial] at this
  refine this.trans_eq (sum_congr rfl fun i _ => sum_congr rfl fun j _ => by ring)

theorem zero : IsCov (fun _ _ => 0) := ⟨fun _ _ => rfl, fun n x c => by simp⟩

theorem add {k k' : Cov} (h : IsCov k) (h' : IsCov k') : IsCov (fun x y => k x y + k' x y) := by
  refine ⟨fun x y => by simp only [h.1 x y, h'.1 x y], fun n x c => ?_⟩
  simp only [mul_add, sum_add_distrib]
  exact add_nonneg (h.2 n x c) (h'.2 n x c)

theorem smul {k : Cov} (h : IsCov k) {v : ℝ} (hv : 0 ≤ v) : IsCov (fun x y => v * k x y) := by
  refine ⟨fun x y => by simp only [h.1 x y], fun n x c => ?_⟩
  have : ∑ i, ∑ j, c i * c j * (v * k (x i) (x j)) = v * ∑ i, ∑ j, c i * c j * k (x i) (x j) := by
    simp only [mul_sum]
    exact sum_congr rfl fun i _ => sum_congr rfl fun j _ => by ring
  rw [this]
  exact mul_nonneg hv (h.2 n x c)

theorem mul {k k' : Cov} (h : IsCov k) (h' : IsCov k') : IsCov (fun x y => k x y * k' x y) := by
  refine of_posSemidef (fun x y => by simp only [h.1 x y, h'.1 x y]) fun n x => ?_
  exact (h.posSemidef x).hadamard (h'.posSemidef x)

/-- Rank-one covariances. -/
theorem outer (f : ℝ → ℝ) : IsCov (fun x y => f x * f y) := by
  refine ⟨fun x y => mul_comm _ _, fun n x c => ?_⟩
  have : ∑ i, ∑ j, c i * c j * (f (x i) * f (x j)) = (∑ i, c i * f (x i)) ^ 2 := by
    rw [sq, sum_mul_sum]
    exact sum_congr rfl fun i _ => sum_congr rfl fun j _ => by ring
  rw [this]; positivity

theorem sum {ι : Type*} (s : Finset ι) {k : ι → Cov} (h : ∀ i ∈ s, IsCov (k i)) : IsCov (fun x y => ∑ i ∈ s, k i x y) := by
  classical
  induction s using Finset.induction_on with
  | empty => simpa using zero
  | insert a s ha ih =>
    simp only [sum_insert ha]
    exact (h a (mem_insert_self _ _)).add (ih fun i hi => h i (mem_insert_of_mem hi))

theorem pow {k : Cov} (h : IsCov k) : ∀ m : ℕ, IsCov (fun x y => k x y ^ m)
  | 0 => by simpa using outer (fun _ => 1)
  | m + 1 => by simpa only [pow_succ] using (pow h m).mul h

/-- Pointwise limits of covariances are covariances. -/
theorem lim {k : ℕ → Cov} {k' : Cov} (h : ∀ m, IsCov (k m))
    (hl : ∀ x y, Filter.Tendsto (fun m => k m x y) Filter.atTop (nhds (k' x y))) : IsCov k' := by
  refine ⟨fun x y => ?_, fun n x c => ?_⟩
  · refine tendsto_nhds_unique (hl x y) ?_
    simp only [fun m => (h m).1 x y]
    exact hl y x
  · refine ge_of_tendsto' (x := Filter.atTop) (f := fun m => ∑ i, ∑ j, c i * c j * k m (x i) (x j)) ?_ fun m => (h m).2 n x c
    exact tendsto_finsetSum _ fun i _ => tendsto_finsetSum _ fun j _ => (hl _ _).const_mul _

theorem series {k : ℕ → Cov} {k' : Cov} (h : ∀ m, IsCov (k m)) (hl : ∀ x y, HasSum (fun m => k m x y) (k' x y)) : IsCov k' :=
  lim (k := fun m x y => ∑ i ∈ range m, k i x y) (fun _ => sum _ fun i _ => h i) fun x y => (hl x y).tendsto_sum_nat

theorem exp {k : Cov} (h : IsCov k) : IsCov (fun x y => Real.exp (k x y)) := by
  refine series (k := fun m x y => (m.factorial : ℝ)⁻¹ * k x y ^ m) (fun m => (h.pow m).smul (by positivity)) fun x y => ?_
  have := NormedSpace.expSeries_div_hasSum_exp (k x y)
  rw [← Real.exp_eq_exp_ℝ] at this
  refine this.congr_fun ?_ |> id
  intro m
  simp [div_eq_inv_mul]

theorem cos (a : ℝ) : IsCov (fun x y => Real.cos (a * (x - y))) := by
  have := (outer fun x => Real.cos (a * x)).add (outer fun x => Real.sin (a * x))
  simpa only [mul_sub, Real.cos_sub] using this

end IsCov

namespace Kern

theorem isCov_white {v : ℝ} (hv : 0 ≤ v) : IsCov (white v) := by
  refine ⟨fun x y => by simp only [white, eq_comm], fun n x c => ?_⟩
  classical
  have : ∑ i, ∑ j, c i * c j * white v (x i) (x j) =
      v * ∑ a ∈ univ.image x, (∑ i, if x i = a then c i else 0) ^ 2 := by
    rw [mul_sum]
    have h1 : ∀ i, ∑ j, c i * c j * white v (x i) (x j) = v * (c i * ∑ j, if x j = x i then c j else 0) := by
      intro i
      rw [mul_sum, mul_sum]
      refine sum_congr rfl fun j _ => ?_
      by_cases h : x i = x j
      · simp [white, h]; ring
      · simp [white, h, Ne.symm h]
    simp only [h1]
    rw [← mul_sum, ← mul_sum]
    congr 1
    have h2 : ∀ a, (∑ i, if x i = a then c i else 0) ^ 2 = ∑ i, if x i = a then c i * (∑ j, if x j = a then c j else 0) else 0 := by
      intro a
      rw [sq, sum_mul]
      exact sum_congr rfl fun i _ => by split <;> simp
    simp only [h2]
    rw [sum_comm]
    refine sum_congr rfl fun i _ => ?_
    rw [sum_ite_eq]
    simp
  rw [this]
  exact mul_nonneg hv (sum_nonneg fun _ _ => sq_nonneg _)

theorem isCov_bias {v : ℝ} (hv : 0 ≤ v) : IsCov (bias v) := by
  have := (IsCov.outer fun _ => 1).smul hv
  refine (congrArg IsCov ?_).mpr this
  funext x y
  simp [bias]

theorem isCov_basisK {v : ℝ} (hv : 0 ≤ v) (phi : ℝ → ℝ) : IsCov (basisK v phi) := (IsCov.outer phi).smul hv

theorem isCov_linearOffset {v : ℝ} (hv : 0 ≤ v) (o : ℝ) : IsCov (linearOffset v o) := by
  have := (IsCov.outer fun x => x - o).smul hv
  refine (congrArg IsCov ?_).mpr this
  funext x y
  simp only [linearOffset]; ring

theorem isCov_rbf {v : ℝ} (hv : 0 ≤ v) (l : ℝ) : IsCov (rbf v l) := by
  have h1 := ((IsCov.outer fun x => x / l).exp).mul (IsCov.outer fun x => Real.exp (-(x / l) ^ 2 / 2))
  have := h1.smul hv
  refine (congrArg IsCov ?_).mpr this
  funext x y
  simp only [rbf, ← Real.exp_add]
  congr 2
  ring

theorem isCov_changeK {first second : Cov} (h1 : IsCov first) (h2 : IsCov second) (phi phiR : ℝ → ℝ) :
    IsCov (changeK first second phi phiR) :=
  (h1.mul (isCov_basisK zero_le_one phiR)).add (h2.mul (isCov_basisK zero_le_one phi))

theorem isCov_shiftedSidesK {first second : Cov} (h1 : IsCov first) (h2 : IsCov second) {shift : ℝ} (hs : 0 ≤ shift) (l s w : ℝ) :
    IsCov (shiftedSidesK first second shift l s w) :=
  ((h1.mul (isCov_basisK zero_le_one _)).add (h2.mul (isCov_basisK zero_le_one _))).add
    ((h1.add (isCov_bias hs)).mul (isCov_basisK zero_le_one _))

theorem isCov_threePartK {first second third : Cov} (h1 : IsCov first) (h2 : IsCov second) (h3 : IsCov third) (l s w : ℝ) :
    IsCov (threePartK first second third l s w) :=
  ((h1.mul (isCov_basisK zero_le_one _)).add (h2.mul (isCov_basisK zero_le_one _))).add
    (h3.mul (isCov_basisK zero_le_one _))

/-! ## The purely periodic kernel -/

/-- The mean of `cos ^ n`. -/
noncomputable def cosMean (n : ℕ) : ℝ := if n % 2 = 0 then (n.choose (n / 2) : ℝ) / 2 ^ n else 0

/-- `cos ^ n` as a trigonometric polynomial. -/
theorem cos_pow (n : ℕ) (t : ℝ) : Real.cos t ^ n = (∑ k ∈ range (n + 1), (n.choose k : ℝ) * Real.cos (((n : ℝ) - 2 * k) * t)) / 2 ^ n := by
  have h : ((Real.cos t : ℝ) : ℂ) ^ n = (∑ k ∈ range (n + 1), (n.choose k : ℂ) * Complex.exp ((((n : ℝ) - 2 * k) * t : ℝ) * Complex.I)) / 2 ^ n := by
    rw [Complex.ofReal_cos, Complex.cos, div_pow, add_comm (Complex.exp _), add_pow]
    congr 1
    refine sum_congr rfl fun k hk => ?_
    rw [mem_range, Nat.lt_succ_iff] at hk
    rw [mul_comm, ← Complex.exp_nat_mul, ← Complex.exp_nat_mul, ← Complex.exp_add]
    congr 2
    push_cast [Nat.cast_sub hk]
    ring
  have := congrArg Complex.re h
  rw [← Complex.ofReal_pow, Complex.ofReal_re] at this
  rw [this]
  rw [show (2 : ℂ) ^ n = ((2 ^ n : ℝ) : ℂ) by push_cast; rfl, Complex.div_ofReal_re]
  congr 1
  rw [Complex.re_sum]
  refine sum_congr rfl fun k _ => ?_
  rw [← Complex.ofReal_natCast, Complex.re_ofReal_mul, Complex.exp_ofReal_mul_I_re]

theorem cos_pow_sub (n : ℕ) (t : ℝ) : Real.cos t ^ n - cosMean n =
    (∑ k ∈ (range (n + 1)).filter (fun k => 2 * k ≠ n), (n.choose k : ℝ) * Real.cos (((n : ℝ) - 2 * k) * t)) / 2 ^ n := by
  rw [cos_pow, ← sum_filter_add_sum_filter_not (range (n + 1)) (fun k => 2 * k = n)]
  have : ∑ k ∈ (range (n + 1)).filter (fun k => 2 * k = n), (n.choose k : ℝ) * Real.cos (((n : ℝ) - 2 * k) * t) = cosMean n * 2 ^ n := by
    by_cases h : n % 2 = 0
    · have e : (range (n + 1)).filter (fun k => 2 * k = n) = {n / 2} := by
        ext k; simp only [mem_filter, mem_range, mem_singleton]; omega
      have e2 : ((n / 2 : ℕ) : ℝ) = n / 2 := by
        rw [Nat.cast_div (Nat.dvd_of_mod_eq_zero h) (by norm_num)]; norm_num
      rw [e, sum_singleton, e2, cosMean, if_pos h]
      have : ((n : ℝ) - 2 * (n / 2)) * t = 0 := by ring
      rw [this, Real.cos_zero]
      field_simp
    · have e : (range (n + 1)).filter (fun k => 2 * k = n) = ∅ := by
        ext k; simp only [mem_filter, mem_range, notMem_empty, iff_false]; omega
      rw [e, cosMean, if_neg h]; simp
  rw [this]
  have h2 : (2 : ℝ) ^ n ≠ 0 := by positivity
  rw [add_div, mul_div_cancel_right₀ _ h2, add_sub_cancel_left]

theorem isCov_cos_pow_sub (n : ℕ) (a : ℝ) : IsCov (fun x y => Real.cos (a * (x - y)) ^ n - cosMean n) := by
  have h : IsCov (fun x y => ((2 : ℝ) ^ n)⁻¹ * ∑ k ∈ (range (n + 1)).filter (fun k => 2 * k ≠ n),
      (n.choose k : ℝ) * Real.cos ((((n : ℝ) - 2 * k) * a) * (x - y))) :=
    (IsCov.sum _ fun k _ => (IsCov.cos _).smul (Nat.cast_nonneg _)).smul (by positivity)
  refine (congrArg IsCov ?_).mpr h
  funext x y
  rw [cos_pow_sub, div_eq_inv_mul]
  simp only [mul_assoc]

theorem cosMean_term (z : ℝ) (m : ℕ) : z ^ (2 * m) / ((2 * m).factorial : ℝ) * cosMean (2 * m) =
    (z ^ 2 / 4) ^ m / ((m.factorial : ℝ) ^ 2) := by
  rw [cosMean, if_pos (by omega), Nat.mul_div_cancel_left _ (by norm_num)]
  have h1 : ((2 * m).choose m : ℝ) = ((2 * m).factorial : ℝ) / ((m.factorial : ℝ) * (m.factorial : ℝ)) := by
    rw [Nat.cast_choose ℝ (by omega : m ≤ 2 * m)]
    rw [show 2 * m - m = m by omega]
  rw [h1, div_pow, ← pow_mul, show (2:ℝ) ^ (2 * m) = 4 ^ m by rw [pow_mul]; norm_num]
  have h2 : ((2 * m).factorial : ℝ) ≠ 0 := by exact_mod_cast (Nat.factorial_pos _).ne'
  have h3 : (m.factorial : ℝ) ≠ 0 := by exact_mod_cast (Nat.factorial_pos _).ne'
  generalize ((2 * m).factorial : ℝ) = A at *
  generalize (m.factorial : ℝ) = B at *
  field_simp

theorem hasSum_i0 (z : ℝ) : HasSum (fun n : ℕ => z ^ n / (n.factorial : ℝ) * cosMean n) (i0 z) := by
  have he : HasSum (fun m : ℕ => z ^ (2 * m) / ((2 * m).factorial : ℝ) * cosMean (2 * m)) (i0 z) := by
    simp only [cosMean_term]
    exact (i0_summable z).hasSum
  have ho : HasSum (fun m : ℕ => z ^ (2 * m + 1) / ((2 * m + 1).factorial : ℝ) * cosMean (2 * m + 1)) 0 := by
    refine (congrArg (fun f => HasSum f (0 : ℝ)) ?_).mpr hasSum_zero
    funext m
    rw [cosMean, if_neg (by omega)]; simp
  have := HasSum.even_add_odd (f := fun n : ℕ => z ^ n / (n.factorial : ℝ) * cosMean n) he ho
  rwa [add_zero] at this

theorem isCov_exp_cos_sub (a : ℝ) {z : ℝ} (hz : 0 ≤ z) : IsCov (fun x y => Real.exp (Real.cos (a * (x - y)) * z) - i0 z) := by
  refine IsCov.series (k := fun n x y => (z ^ n / (n.factorial : ℝ)) * (Real.cos (a * (x - y)) ^ n - cosMean n))
    (fun n => (isCov_cos_pow_sub n a).smul (by positivity)) fun x y => ?_
  have h1 := NormedSpace.expSeries_div_hasSum_exp (Real.cos (a * (x - y)) * z)
  rw [← Real.exp_eq_exp_ℝ] at h1
  refine (h1.sub (hasSum_i0 z)).congr_fun ?_ |> id
  intro n
  rw [mul_pow]; ring

/-- In the two exact regimes the purely periodic kernel is a covariance. -/
theorem isCov_per {v p l : ℝ} (hv : 0 ≤ v) (hl : 0 < l) (h : l > 10000 ∨ 1 / l ^ 2 < 3.75) : IsCov (per v p l) := by
  unfold per perCore
  refine IsCov.smul ?_ hv
  by_cases h1 : l > 10000
  · simpa only [h1, if_true] using IsCov.cos _
  · have h2 : 1 / l ^ 2 < 3.75 := h.resolve_left h1
    simp only [h1, if_false, h2, if_true]
    have hz : 0 < 1 / l ^ 2 := by positivity
    have h3 := (isCov_exp_cos_sub (2 * Real.pi / p) hz.le).smul
      (v := (Real.exp (1 / l ^ 2) - i0 (1 / l ^ 2))⁻¹) (inv_nonneg.2 (sub_nonneg.2 (i0_lt_exp hz).le))
    simpa only [div_eq_inv_mul (_ - _)] using h3

end Kern
end GPyABCD
