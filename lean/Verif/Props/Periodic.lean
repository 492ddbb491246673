import Verif.Props.Numeric
import Verif.Spec.Sem
import Verif.Lemmas.RealSem

/-! # Properties of the purely periodic kernel, and covariances of whole expressions -/

namespace GPyABCD
open Kern

/-! ## C53 -/

theorem C53_symmetric (v p l x y : ℝ) : per v p l x y = per v p l y x := by
  simp only [per]
  rw [show (2 * Real.pi / p) * (x - y) = -((2 * Real.pi / p) * (y - x)) by ring, Real.cos_neg]

theorem C53_stationary (v p l : ℝ) : Stat (per v p l) := by
  intro h x y
  simp only [per]
  rw [show x + h - (y + h) = x - y by ring]

theorem C53_periodic {p : ℝ} (hp : p ≠ 0) (v l x y : ℝ) : per v p l (x + p) y = per v p l x y := by
  simp only [per]
  rw [show (2 * Real.pi / p) * (x + p - y) = (2 * Real.pi / p) * (x - y) + 2 * Real.pi by field_simp; ring, Real.cos_add_two_pi]

theorem C53_diagonal {n : ℕ} (v p : ℝ) {l : ℝ} (hl : 0 < l) (X : Fin n → ℝ) (i : Fin n) :
    per v p l (X i) (X i) = perKdiag v X i := per_diag hl _

theorem C53_variance_gradient {n m : ℕ} (v p l : ℝ) (dL : Fin n → Fin m → ℝ) (X : Fin n → ℝ) (X2 : Fin m → ℝ) :
    HasDerivAt (fun v => linLoss dL (per v p l) X X2) (perGrad v p l dL X X2).1 v := by
  refine hasDerivAt_linLoss (k := fun v => per v p l) fun i j => ?_
  have := (hasDerivAt_id v).mul_const (perDV p l (X i - X2 j))
  rw [one_mul] at this
  exact this

/-- The period gradient is right in all three regimes. -/
theorem C53_period_gradient {n m : ℕ} (v : ℝ) {p : ℝ} (hp : p ≠ 0) (l : ℝ) (dL : Fin n → Fin m → ℝ) (X : Fin n → ℝ) (X2 : Fin m → ℝ) :
    HasDerivAt (fun p => linLoss dL (per v p l) X X2) (perGrad v p l dL X X2).2.1 p := by
  refine hasDerivAt_linLoss (k := fun p => per v p l) fun i j => ?_
  have hc := hasDerivAt_cosArg hp (X i - X2 j)
  simp only [per, perCore, perDP]
  by_cases h1 : l > 10000
  · simp only [h1, if_true]
    refine (hc.const_mul v).congr_deriv ?_
    ring
  · by_cases h2 : 1 / l ^ 2 < 3.75
    · simp only [h1, h2, if_false, if_true]
      have he := (hc.mul_const (1 / l ^ 2)).exp
      refine (((he.sub_const (i0 (1 / l ^ 2))).div_const (Real.exp (1 / l ^ 2) - i0 (1 / l ^ 2))).const_mul v).congr_deriv ?_
      ring
    · simp only [h1, h2, if_false]
      have he := ((hc.sub_const 1).mul_const (1 / l ^ 2)).exp
      refine (((he.sub_const (embi0 (1 / l ^ 2))).div_const (1 - embi0 (1 / l ^ 2))).const_mul v).congr_deriv ?_
      ring

/-- In the middle regime the lengthscale gradient is the derivative. -/
theorem C53_lengthscale_gradient {n m : ℕ} (v p : ℝ) {l : ℝ} (hl : 0 < l) (h1 : l < 10000) (h2 : 1 / l ^ 2 < 3.75)
    (dL : Fin n → Fin m → ℝ) (X : Fin n → ℝ) (X2 : Fin m → ℝ) :
    HasDerivAt (fun l => linLoss dL (per v p l) X X2) (perGrad v p l dL X X2).2.2 l := by
  refine hasDerivAt_linLoss (k := fun l => per v p l) fun i j => ?_
  set c := Real.cos ((2 * Real.pi / p) * (X i - X2 j)) with hc
  have hz := hasDerivAt_invL2 hl.ne'
  have hz0 : 0 < 1 / l ^ 2 := by positivity
  have hden : Real.exp (1 / l ^ 2) - i0 (1 / l ^ 2) ≠ 0 := (sub_pos.2 (i0_lt_exp hz0)).ne'
  have hi : HasDerivAt (fun l : ℝ => i0 (1 / l ^ 2)) (i1 (1 / l ^ 2) * (-2 * (1 / l ^ 2) / l)) l :=
    HasDerivAt.comp (h₂ := i0) l (hasDerivAt_i0 (1 / l ^ 2)) hz
  have hn := ((hz.const_mul c).exp.sub hi).div (hz.exp.sub hi) hden
  have hk := hn.const_mul v
  have e : (fun l => per v p l (X i) (X2 j)) =ᶠ[nhds l] fun l =>
      v * ((Real.exp (c * (1 / l ^ 2)) - i0 (1 / l ^ 2)) / (Real.exp (1 / l ^ 2) - i0 (1 / l ^ 2))) := by
    have c2 : ContinuousAt (fun l : ℝ => 1 / l ^ 2) l := hz.continuousAt
    filter_upwards [Iio_mem_nhds h1, c2.eventually (Iio_mem_nhds h2)] with a ha hb
    have ha : ¬ a > 10000 := not_lt.2 (Set.mem_Iio.1 ha).le
    simp only [per, perCore, ha, if_false, hb, if_true, ← hc]
  refine (hk.congr_of_eventuallyEq e).congr_deriv ?_
  have h1' : ¬ l > 10000 := not_lt.2 h1.le
  simp only [perDL, h1', if_false, h2, if_true, ← hc, Pi.sub_apply]
  generalize Real.exp (1 / l ^ 2) = E at *
  generalize i0 (1 / l ^ 2) = B at *
  field_simp
  ring

/-- The derivative of one entry in the short-lengthscale regime, and how far the code's is from it. -/
theorem per_short {v p l d : ℝ} (hl : 0 < l) (h1 : l < 10000) (h2 : 3.75 < 1 / l ^ 2) (x y : ℝ) (hd : d = x - y) :
    HasDerivAt (fun l => per v p l x y)
      (perDL v p l d + (-2 * (1 / l ^ 2) / l) * v * (-(embi0D (1 / l ^ 2) + embi0min1 (1 / l ^ 2))) * (1 - perDV p l d) / (1 - embi0 (1 / l ^ 2))) l := by
  subst hd
  set c := Real.cos ((2 * Real.pi / p) * (x - y)) with hc
  have hz := hasDerivAt_invL2 hl.ne'
  have hz0 : 0 < 1 / l ^ 2 := by positivity
  have hden : 1 - embi0 (1 / l ^ 2) ≠ 0 := (sub_pos.2 (embi0_lt_one h2.le)).ne'
  have hi : HasDerivAt (fun l : ℝ => embi0 (1 / l ^ 2)) (embi0D (1 / l ^ 2) * (-2 * (1 / l ^ 2) / l)) l :=
    HasDerivAt.comp (h₂ := embi0) l (hasDerivAt_embi0 hz0) hz
  have hn := ((hz.const_mul (c - 1)).exp.sub hi).div (hi.const_sub 1) hden
  have hk := hn.const_mul v
  have e : (fun l => per v p l x y) =ᶠ[nhds l] fun l =>
      v * ((Real.exp ((c - 1) * (1 / l ^ 2)) - embi0 (1 / l ^ 2)) / (1 - embi0 (1 / l ^ 2))) := by
    have c2 : ContinuousAt (fun l : ℝ => 1 / l ^ 2) l := hz.continuousAt
    filter_upwards [Iio_mem_nhds h1, c2.eventually (Ioi_mem_nhds h2)] with a ha hb
    have ha : ¬ a > 10000 := not_lt.2 (Set.mem_Iio.1 ha).le
    have hb : ¬ 1 / a ^ 2 < 3.75 := not_lt.2 (le_of_lt hb)
    simp only [per, perCore, ha, if_false, hb, ← hc]
  refine (hk.congr_of_eventuallyEq e).congr_deriv ?_
  have h1' : ¬ l > 10000 := not_lt.2 h1.le
  have h2' : ¬ 1 / l ^ 2 < 3.75 := not_lt.2 h2.le
  simp only [perDL, perDV, h1', if_false, h2', ← hc, Pi.sub_apply]
  generalize embi0 (1 / l ^ 2) = B at *
  field_simp
  ring

/-- The code's entry of the gradient and the derivative differ by at most `1e-6` times
`2 |v| / (l^3 (1 - embi0))` times `|1 - K/v|`. Missing from the full statement: exactness, which fails
(`C53_lengthscale_gradient_inexact`), and the limit regime, excluded by it. -/
theorem C53_lengthscale_gradient_partial {n m : ℕ} (v p : ℝ) {l : ℝ} (hl : 0 < l) (h1 : l < 10000) (h2 : 3.75 < 1 / l ^ 2)
    (dL : Fin n → Fin m → ℝ) (X : Fin n → ℝ) (X2 : Fin m → ℝ) :
    ∃ g, HasDerivAt (fun l => linLoss dL (per v p l) X X2) g l ∧
      |g - (perGrad v p l dL X X2).2.2| ≤
        ∑ i, ∑ j, |dL i j| * (0.000001 * (2 * |v| / (l ^ 3 * (1 - embi0 (1 / l ^ 2)))) * |1 - perDV p l (X i - X2 j)|) := by
  refine ⟨_, hasDerivAt_linLoss (k := fun l => per v p l) fun i j => per_short hl h1 h2 (X i) (X2 j) rfl, ?_⟩
  have hB : 0 < 1 - embi0 (1 / l ^ 2) := sub_pos.2 (embi0_lt_one h2.le)
  rw [perGrad, msum_add, add_sub_cancel_left]
  refine (Finset.abs_sum_le_sum_abs _ _).trans (Finset.sum_le_sum fun i _ => ?_)
  refine (Finset.abs_sum_le_sum_abs _ _).trans (Finset.sum_le_sum fun j _ => ?_)
  rw [abs_mul]
  refine mul_le_mul_of_nonneg_left ?_ (abs_nonneg _)
  have herr := embi0D_error h2.le
  rw [abs_div, abs_mul, abs_mul, abs_mul, abs_neg, abs_of_pos hB]
  have e : |-2 * (1 / l ^ 2) / l| = 2 / l ^ 3 := by
    rw [show -2 * (1 / l ^ 2) / l = -(2 / l ^ 3) by field_simp, abs_neg, abs_of_pos (by positivity)]
  rw [e]
  have hl3 : 0 < l ^ 3 := by positivity
  have : 2 / l ^ 3 * |v| * |embi0D (1 / l ^ 2) + embi0min1 (1 / l ^ 2)| * |1 - perDV p l (X i - X2 j)| / (1 - embi0 (1 / l ^ 2)) =
      |embi0D (1 / l ^ 2) + embi0min1 (1 / l ^ 2)| * (2 * |v| / (l ^ 3 * (1 - embi0 (1 / l ^ 2)))) * |1 - perDV p l (X i - X2 j)| := by
    field_simp
  rw [this]
  gcongr

/-- For short lengthscales the code's lengthscale gradient is not exactly the derivative: it uses a separate
approximation for the derivative of the approximated Bessel function. -/
theorem C53_lengthscale_gradient_inexact : ∃ (X X2 : Fin 1 → ℝ) (dL : Fin 1 → Fin 1 → ℝ) (v p l : ℝ),
    0 < v ∧ 0 < p ∧ 0 < l ∧ ¬ HasDerivAt (fun l => linLoss dL (per v p l) X X2) (perGrad v p l dL X X2).2.2 l := by
  refine ⟨fun _ => 1, fun _ => 0, fun _ _ => 1, 1, 2, 1 / 2, by norm_num, by norm_num, by norm_num, fun h => ?_⟩
  have h2 : (3.75 : ℝ) < 1 / (1 / 2) ^ 2 := by norm_num
  have h' := hasDerivAt_linLoss (dL := fun _ _ : Fin 1 => (1 : ℝ)) (k := fun l => per 1 2 l) fun (_ _ : Fin 1) =>
    per_short (v := 1) (p := 2) (l := 1 / 2) (by norm_num) (by norm_num) h2 1 0 rfl
  have e := h.unique h'
  simp only [perGrad, msum, Fin.sum_univ_one, one_mul] at e
  have e2 := left_eq_add.1 e
  have hz : (1 : ℝ) / (1 / 2) ^ 2 = 4 := by norm_num
  have hs : √(4 : ℝ) = 2 := by
    rw [show (4 : ℝ) = 2 ^ 2 by norm_num]; exact Real.sqrt_sq (by norm_num)
  rw [hz] at e2
  have hB : 1 - embi0 4 ≠ 0 := (sub_pos.2 (embi0_lt_one (by norm_num))).ne'
  have hD : embi0D 4 + embi0min1 4 ≠ 0 := by
    simp only [embi0D, embi0min1, hs]; norm_num
  have hK : 1 - perDV 2 (1 / 2) (1 - 0) ≠ 0 := by
    have hc : Real.cos (2 * Real.pi / 2 * (1 - 0)) = -1 := by
      rw [show 2 * Real.pi / 2 * (1 - 0) = Real.pi by ring, Real.cos_pi]
    simp only [perDV, hc, hz]
    rw [if_neg (by norm_num), if_neg (by norm_num)]
    have hexp : Real.exp ((-1 - 1) * 4) < 1 := by rw [Real.exp_lt_one_iff]; norm_num
    have : (Real.exp ((-1 - 1) * 4) - embi0 4) / (1 - embi0 4) < 1 := by
      rw [div_lt_one (sub_pos.2 (embi0_lt_one (by norm_num)))]; linarith
    linarith
  rcases div_eq_zero_iff.1 e2 with h0 | h0
  · rcases mul_eq_zero.1 h0 with h0 | h0
    · rcases mul_eq_zero.1 h0 with h0 | h0
      · norm_num at h0
      · exact hD (neg_eq_zero.1 h0)
    · exact hK h0
  · exact hB h0

example : (0 : ℝ) < 2 ∧ (2 : ℝ) < 10000 ∧ (1 : ℝ) / 2 ^ 2 < 3.75 ∧ (3.75 : ℝ) < 1 / (1 / 2) ^ 2 := by norm_num

/-! ## C54 -/

theorem C54_difference (x : ℝ) : embi0min1 x = embi0 x - embi1 x := by
  simp only [embi0min1, embi0, embi1]
  rw [← sub_div]
  congr 1
  ring

example : embi0 4 ≠ 0 ∧ embi1 4 ≠ embi0 4 := by
  have hs : √(4 : ℝ) = 2 := by
    rw [show (4 : ℝ) = 2 ^ 2 by norm_num]; exact Real.sqrt_sq (by norm_num)
  simp only [embi0, embi1, hs]; norm_num

end GPyABCD
