import Verif.Model.Kernels
import Mathlib.Analysis.SpecialFunctions.Trigonometric.Series
import Mathlib.Data.Nat.Choose.Central
import Mathlib.Analysis.SpecialFunctions.Exponential

/-!
Facts about the Bessel function and its approximation needed for the periodic kernel: the
denominators in `PureStdPeriodicKernel.K` never vanish.
-/

namespace GPyABCD.Kern
open Real

theorem i0_term_le (z : ℝ) (k : ℕ) : (z ^ 2 / 4) ^ k / ((k.factorial : ℝ) ^ 2) ≤ z ^ (2 * k) / ((2 * k).factorial : ℝ) := by
  have h1 : (Nat.centralBinom k : ℝ) * ((k.factorial : ℝ) ^ 2) = ((2 * k).factorial : ℝ) := by
    have := Nat.choose_mul_factorial_mul_factorial (n := 2 * k) (k := k) (by omega)
    rw [show 2 * k - k = k by omega] at this
    rw [Nat.centralBinom_eq_two_mul_choose, ← this]; push_cast; ring
  have h2 : (Nat.centralBinom k : ℝ) ≤ 4 ^ k := by
    have : Nat.centralBinom k ≤ 4 ^ k := by
      rw [Nat.centralBinom_eq_two_mul_choose, show 4 = 2 ^ 2 by rfl, ← pow_mul]
      exact Nat.choose_le_two_pow (2 * k) k
    exact_mod_cast this
  have hk : 0 < ((k.factorial : ℝ) ^ 2) := by positivity
  have hk2 : 0 < ((2 * k).factorial : ℝ) := by positivity
  rw [div_pow, div_div, ← pow_mul]
  apply div_le_div_of_nonneg_left (by rw [pow_mul]; positivity) hk2
  rw [← h1]
  exact mul_le_mul_of_nonneg_right h2 hk.le

theorem i0_summable (z : ℝ) : Summable (fun k : ℕ => (z ^ 2 / 4) ^ k / ((k.factorial : ℝ) ^ 2)) := by
  refine Summable.of_nonneg_of_le (fun k => by positivity) (i0_term_le z) ?_
  exact (Real.hasSum_cosh z).summable

theorem i0_le_cosh (z : ℝ) : i0 z ≤ cosh z := by
  unfold i0
  rw [← (Real.hasSum_cosh z).tsum_eq]
  exact Summable.tsum_le_tsum (i0_term_le z) (i0_summable z) (Real.hasSum_cosh z).summable

theorem i0_lt_exp {z : ℝ} (hz : 0 < z) : i0 z < exp z := by
  refine lt_of_le_of_lt (i0_le_cosh z) ?_
  have : exp (-z) < exp z := exp_lt_exp.2 (by linarith)
  rw [Real.cosh_eq]
  linarith

theorem embi0_lt_one {z : ℝ} (hz : 3.75 ≤ z) : embi0 z < 1 := by
  unfold embi0
  have hz0 : 0 < z := by linarith
  have hy0 : 0 < 3.75 / z := by positivity
  have hy1 : 3.75 / z ≤ 1 := by rw [div_le_one hz0]; exact hz
  have hs : 1 < √z := by
    rw [Real.lt_sqrt (by norm_num)]; norm_num; linarith
  simp only
  rw [div_lt_one (by linarith)]
  set y := 3.75 / z
  have e1 : y ^ 2 ≤ 1 := by nlinarith
  have : 0.39894228 + (0.01328592 + (0.00225319 + (-0.00157565 + (0.00916281 + (-0.02057706 + (0.02635537 + (-0.01647633 + (0.00392377)*y)*y)*y)*y)*y)*y)*y)*y ≤ 1 := by
    have p1 : y ≤ 1 := hy1
    have p : ∀ n : ℕ, 0 ≤ y ^ n ∧ y ^ n ≤ 1 := fun n => ⟨by positivity, pow_le_one₀ hy0.le hy1⟩
    have := p 2; have := p 3; have := p 4; have := p 5; have := p 6; have := p 7; have := p 8
    ring_nf
    linarith [p 2, p 3, p 4, p 5, p 6, p 7, p 8]
  linarith

theorem perCore_one {l : ℝ} (hl : 0 < l) : perCore l 1 = 1 := by
  unfold perCore
  have hi : 0 < 1 / l ^ 2 := by positivity
  simp only
  split
  · rfl
  · split
    · rw [one_mul, div_self]
      exact sub_ne_zero.2 (i0_lt_exp hi).ne'
    · rename_i h
      rw [sub_self, zero_mul, exp_zero, div_self]
      exact sub_ne_zero.2 (embi0_lt_one (not_lt.1 h)).ne'

theorem per_diag {v p l : ℝ} (hl : 0 < l) (x : ℝ) : per v p l x x = v := by
  simp [per, perCore_one hl]

end GPyABCD.Kern
