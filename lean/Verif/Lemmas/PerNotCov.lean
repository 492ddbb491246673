import Verif.Lemmas.Cov
import Mathlib.Analysis.SpecialFunctions.Complex.Log
import Mathlib.Analysis.Complex.ExponentialBounds
import Mathlib.Algebra.Field.GeomSum
import Mathlib.Tactic.NormNum.NatFactorial

/-! # The periodic kernel for short lengthscales: quadratic form on equally spaced points -/

namespace GPyABCD.Kern
open Finset

/-- Sum of the `m`-th harmonic over all differences of `N` equally spaced points of the circle. -/
theorem harmonic_sum {N : ℕ} (hN : 0 < N) {m : ℤ} (h0 : m ≠ 0) (h1 : |m| < N) :
    ∑ i : Fin N, ∑ j : Fin N, Real.cos ((m : ℝ) * (2 * Real.pi * ((i : ℕ) / N - (j : ℕ) / N : ℝ))) = 0 := by
  have hNr : (N : ℝ) ≠ 0 := by positivity
  set r : ℂ := Complex.exp (2 * Real.pi * Complex.I * (m / N)) with hr
  have hNc : (N : ℂ) ≠ 0 := by exact_mod_cast hN.ne'
  have hrN : r ^ N = 1 := by
    rw [hr, ← Complex.exp_nat_mul, Complex.exp_eq_one_iff]
    exact ⟨m, by field_simp⟩
  have hr1 : r ≠ 1 := by
    intro h
    rw [hr, Complex.exp_eq_one_iff] at h
    obtain ⟨k, hk⟩ := h
    have hpi : (2 * Real.pi * Complex.I : ℂ) ≠ 0 := Complex.two_pi_I_ne_zero
    have : (m / N : ℂ) = k := by
      have : (2 * Real.pi * Complex.I : ℂ) * (m / N) = (2 * Real.pi * Complex.I) * k := by rw [hk]; ring
      exact mul_left_cancel₀ hpi this
    rw [div_eq_iff hNc] at this
    have hz : m = k * N := by exact_mod_cast this
    have hk0 : k ≠ 0 := by rintro rfl; simp at hz; exact h0 hz
    have : (1 : ℤ) ≤ |k| := Int.one_le_abs hk0
    rw [hz, abs_mul, Nat.abs_cast] at h1
    nlinarith
  have hgeom : ∑ i ∈ range N, r ^ i = 0 := by
    have := geom_sum_eq hr1 N
    rw [this, hrN, sub_self, zero_div]
  have hpow : ∀ i : ℕ, r ^ i = Complex.exp (((m : ℝ) * (2 * Real.pi * ((i : ℕ) / N : ℝ)) : ℝ) * Complex.I) := by
    intro i
    rw [hr, ← Complex.exp_nat_mul]
    congr 1
    push_cast
    ring
  have hc : ∑ i : Fin N, Real.cos ((m : ℝ) * (2 * Real.pi * ((i : ℕ) / N : ℝ))) = 0 := by
    have := congrArg Complex.re hgeom
    rw [Complex.re_sum] at this
    simp only [hpow, Complex.exp_ofReal_mul_I_re, Complex.zero_re] at this
    rw [← Fin.sum_univ_eq_sum_range (fun i : ℕ => Real.cos ((m : ℝ) * (2 * Real.pi * ((i : ℕ) / N : ℝ))))] at this
    exact this
  have hs : ∑ i : Fin N, Real.sin ((m : ℝ) * (2 * Real.pi * ((i : ℕ) / N : ℝ))) = 0 := by
    have := congrArg Complex.im hgeom
    rw [Complex.im_sum] at this
    simp only [hpow, Complex.exp_ofReal_mul_I_im, Complex.zero_im] at this
    rw [← Fin.sum_univ_eq_sum_range (fun i : ℕ => Real.sin ((m : ℝ) * (2 * Real.pi * ((i : ℕ) / N : ℝ))))] at this
    exact this
  simp only [mul_sub, Real.cos_sub, sum_add_distrib]
  simp only [← mul_sum, ← sum_mul, hc, hs]
  simp

/-- Sum of a power of the cosine over those differences. -/
theorem cos_pow_sum {N n : ℕ} (h : n < N) :
    ∑ i : Fin N, ∑ j : Fin N, Real.cos (2 * Real.pi * ((i : ℕ) / N - (j : ℕ) / N : ℝ)) ^ n = N ^ 2 * cosMean n := by
  have hN : 0 < N := by omega
  have e : ∀ t : ℝ, Real.cos t ^ n = cosMean n +
      (∑ k ∈ (range (n + 1)).filter (fun k => 2 * k ≠ n), (n.choose k : ℝ) * Real.cos (((n : ℝ) - 2 * k) * t)) / 2 ^ n := by
    intro t; rw [← cos_pow_sub]; ring
  simp only [e, sum_add_distrib]
  have hz : ∑ i : Fin N, ∑ j : Fin N, (∑ k ∈ (range (n + 1)).filter (fun k => 2 * k ≠ n),
      (n.choose k : ℝ) * Real.cos (((n : ℝ) - 2 * k) * (2 * Real.pi * ((i : ℕ) / N - (j : ℕ) / N : ℝ)))) / 2 ^ n = 0 := by
    simp only [← sum_div]
    have h1 : ∀ i : Fin N, ∑ j : Fin N, (∑ k ∈ (range (n + 1)).filter (fun k => 2 * k ≠ n),
      (n.choose k : ℝ) * Real.cos (((n : ℝ) - 2 * k) * (2 * Real.pi * ((i : ℕ) / N - (j : ℕ) / N : ℝ)))) =
      ∑ k ∈ (range (n + 1)).filter (fun k => 2 * k ≠ n), ∑ j : Fin N,
      (n.choose k : ℝ) * Real.cos (((n : ℝ) - 2 * k) * (2 * Real.pi * ((i : ℕ) / N - (j : ℕ) / N : ℝ))) := fun i => sum_comm
    simp only [h1]
    rw [sum_comm]
    rw [sum_eq_zero, zero_div]
    intro k hk
    rw [mem_filter, mem_range] at hk
    have h2 := harmonic_sum (m := (n : ℤ) - 2 * k) hN (by omega) (by rw [abs_lt]; omega)
    simp only [← mul_sum]
    push_cast at h2
    rw [h2, mul_zero]
  rw [hz, add_zero]
  simp [sq, mul_assoc]

/-- The mean of the exponential over those differences is at most the Bessel series up to the remainder. -/
theorem exp_cos_sum_le {N : ℕ} (z : ℝ) (hz : 0 ≤ z) :
    ∑ i : Fin N, ∑ j : Fin N, Real.exp (Real.cos (2 * Real.pi * ((i : ℕ) / N - (j : ℕ) / N : ℝ)) * z) ≤
      N ^ 2 * (∑ n ∈ range N, z ^ n / (n.factorial : ℝ) * cosMean n + (Real.exp z - ∑ n ∈ range N, z ^ n / (n.factorial : ℝ))) := by
  let A : ℕ → ℝ := fun n => ∑ i : Fin N, ∑ j : Fin N, Real.cos (2 * Real.pi * ((i : ℕ) / N - (j : ℕ) / N : ℝ)) ^ n
  have hexp : ∀ t : ℝ, HasSum (fun n : ℕ => t ^ n / (n.factorial : ℝ)) (Real.exp t) := by
    intro t
    have := NormedSpace.expSeries_div_hasSum_exp t
    rwa [← Real.exp_eq_exp_ℝ] at this
  have hA : ∀ n, A n ≤ N ^ 2 := by
    intro n
    have : ∀ i : Fin N, ∀ j : Fin N, Real.cos (2 * Real.pi * ((i : ℕ) / N - (j : ℕ) / N : ℝ)) ^ n ≤ 1 := by
      intro i j
      refine (le_abs_self _).trans ?_
      rw [abs_pow]
      exact pow_le_one₀ (abs_nonneg _) (Real.abs_cos_le_one _)
    calc A n ≤ ∑ i : Fin N, ∑ j : Fin N, (1 : ℝ) := sum_le_sum fun i _ => sum_le_sum fun j _ => this i j
      _ = N ^ 2 := by simp [sq]
  have h1 : HasSum (fun n : ℕ => z ^ n / (n.factorial : ℝ) * A n)
      (∑ i : Fin N, ∑ j : Fin N, Real.exp (Real.cos (2 * Real.pi * ((i : ℕ) / N - (j : ℕ) / N : ℝ)) * z)) := by
    have := hasSum_sum (s := univ) fun (i : Fin N) _ => hasSum_sum (s := univ) fun (j : Fin N) _ =>
      hexp (Real.cos (2 * Real.pi * ((i : ℕ) / N - (j : ℕ) / N : ℝ)) * z)
    refine (congrArg (fun f => HasSum f _) ?_).mpr this
    funext n
    simp only [A, mul_sum, mul_pow]
    exact sum_congr rfl fun i _ => sum_congr rfl fun j _ => by ring
  have h2 : HasSum (fun n : ℕ => z ^ n / (n.factorial : ℝ) * (if n < N then N ^ 2 * cosMean n else N ^ 2))
      (N ^ 2 * (∑ n ∈ range N, z ^ n / (n.factorial : ℝ) * cosMean n + (Real.exp z - ∑ n ∈ range N, z ^ n / (n.factorial : ℝ)))) := by
    have h3 : HasSum (fun n : ℕ => if n < N then z ^ n / (n.factorial : ℝ) * (cosMean n - 1) else 0)
        (∑ n ∈ range N, z ^ n / (n.factorial : ℝ) * (cosMean n - 1)) := by
      have : ∑ n ∈ range N, z ^ n / (n.factorial : ℝ) * (cosMean n - 1) =
          ∑ n ∈ range N, if n < N then z ^ n / (n.factorial : ℝ) * (cosMean n - 1) else 0 :=
        sum_congr rfl fun n hn => by rw [if_pos (mem_range.1 hn)]
      rw [this]
      refine hasSum_sum_of_ne_finset_zero fun n hn => ?_
      rw [if_neg (fun h => hn (mem_range.2 h))]
    have h4 := ((hexp z).add h3).mul_left ((N : ℝ) ^ 2)
    refine (congrArg₂ HasSum ?_ ?_).mpr h4
    · funext n
      by_cases h : n < N
      · simp only [h, if_true]; ring
      · simp only [h, if_false]; ring
    · simp only [mul_sub, sum_sub_distrib, mul_one]
      ring
  refine hasSum_le (fun n => ?_) h1 h2
  refine mul_le_mul_of_nonneg_left ?_ (by positivity)
  by_cases h : n < N
  · rw [if_pos h]; exact (cos_pow_sum h).le
  · rw [if_neg h]; exact hA n

set_option maxRecDepth 4000 in
/-- With lengthscale 1/2 the purely periodic kernel has a negative quadratic form. -/
theorem per_not_isCov : ∑ i : Fin 24, ∑ j : Fin 24, (1 : ℝ) * 1 * per 1 1 (1 / 2) ((i : ℕ) / (24 : ℕ) : ℝ) ((j : ℕ) / (24 : ℕ) : ℝ) < 0 := by
  have hz : (1 : ℝ) / (1 / 2) ^ 2 = 4 := by norm_num
  have hB : 0 < 1 - embi0 4 := sub_pos.2 (embi0_lt_one (by norm_num))
  have hk : ∀ x y : ℝ, per 1 1 (1 / 2) x y =
      (Real.exp (-4) * Real.exp (Real.cos (2 * Real.pi * (x - y)) * 4) - embi0 4) * (1 - embi0 4)⁻¹ := by
    intro x y
    simp only [per, perCore, hz]
    rw [if_neg (by norm_num), if_neg (by norm_num), ← Real.exp_add, div_eq_mul_inv, div_one, one_mul]
    congr 3
    ring
  simp only [hk, one_mul, ← sum_mul, ← mul_sum, sum_sub_distrib, sum_const, card_univ, Fintype.card_fin, nsmul_eq_mul]
  refine mul_neg_of_neg_of_pos ?_ (inv_pos.2 hB)
  have h := exp_cos_sum_le (N := 24) 4 (by norm_num)
  have he : Real.exp 4 < 2.7182818286 ^ 4 := by
    have : Real.exp 4 = Real.exp 1 ^ 4 := by rw [← Real.exp_nat_mul]; norm_num
    rw [this]
    exact pow_lt_pow_left₀ Real.exp_one_lt_d9 (Real.exp_pos _).le (by norm_num)
  have hs : √(4 : ℝ) = 2 := by
    rw [show (4 : ℝ) = 2 ^ 2 by norm_num]; exact Real.sqrt_sq (by norm_num)
  have hE : embi0 4 = 3.75 * 0 + (0.39894228 + (0.01328592 + (0.00225319 + (-0.00157565 + (0.00916281 + (-0.02057706 + (0.02635537 + (-0.01647633 + (0.00392377)*0.9375)*0.9375)*0.9375)*0.9375)*0.9375)*0.9375)*0.9375)*0.9375) / 2 := by
    simp only [embi0, hs]; norm_num
  have hnum : ∑ n ∈ range 24, (4 : ℝ) ^ n / (n.factorial : ℝ) * cosMean n + (Real.exp 4 - ∑ n ∈ range 24, (4 : ℝ) ^ n / (n.factorial : ℝ)) <
      Real.exp 4 * embi0 4 := by
    have : (1 - embi0 4) * Real.exp 4 < ∑ n ∈ range 24, (4 : ℝ) ^ n / (n.factorial : ℝ) - ∑ n ∈ range 24, (4 : ℝ) ^ n / (n.factorial : ℝ) * cosMean n := by
      refine (mul_lt_mul_of_pos_left he hB).trans ?_
      rw [hE]
      simp only [sum_range_succ, sum_range_zero, cosMean]
      norm_num [Nat.choose, Nat.factorial]
    linarith
  have hlt := h.trans_lt (mul_lt_mul_of_pos_left hnum (by norm_num : (0:ℝ) < ((24 : ℕ) : ℝ) ^ 2))
  have h2 := mul_lt_mul_of_pos_left hlt (Real.exp_pos (-4))
  have h3 : Real.exp (-4) * (((24 : ℕ) : ℝ) ^ 2 * (Real.exp 4 * embi0 4)) = ((24 : ℕ) : ℝ) * (((24 : ℕ) : ℝ) * embi0 4) := by
    have : Real.exp (-4) * Real.exp 4 = 1 := by rw [← Real.exp_add]; norm_num
    calc _ = (Real.exp (-4) * Real.exp 4) * (((24 : ℕ) : ℝ) ^ 2 * embi0 4) := by ring
      _ = _ := by rw [this]; ring
  rw [h3] at h2
  linarith

end GPyABCD.Kern
