import Verif.Model.Kernels
import Mathlib.Analysis.Calculus.Deriv.Add
import Mathlib.Analysis.Calculus.Deriv.Mul
import Mathlib.Analysis.Calculus.Deriv.Inv
import Mathlib.Analysis.Calculus.Deriv.Comp
import Mathlib.Analysis.Calculus.Deriv.Slope
import Mathlib.Tactic.FieldSimp
import Mathlib.Tactic.Linarith
import Mathlib.Tactic.Ring
import Mathlib.Tactic.Positivity

/-! # Facts about the sigmoid functions -/

namespace GPyABCD.Kern

theorem one_add_abs_pos (a : ℝ) : 0 < 1 + |a| := by positivity

theorem sigmoid_eq (a : ℝ) : sigmoid a = (1 + core a) / 2 := rfl

theorem core_neg (a : ℝ) : core (-a) = -core a := by simp [core, neg_div]

theorem core_zero : core 0 = 0 := by simp [core]

theorem core_lt_one (a : ℝ) : core a < 1 := by
  rw [core, div_lt_one (one_add_abs_pos a)]
  have := le_abs_self a
  linarith

theorem neg_one_lt_core (a : ℝ) : -1 < core a := by
  have := core_lt_one (-a)
  rw [core_neg] at this
  linarith

theorem core_strictMono : StrictMono core := by
  intro a b h
  rw [core, core, div_lt_div_iff₀ (one_add_abs_pos a) (one_add_abs_pos b)]
  rcases le_total 0 a with ha | ha <;> rcases le_total 0 b with hb | hb
  · rw [abs_of_nonneg ha, abs_of_nonneg hb]; nlinarith
  · have : a = b := by linarith
    linarith
  · rw [abs_of_nonpos ha, abs_of_nonneg hb]
    by_cases h0 : b = 0
    · subst h0; linarith
    · have : 0 < b := lt_of_le_of_ne hb (Ne.symm h0)
      nlinarith
  · rw [abs_of_nonpos ha, abs_of_nonpos hb]; nlinarith

theorem core_pos {a : ℝ} (h : 0 < a) : 0 < core a := by
  have := core_strictMono h
  rwa [core_zero] at this

theorem core_of_nonneg {a : ℝ} (h : 0 ≤ a) : core a = a / (1 + a) := by rw [core, abs_of_nonneg h]

theorem core_of_nonpos {a : ℝ} (h : a ≤ 0) : core a = a / (1 - a) := by
  rw [core, abs_of_nonpos h, sub_eq_add_neg]

/-- The core sigmoid is midpoint-concave when the midpoint is non-negative. -/
theorem core_add_le {u v : ℝ} (h : 0 ≤ u + v) : core u + core v ≤ 2 * core ((u + v) / 2) := by
  wlog huv : u ≤ v generalizing u v
  · have := this (u := v) (v := u) (by linarith) (by linarith)
    rw [add_comm v u] at this; linarith
  have hm : 0 ≤ (u + v) / 2 := by linarith
  have hv : 0 ≤ v := by linarith
  rw [core_of_nonneg hm, core_of_nonneg hv]
  have h1 : (0:ℝ) < 1 + v := by linarith
  have h2 : (0:ℝ) < 1 + (u + v) / 2 := by linarith
  rcases le_total 0 u with hu | hu
  · rw [core_of_nonneg hu]
    have h3 : (0:ℝ) < 1 + u := by linarith
    rw [div_add_div _ _ h3.ne' h1.ne', mul_div_assoc', div_le_div_iff₀ (mul_pos h3 h1) h2]
    nlinarith [mul_nonneg hu hv, sq_nonneg (u - v)]
  · rw [core_of_nonpos hu]
    have h3 : (0:ℝ) < 1 - u := by linarith
    rw [div_add_div _ _ h3.ne' h1.ne', mul_div_assoc', div_le_div_iff₀ (mul_pos h3 h1) h2]
    have e : 2 * ((u + v) / 2) * ((1 - u) * (1 + v)) - (u * (1 + v) + (1 - u) * v) * (1 + (u + v) / 2)
      = (u + v) * ((1 - u) * (1 + v) - (1 + (u + v) / 2)) := by ring
    have : 0 ≤ (u + v) * ((1 - u) * (1 + v) - (1 + (u + v) / 2)) :=
      mul_nonneg h (by nlinarith [mul_nonneg (neg_nonneg.2 hu) hv])
    linarith

theorem hasDerivAt_core (a : ℝ) : HasDerivAt core (1 / (1 + |a|) ^ 2) a := by
  rcases lt_trichotomy a 0 with h | h | h
  · have h1 : HasDerivAt (fun a : ℝ => a / (1 - a)) (((1 : ℝ) * (1 - a) - a * (-1)) / (1 - a) ^ 2) a :=
      (hasDerivAt_id a).div (by simpa using (hasDerivAt_id a).const_sub 1) (by simp; linarith)
    rw [abs_of_neg h]
    have e : core =ᶠ[nhds a] fun a => a / (1 - a) := by
      filter_upwards [Iio_mem_nhds h] with b hb using core_of_nonpos (le_of_lt hb)
    refine (h1.congr_of_eventuallyEq e).congr_deriv ?_
    rw [← sub_eq_add_neg]; congr 1; ring
  · subst h
    rw [hasDerivAt_iff_tendsto_slope]
    have : Filter.Tendsto (fun y : ℝ => 1 / (1 + |y|)) (nhdsWithin 0 {0}ᶜ) (nhds (1 / (1 + |(0:ℝ)|) ^ 2)) := by
      have hc : ContinuousAt (fun y : ℝ => 1 / (1 + |y|)) 0 :=
        ContinuousAt.div continuousAt_const (by fun_prop) (by simp)
      have := hc.tendsto.mono_left (nhdsWithin_le_nhds (s := {0}ᶜ))
      simpa using this
    refine this.congr' ?_
    filter_upwards [self_mem_nhdsWithin] with y hy
    have hy : y ≠ 0 := hy
    have := (one_add_abs_pos y).ne'
    rw [slope_def_field, core_zero, core]
    field_simp
    simp
  · have h1 : HasDerivAt (fun a : ℝ => a / (1 + a)) (((1 : ℝ) * (1 + a) - a * 1) / (1 + a) ^ 2) a :=
      (hasDerivAt_id a).div (by simpa using (hasDerivAt_id a).const_add 1) (by simp; linarith)
    rw [abs_of_pos h]
    have e : core =ᶠ[nhds a] fun a => a / (1 + a) := by
      filter_upwards [Ioi_mem_nhds h] with b hb using core_of_nonneg (le_of_lt hb)
    refine (h1.congr_of_eventuallyEq e).congr_deriv ?_
    congr 1; ring

theorem hasDerivAt_sigmoid (a : ℝ) : HasDerivAt sigmoid (sigmoidD a) a := by
  have h := ((hasDerivAt_core a).const_add 1).div_const 2
  refine h.congr_deriv ?_
  rw [sigmoidD]; ring

/-- The inverse height of a window and its derivative, `sigmoidalKernels.py:27-37`. -/
theorem hasDerivAt_inv_core {a : ℝ} (h : 0 < a) : HasDerivAt (fun a => 1 / core a) (invCoreD a) a := by
  have h1 := (hasDerivAt_core a).inv (core_pos h).ne'
  have e : (fun a => 1 / core a) = core⁻¹ := by funext a; simp
  rw [e]
  refine h1.congr_deriv ?_
  rw [invCoreD, core_of_nonneg h.le, abs_of_pos h]
  have : (1 + a) ≠ 0 := by linarith
  have := h.ne'
  field_simp

end GPyABCD.Kern
