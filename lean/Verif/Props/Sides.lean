import Verif.Props.Numeric
import Verif.Model.Gradients

/-!
# Property C106: change windows with independent sides are told as they are

`__USE_INDEPENDENT_SIDES_CHANGEWINDOW_KERNEL`, `Kernels/baseKernels.py:65-66`, makes `CW` the kernel of `changeWindowShiftedSides.py` instead of the one of
`changeOperators.py`. What is read back and told is the same for both: `location` and `width` (and `slope`), `kernelOperations.py:14-15`, and components `first * SIr` and
`second * SI`, `change.py:117-133`.
-/

namespace GPyABCD
open Kern Filter Topology

/-- The covariance of what is told of a change window: `first` outside and `second` inside a window at `l` of width `w`. -/
noncomputable def toldWindow (first second : Cov) (l s w : ℝ) : Cov := fun x y =>
  first x y * (phiSI l s w true x * phiSI l s w true y) + second x y * (phiSI l s w false x * phiSI l s w false y)

/-- C106: with the default window that is the kernel's covariance. -/
theorem C106_default (first second : Cov) (l s w x y : ℝ) :
    changeK first second (phiSI l s w false) (phiSI l s w true) x y = toldWindow first second l s w x y := by
  simp [changeK, toldWindow, basisK]

private theorem middle {l s w : ℝ} (hs : 0 < s) (hw : 0 < w) :
    phiS l s true (l + w / 2) = 1 / (2 + w / s) ∧ phiS (l + w) s false (l + w / 2) = 1 / (2 + w / s) := by
  have pos : 0 < w / (2 * s) := by positivity
  have e1 : (l + w / 2 - l) / s = w / (2 * s) := by field_simp; ring
  have e2 : (l + w / 2 - (l + w)) / s = -(w / (2 * s)) := by field_simp; ring
  simp only [phiS, sigmoid, e1, e2, if_true, Bool.false_eq_true, if_false, abs_neg, abs_of_pos pos]
  constructor <;> field_simp <;> ring

/-- C106 is false: in the middle of the window, where only `second` is told, the kernel also has this much of `first` and of the shift. -/
theorem C106_middle (first second : Cov) (shift : ℝ) {l s w : ℝ} (hs : 0 < s) (hw : 0 < w) :
    shiftedSidesK first second shift l s w (l + w / 2) (l + w / 2) =
      toldWindow first second l s w (l + w / 2) (l + w / 2) + (2 * first (l + w / 2) (l + w / 2) + shift) / (2 + w / s) ^ 2 := by
  obtain ⟨h1, h2⟩ := middle (l := l) hs hw
  simp only [shiftedSidesK, toldWindow, basisK, h1, h2, C49_complement, C49_middle hs hw]
  have : 2 + w / s ≠ 0 := by positivity
  field_simp
  ring

/-- C106 is false: so it is never what is told if `first` varies there or there is a shift. -/
theorem C106_wrong (first second : Cov) {shift l s w : ℝ} (hs : 0 < s) (hw : 0 < w) (hshift : 0 ≤ shift) (hf : 0 ≤ first (l + w / 2) (l + w / 2))
    (h : 0 < first (l + w / 2) (l + w / 2) ∨ 0 < shift) : shiftedSidesK first second shift l s w ≠ toldWindow first second l s w := by
  intro e
  have m := C106_middle first second shift (l := l) hs hw
  rw [e] at m
  have p : 0 < (2 * first (l + w / 2) (l + w / 2) + shift) / (2 + w / s) ^ 2 := by
    refine div_pos ?_ (by positivity)
    rcases h with h | h <;> linarith
  linarith

/-- C106: the shift, a parameter that is fitted, is not told: kernels that differ in it alone are told alike and are not the same. -/
theorem C106_shift_untold (first second : Cov) {shift shift' l s w : ℝ} (hs : 0 < s) (hw : 0 < w) (h : shift ≠ shift') :
    shiftedSidesK first second shift l s w ≠ shiftedSidesK first second shift' l s w := by
  intro e
  have m := C106_middle first second shift (l := l) hs hw
  have m' := C106_middle first second shift' (l := l) hs hw
  rw [e, m'] at m
  have pos : (2 + w / s) ^ 2 ≠ 0 := by positivity
  have := (div_left_inj' pos).1 (add_left_cancel m)
  exact h (by linarith)

/-- C106: with a constant outside, what is told says that the values far to the left and far to the right are the same, while the kernel has them independent. -/
theorem C106_sides (v shift : ℝ) (second : Cov) {l s w B : ℝ} (hs : 0 < s) (hb : ∀ x y, |second x y| ≤ B) :
    Tendsto (fun x => toldWindow (bias v) second l s w (-x) x) atTop (𝓝 v) ∧
    Tendsto (fun x => shiftedSidesK (bias v) second shift l s w (-x) x) atTop (𝓝 0) := by
  have si := C49_limits (l := l) (w := w) hs
  have n : Tendsto (fun x : ℝ => -x) atTop atBot := tendsto_neg_atTop_atBot
  have left := si.1.comp n
  have mid : Tendsto (fun x => second (-x) x * (phiSI l s w false (-x) * phiSI l s w false x)) atTop (𝓝 0) := by
    have z : Tendsto (fun x => phiSI l s w false (-x) * phiSI l s w false x) atTop (𝓝 0) := by
      simpa using left.mul si.2
    have z' : Tendsto (fun x => B * |phiSI l s w false (-x) * phiSI l s w false x|) atTop (𝓝 0) := by
      simpa using (z.abs).const_mul B
    refine squeeze_zero_norm (fun x => ?_) z'
    rw [Real.norm_eq_abs, abs_mul]
    exact mul_le_mul_of_nonneg_right (hb _ _) (abs_nonneg _)
  have s1 := C48_limits (l := l) hs
  have s2 := C48_limits (l := l + w) hs
  constructor
  · have r : Tendsto (fun x => v * ((1 - phiSI l s w false (-x)) * (1 - phiSI l s w false x))) atTop (𝓝 (v * ((1 - 0) * (1 - 0)))) :=
      ((left.const_sub 1).mul (si.2.const_sub 1)).const_mul v
    have := r.add mid
    simpa [toldWindow, bias, C49_complement] using this
  · have r1 : Tendsto (fun x => v * ((1 - phiS l s false (-x)) * (1 - phiS l s false x))) atTop (𝓝 (v * ((1 - 0) * (1 - 1)))) :=
      (((s1.1.comp n).const_sub 1).mul (s1.2.const_sub 1)).const_mul v
    have r2 : Tendsto (fun x => (v + shift) * (phiS (l + w) s false (-x) * phiS (l + w) s false x)) atTop (𝓝 ((v + shift) * (0 * 1))) :=
      ((s2.1.comp n).mul s2.2).const_mul (v + shift)
    have := (r1.add mid).add r2
    have rev : ∀ x, phiS l s true x = 1 - phiS l s false x := fun x => by simp [phiS]
    simpa [shiftedSidesK, bias, basisK, rev] using this

/-- A constant outside and a shift. -/
example : shiftedSidesK (bias 1) (bias 2) 3 0 (1 / 2) 1 ≠ toldWindow (bias 1) (bias 2) 0 (1 / 2) 1 :=
  C106_wrong _ _ (by norm_num) one_pos (by norm_num) (by norm_num [bias]) (Or.inl (by norm_num [bias]))

/-- Not nearly the same either: far away from each other 0 instead of 1. -/
example : Tendsto (fun x => toldWindow (bias 1) (bias 2) 0 (1 / 2) 1 (-x) x) atTop (𝓝 1) ∧
    Tendsto (fun x => shiftedSidesK (bias 1) (bias 2) 3 0 (1 / 2) 1 (-x) x) atTop (𝓝 0) :=
  C106_sides 1 3 (bias 2) (B := 2) (by norm_num) fun _ _ => by norm_num [bias]

end GPyABCD
