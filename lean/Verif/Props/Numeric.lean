import Verif.Lemmas.Gradients
import Verif.Lemmas.Cov
import Verif.Lemmas.Periodic
import Mathlib.Analysis.SpecialFunctions.Trigonometric.Basic
import Mathlib.Topology.Order.Basic
import Mathlib.Analysis.SpecificLimits.Basic

/-! # Properties of the numeric kernels -/

namespace GPyABCD
open Kern

/-! ## C48: sigmoids -/

theorem C48_range {l s : ℝ} (rev : Bool) (x : ℝ) : 0 < phiS l s rev x ∧ phiS l s rev x < 1 := by
  have h1 := core_lt_one ((x - l) / s)
  have h2 := neg_one_lt_core ((x - l) / s)
  cases rev <;> simp only [phiS, sigmoid_eq] <;> constructor <;> simp <;> linarith

theorem C48_strictMono {l s : ℝ} (hs : 0 < s) : StrictMono (phiS l s false) := by
  intro x y h
  have h1 : (x - l) / s < (y - l) / s := div_lt_div_of_pos_right (by linarith) hs
  have := core_strictMono h1
  simp only [phiS, sigmoid_eq, Bool.false_eq_true, if_false]
  linarith

theorem C48_half (l s : ℝ) (rev : Bool) : phiS l s rev l = 1 / 2 := by
  cases rev <;> norm_num [phiS, sigmoid]

theorem C48_complement (l s x : ℝ) : phiS l s true x = 1 - phiS l s false x := by simp [phiS]

/-- Far to the left the sigmoid vanishes, far to the right it is 1. -/
theorem C48_limits {l s : ℝ} (hs : 0 < s) : Filter.Tendsto (phiS l s false) Filter.atBot (nhds 0) ∧
    Filter.Tendsto (phiS l s false) Filter.atTop (nhds 1) := by
  have hinv : Filter.Tendsto (fun a : ℝ => (1 + a)⁻¹) Filter.atTop (nhds 0) :=
    Filter.Tendsto.comp tendsto_inv_atTop_zero (Filter.tendsto_atTop_add_const_left _ _ Filter.tendsto_id)
  have htop : Filter.Tendsto core Filter.atTop (nhds 1) := by
    have : Filter.Tendsto (fun a : ℝ => 1 - (1 + a)⁻¹) Filter.atTop (nhds (1 - 0)) := hinv.const_sub 1
    rw [sub_zero] at this
    refine this.congr' ?_
    filter_upwards [Filter.eventually_ge_atTop 0] with a ha
    rw [core_of_nonneg ha]
    have : 1 + a ≠ 0 := by linarith
    field_simp
    ring
  have hbot : Filter.Tendsto core Filter.atBot (nhds (-1)) := by
    have := (htop.comp Filter.tendsto_neg_atBot_atTop).neg
    refine this.congr fun a => ?_
    simp [core_neg]
  have harg : ∀ x, phiS l s false x = (1 + core ((x - l) / s)) / 2 := fun x => by simp [phiS, sigmoid_eq]
  constructor
  · have h1 : Filter.Tendsto (fun x => (x - l) / s) Filter.atBot Filter.atBot :=
      Filter.Tendsto.atBot_div_const hs (Filter.tendsto_atBot_add_const_right _ (-l) Filter.tendsto_id)
    have := ((hbot.comp h1).const_add 1).div_const 2
    simp only [Function.comp_def] at this
    simp only [funext harg]
    simpa using this
  · have h1 : Filter.Tendsto (fun x => (x - l) / s) Filter.atTop Filter.atTop :=
      Filter.Tendsto.atTop_div_const hs (Filter.tendsto_atTop_add_const_right _ (-l) Filter.tendsto_id)
    have := ((htop.comp h1).const_add 1).div_const 2
    simp only [Function.comp_def] at this
    simp only [funext harg]
    have e : ((1 : ℝ) + 1) / 2 = 1 := by norm_num
    rwa [e] at this

example : phiS 0 1 false (-1) = 1 / 4 ∧ phiS 0 1 false 1 = 3 / 4 := by
  constructor <;> norm_num [phiS, sigmoid]

/-! ## C49: windows -/

theorem phiSI_core {l s w x : ℝ} (_hs : 0 < s) :
    phiSI l s w false x = (core ((x - l) / s) + core ((l + w - x) / s)) / 2 / core (w / (2 * s)) := by
  have : (x - l - w) / (-s) = (l + w - x) / s := by rw [div_neg, ← neg_div]; congr 1; ring
  simp only [phiSI, sigmoid_eq, this, Bool.false_eq_true, if_false]
  congr 1; ring

theorem C49_pos {l s w : ℝ} (hs : 0 < s) (hw : 0 < w) (x : ℝ) : 0 < phiSI l s w false x := by
  rw [phiSI_core hs]
  have h1 : -((l + w - x) / s) < (x - l) / s := by
    rw [← neg_div]; exact div_lt_div_of_pos_right (by linarith) hs
  have := core_strictMono h1
  rw [core_neg] at this
  refine div_pos (by linarith) (core_pos (by positivity))

theorem C49_le_one {l s w : ℝ} (hs : 0 < s) (hw : 0 < w) (x : ℝ) : phiSI l s w false x ≤ 1 := by
  rw [phiSI_core hs, div_le_one (core_pos (by positivity))]
  have e : (x - l) / s + (l + w - x) / s = w / s := by rw [← add_div]; congr 1; ring
  have := core_add_le (u := (x - l) / s) (v := (l + w - x) / s) (by rw [e]; positivity)
  rw [e, div_div, mul_comm s 2] at this
  linarith

theorem C49_middle {l s w : ℝ} (hs : 0 < s) (hw : 0 < w) : phiSI l s w false (l + w / 2) = 1 := by
  rw [phiSI_core hs]
  have h1 : (l + w / 2 - l) / s = w / (2 * s) := by field_simp; ring
  have h2 : (l + w - (l + w / 2)) / s = w / (2 * s) := by field_simp; ring
  rw [h1, h2]
  have := (core_pos (a := w / (2 * s)) (by positivity)).ne'
  field_simp
  norm_num

theorem C49_symm {l s w : ℝ} (hs : 0 < s) (d : ℝ) : phiSI l s w false (l + w / 2 + d) = phiSI l s w false (l + w / 2 - d) := by
  rw [phiSI_core hs, phiSI_core hs]
  have h1 : (l + w / 2 + d - l) / s = (l + w - (l + w / 2 - d)) / s := by congr 1; ring
  have h2 : (l + w - (l + w / 2 + d)) / s = (l + w / 2 - d - l) / s := by congr 1; ring
  rw [h1, h2, add_comm]

theorem C49_complement (l s w x : ℝ) : phiSI l s w true x = 1 - phiSI l s w false x := by simp [phiSI]

/-- Far away from the window the hat vanishes (so the reversed window is 1). -/
theorem C49_limits {l s w : ℝ} (hs : 0 < s) : Filter.Tendsto (phiSI l s w false) Filter.atBot (nhds 0) ∧
    Filter.Tendsto (phiSI l s w false) Filter.atTop (nhds 0) := by
  have hd : ∀ x, phiSI l s w false x = (phiS l s false x - phiS (l + w) s false x) / core (w / (2 * s)) := by
    intro x
    rw [phiSI_core hs]
    have h2 : (l + w - x) / s = -((x - (l + w)) / s) := by rw [← neg_div]; congr 1; ring
    rw [h2, core_neg]
    simp only [phiS, sigmoid_eq, Bool.false_eq_true, if_false]
    congr 1; ring
  simp only [funext hd]
  have h1 := C48_limits (l := l) hs
  have h2 := C48_limits (l := l + w) hs
  exact ⟨by simpa using (h1.1.sub h2.1).div_const (core (w / (2 * s))),
    by simpa using (h1.2.sub h2.2).div_const (core (w / (2 * s)))⟩

example : phiSI 0 1 2 false 0 = 2 / 3 ∧ phiSI 0 1 2 false 1 = 1 ∧ phiSI 0 1 2 true 1 = 0 := by
  refine ⟨?_, ?_, ?_⟩ <;> norm_num [phiSI, sigmoid, core]

/-! ## C50: change kernels are covariances -/

theorem C50_changepoint {first second : Cov} (h1 : IsCov first) (h2 : IsCov second) (l s : ℝ) :
    IsCov (changeK first second (phiS l s false) (phiS l s true)) := isCov_changeK h1 h2 _ _

theorem C50_changewindow {first second : Cov} (h1 : IsCov first) (h2 : IsCov second) (l s w : ℝ) :
    IsCov (changeK first second (phiSI l s w false) (phiSI l s w true)) := isCov_changeK h1 h2 _ _

/-- `Kdiag` is the diagonal of `K` whenever that holds for the branches. -/
theorem C50_diagonal {n : ℕ} {first second : Cov} {firstD secondD : Fin n → ℝ} (phi phiR : ℝ → ℝ) (X : Fin n → ℝ)
    (h1 : ∀ i, firstD i = first (X i) (X i)) (h2 : ∀ i, secondD i = second (X i) (X i)) (i : Fin n) :
    changeKdiag firstD secondD phi phiR X i = changeK first second phi phiR (X i) (X i) := by
  simp only [changeKdiag, changeK, basisK, h1, h2]
  ring

/-- The two unused three-part windows are covariances too (the shift variance is constrained positive). -/
theorem C50_three_parts {first second third : Cov} (h1 : IsCov first) (h2 : IsCov second) (h3 : IsCov third)
    {shift : ℝ} (hs : 0 ≤ shift) (l s w : ℝ) :
    IsCov (shiftedSidesK first second shift l s w) ∧ IsCov (threePartK first second third l s w) :=
  ⟨isCov_shiftedSidesK h1 h2 hs l s w, isCov_threePartK h1 h2 h3 l s w⟩

/-- Far before a changepoint the kernel is the first branch, far after it the second. -/
theorem C50_sides {l s : ℝ} (hs : 0 < s) (a b : ℝ) :
    Filter.Tendsto (fun x => changeK (bias a) (bias b) (phiS l s false) (phiS l s true) x x) Filter.atBot (nhds a) ∧
    Filter.Tendsto (fun x => changeK (bias a) (bias b) (phiS l s false) (phiS l s true) x x) Filter.atTop (nhds b) := by
  have h := C48_limits (l := l) hs
  have e : ∀ x, changeK (bias a) (bias b) (phiS l s false) (phiS l s true) x x =
      a * (1 - phiS l s false x) ^ 2 + b * phiS l s false x ^ 2 := by
    intro x; simp only [changeK, bias, basisK, C48_complement]; ring
  simp only [e]
  constructor
  · simpa using (((h.1.const_sub 1).pow 2).const_mul a).add ((h.1.pow 2).const_mul b)
  · simpa using (((h.2.const_sub 1).pow 2).const_mul a).add ((h.2.pow 2).const_mul b)

/-- Far before and far after a changewindow the kernel is the first branch, in the middle of the window the second. -/
theorem C50_window_sides {l s w : ℝ} (hs : 0 < s) (hw : 0 < w) (a b : ℝ) :
    Filter.Tendsto (fun x => changeK (bias a) (bias b) (phiSI l s w false) (phiSI l s w true) x x) Filter.atBot (nhds a) ∧
    Filter.Tendsto (fun x => changeK (bias a) (bias b) (phiSI l s w false) (phiSI l s w true) x x) Filter.atTop (nhds a) ∧
    changeK (bias a) (bias b) (phiSI l s w false) (phiSI l s w true) (l + w / 2) (l + w / 2) = b := by
  have h := C49_limits (l := l) (w := w) hs
  have e : ∀ x, changeK (bias a) (bias b) (phiSI l s w false) (phiSI l s w true) x x =
      a * (1 - phiSI l s w false x) ^ 2 + b * phiSI l s w false x ^ 2 := by
    intro x; simp only [changeK, bias, basisK, C49_complement]; ring
  refine ⟨?_, ?_, ?_⟩
  · simp only [e]
    simpa using (((h.1.const_sub 1).pow 2).const_mul a).add ((h.1.pow 2).const_mul b)
  · simp only [e]
    simpa using (((h.2.const_sub 1).pow 2).const_mul a).add ((h.2.pow 2).const_mul b)
  · rw [e, C49_middle hs hw]; ring

/-- The falling sigmoid at the start of a window mirrors the rising one at its end. -/
theorem phiS_mirror (l s w x : ℝ) : phiS l s true (2 * l + w - x) = phiS (l + w) s false x := by
  have e : (2 * l + w - x - l) / s = -((x - (l + w)) / s) := by rw [← neg_div]; congr 1; ring
  simp only [phiS, sigmoid_eq, e, core_neg, if_true, Bool.false_eq_true, if_false]
  ring

/-- Mirrored at the centre of its window, the three-part kernel is the one with the outer parts exchanged: each part has its place. -/
theorem C50_three_parts_mirror {l s w : ℝ} (hs : 0 < s) (a b c : ℝ) (x y : ℝ) :
    threePartK (bias a) (bias b) (bias c) l s w (2 * l + w - x) (2 * l + w - y) =
      threePartK (bias c) (bias b) (bias a) l s w x y := by
  have h1 : ∀ x, phiS (l + w) s false (2 * l + w - x) = phiS l s true x := by
    intro x; rw [← phiS_mirror l s w]; congr 1; ring
  have h2 : ∀ x, phiSI l s w false (2 * l + w - x) = phiSI l s w false x := by
    intro x
    have := C49_symm (l := l) (w := w) hs (l + w / 2 - x)
    rw [show l + w / 2 + (l + w / 2 - x) = 2 * l + w - x by ring, show l + w / 2 - (l + w / 2 - x) = x by ring] at this
    exact this
  simp only [threePartK, bias, basisK, h1, h2, phiS_mirror]
  ring

/-- Far before the window the three-part kernel is its first part, far after it its third; where the first part ends it has half its
weight, and so has the third where it starts; in the middle the second has all of its weight. -/
theorem C50_three_parts_sides {l s w : ℝ} (hs : 0 < s) (hw : 0 < w) (a b c : ℝ) :
    Filter.Tendsto (fun x => threePartK (bias a) (bias b) (bias c) l s w x x) Filter.atBot (nhds a) ∧
    Filter.Tendsto (fun x => threePartK (bias a) (bias b) (bias c) l s w x x) Filter.atTop (nhds c) ∧
    threePartK (bias a) (bias 0) (bias 0) l s w l l = a / 4 ∧
    threePartK (bias 0) (bias 0) (bias c) l s w (l + w) (l + w) = c / 4 ∧
    threePartK (bias 0) (bias b) (bias 0) l s w (l + w / 2) (l + w / 2) = b := by
  have h1 := C48_limits (l := l) hs
  have h2 := C49_limits (l := l) (w := w) hs
  have h3 := C48_limits (l := l + w) hs
  have e : ∀ x, threePartK (bias a) (bias b) (bias c) l s w x x =
      a * (1 - phiS l s false x) ^ 2 + b * phiSI l s w false x ^ 2 + c * phiS (l + w) s false x ^ 2 := by
    intro x; simp only [threePartK, bias, basisK, C48_complement]; ring
  refine ⟨?_, ?_, ?_, ?_, ?_⟩
  · simp only [e]
    simpa using ((((h1.1.const_sub 1).pow 2).const_mul a).add ((h2.1.pow 2).const_mul b)).add ((h3.1.pow 2).const_mul c)
  · simp only [e]
    simpa using ((((h1.2.const_sub 1).pow 2).const_mul a).add ((h2.2.pow 2).const_mul b)).add ((h3.2.pow 2).const_mul c)
  · simp only [threePartK, bias, basisK, C48_half]; ring
  · simp only [threePartK, bias, basisK, C48_half]; ring
  · simp only [threePartK, bias, basisK, C49_middle hs hw]; ring

/-- The window with shifted sides is the three-part kernel whose third part is the first one plus the shift. -/
theorem C50_shifted_sides (first second : Cov) (shift l s w : ℝ) :
    shiftedSidesK first second shift l s w = threePartK first second (fun x y => first x y + shift) l s w := rfl

example : threePartK (bias 3) (bias 5) (bias 7) 0 1 2 (-1) (-1) = threePartK (bias 7) (bias 5) (bias 3) 0 1 2 3 3 := by
  have := C50_three_parts_mirror (l := 0) (s := 1) (w := 2) (by norm_num) 3 5 7 3 3
  norm_num at this ⊢
  exact this

example : IsCov (changeK (linearOffset 2 1) (rbf 1 3) (phiS 0 0.5 false) (phiS 0 0.5 true)) :=
  C50_changepoint (isCov_linearOffset (by norm_num) 1) (isCov_rbf (by norm_num) 3) 0 0.5

/-! ## C51: linear with offset -/

theorem C51_variance {n m : ℕ} (v o : ℝ) (dL : Fin n → Fin m → ℝ) (X : Fin n → ℝ) (X2 : Fin m → ℝ) :
    HasDerivAt (fun v => linLoss dL (linearOffset v o) X X2) (linearOffsetGradV o dL X X2) v := by
  refine hasDerivAt_linLoss (k := fun v => linearOffset v o) fun i j => ?_
  have := ((hasDerivAt_id v).mul_const (X i - o)).mul_const (X2 j - o)
  simpa [linearOffset, mul_assoc] using this

theorem hasDerivAt_offset {n m : ℕ} (v o : ℝ) (dL : Fin n → Fin m → ℝ) (X : Fin n → ℝ) (X2 : Fin m → ℝ) :
    HasDerivAt (fun o => linLoss dL (linearOffset v o) X X2) (msum dL (fun i j => v * (2 * o - X i - X2 j))) o := by
  refine hasDerivAt_linLoss (k := fun o => linearOffset v o) fun i j => ?_
  have h1 : HasDerivAt (fun o => v * (X i - o)) (-v) o := by
    simpa using ((hasDerivAt_id o).const_sub (X i)).const_mul v
  have h2 : HasDerivAt (fun o => X2 j - o) (-1) o := by simpa using (hasDerivAt_id o).const_sub (X2 j)
  refine (h1.mul h2).congr_deriv ?_
  ring

/-- Missing from the full statement: arrays `dL_dK` that are not symmetric, for which the code's gradient is
wrong (next theorem), and inputs of different lengths, for which numpy raises. -/
theorem C51_offset_partial {n : ℕ} (v o : ℝ) {dL : Fin n → Fin n → ℝ} (hs : SymmArr dL) (X X2 : Fin n → ℝ) :
    HasDerivAt (fun o => linLoss dL (linearOffset v o) X X2) (linearOffsetGradO v o dL X X2) o := by
  refine (hasDerivAt_offset v o dL X X2).congr_deriv ?_
  have h := msum_symm hs (fun i j => v * (o - X2 j))
  have e1 : msum dL (fun i j => v * (2 * o - X i - X2 j)) = msum dL (fun i j => v * (o - X i) + v * (o - X2 j)) := by
    congr 1; funext i j; ring
  have e2 : linearOffsetGradO v o dL X X2 = msum dL (fun i _ => v * (o - X i) + v * (o - X2 i)) := by
    unfold linearOffsetGradO; congr 1; funext i j; ring
  rw [e1, e2, msum_add, msum_add, h]

theorem C51_offset_asymmetric : ∃ (dL : Fin 2 → Fin 2 → ℝ) (X : Fin 2 → ℝ) (v o : ℝ),
    ¬ HasDerivAt (fun o => linLoss dL (linearOffset v o) X X) (linearOffsetGradO v o dL X X) o := by
  refine ⟨![![0, 1], ![0, 0]], ![0, 1], 1, 0, fun h => ?_⟩
  have := h.unique (hasDerivAt_offset 1 0 _ _ _)
  norm_num [linearOffsetGradO, msum, Fin.sum_univ_two] at this

theorem C51_diagonal {n : ℕ} (v o : ℝ) (X : Fin n → ℝ) (i : Fin n) :
    linearOffsetKdiag v o X i = linearOffset v o (X i) (X i) := by simp only [linearOffsetKdiag, linearOffset]; ring

/-- The plain linear kernel's variance gradient is right for any `dL_dK`, also when symmetrised. -/
theorem C51_linear {n m : ℕ} (v : ℝ) (dL : Fin n → Fin n → ℝ) (dL2 : Fin n → Fin m → ℝ) (X : Fin n → ℝ) (X2 : Fin m → ℝ) :
    HasDerivAt (fun v => linLoss dL (linear v) X X) (linearGradV dL X) v ∧
    HasDerivAt (fun v => linLoss dL2 (linear v) X X2) (linearGradV2 dL2 X X2) v := by
  have key : ∀ {a b : ℕ} (d : Fin a → Fin b → ℝ) (Y : Fin a → ℝ) (Z : Fin b → ℝ),
      HasDerivAt (fun v => linLoss d (linear v) Y Z) (msum d (fun i j => Y i * Z j)) v := by
    intro a b d Y Z
    refine hasDerivAt_linLoss (k := fun v => linear v) fun i j => ?_
    have := ((hasDerivAt_id v).mul_const (Y i)).mul_const (Z j)
    simpa [linear, mul_assoc] using this
  refine ⟨(key dL X X).congr_deriv ?_, (key dL2 X X2).congr_deriv ?_⟩
  · have e : linearGradV dL X = (msum (fun i j => X i * X j) dL + msum (fun i j => X i * X j) (fun i j => dL j i)) / 2 := by
      unfold linearGradV
      rw [← msum_add, div_eq_inv_mul, ← msum_mul]
      congr 1; funext i j; ring
    have h2 : msum (fun i j => X i * X j) (fun i j => dL j i) = msum (fun i j => X i * X j) dL :=
      (msum_symm (dL := fun i j => X i * X j) (fun i j => mul_comm _ _) dL).symm
    have h3 : msum (fun i j => X i * X j) dL = msum dL (fun i j => X i * X j) := by
      simp only [msum]; exact Finset.sum_congr rfl fun i _ => Finset.sum_congr rfl fun j _ => mul_comm _ _
    rw [e, h2, h3]; ring
  · simp only [linearGradV2, msum]
    exact Finset.sum_congr rfl fun i _ => Finset.sum_congr rfl fun j _ => mul_comm _ _

example : SymmArr (![![1, 2], ![2, 3]] : Fin 2 → Fin 2 → ℝ) ∧
    linearOffsetGradO 1 0 ![![1, 2], ![2, 3]] ![1, -1] ![1, -1] = 4 := by
  constructor
  · intro i j; fin_cases i <;> fin_cases j <;> rfl
  · norm_num [linearOffsetGradO, msum, Fin.sum_univ_two]

/-! ## C52: sigmoid gradients -/

theorem dotT_add_symm {n : ℕ} {dL : Fin n → Fin n → ℝ} (hs : SymmArr dL) (v : ℝ) (p1 p2 d1 d2 : Fin n → ℝ) :
    msum dL (fun i j => v * (d1 i * p2 j + p1 i * d2 j)) = v * msum dL (fun i j => dotT p1 d2 i j + dotT p2 d1 i j) := by
  rw [msum_mul, msum_add, msum_add, msum_symm hs (fun i j => d1 i * p2 j)]
  have : msum dL (fun i j => d1 j * p2 i) = msum dL (fun i j => dotT p2 d1 i j) := by
    congr 1; funext i j; exact mul_comm _ _
  rw [this, add_comm]
  rfl

theorem dotT_sign {n : ℕ} (a : ℝ) (dL : Fin n → Fin n → ℝ) (p1 p2 d1 d2 : Fin n → ℝ) :
    msum dL (fun i j => dotT p1 (fun i => a * d2 i) i j + dotT p2 (fun i => a * d1 i) i j) =
      a * msum dL (fun i j => dotT p1 d2 i j + dotT p2 d1 i j) := by
  rw [← msum_mul]; congr 1; funext i j; simp only [dotT]; ring

/-- Location gradient of the sigmoidal kernels (either direction), for one or for two sets of points. -/
theorem C52_location {n : ℕ} (v l s : ℝ) (rev fixed : Bool) {dL : Fin n → Fin n → ℝ} (hs : SymmArr dL)
    (X : Fin n → ℝ) (X2 : Option (Fin n → ℝ)) :
    HasDerivAt (fun l => linLoss dL (basisK v (phiS l s rev)) X (X2.getD X)) (gradS v l s rev fixed dL X X2).1 l := by
  have h := fun x => hasDerivAt_phiS_loc (s := s) rev l x
  cases X2 with
  | none =>
    refine (hasDerivAt_basis_symm hs (phi := fun l => phiS l s rev) h).congr_deriv ?_
    cases rev <;> cases fixed <;> simp [gradS, gradS1, dotT, msum]
  | some X2 =>
    refine (hasDerivAt_basis (phi := fun l => phiS l s rev) h).congr_deriv ?_
    simp only [Option.getD_some]
    rw [dotT_add_symm hs v (fun i => phiS l s rev (X i)) (fun i => phiS l s rev (X2 i))
      (fun i => _ * (sigmoidD ((X i - l) / s) / (-s))) (fun i => _ * (sigmoidD ((X2 i - l) / s) / (-s))), dotT_sign]
    cases rev <;> cases fixed <;> simp [gradS, gradS2]

/-- Slope gradient, when the slope is not fixed. -/
theorem C52_slope {n : ℕ} (v l : ℝ) {s : ℝ} (h0 : s ≠ 0) (rev : Bool) {dL : Fin n → Fin n → ℝ} (hs : SymmArr dL)
    (X : Fin n → ℝ) (X2 : Option (Fin n → ℝ)) :
    ∃ g, (gradS v l s rev false dL X X2).2 = some g ∧
      HasDerivAt (fun s => linLoss dL (basisK v (phiS l s rev)) X (X2.getD X)) g s := by
  have h := fun x => hasDerivAt_phiS_slope h0 rev l x
  refine ⟨_, rfl, ?_⟩
  cases X2 with
  | none =>
    refine (hasDerivAt_basis_symm hs (phi := fun s => phiS l s rev) h).congr_deriv ?_
    cases rev <;> simp [gradS1, dotT, msum]
  | some X2 =>
    refine (hasDerivAt_basis (phi := fun s => phiS l s rev) h).congr_deriv ?_
    simp only [Option.getD_some]
    rw [dotT_add_symm hs v (fun i => phiS l s rev (X i)) (fun i => phiS l s rev (X2 i))
      (fun i => _ * (sigmoidD ((X i - l) / s) * (-((X i - l) / s) / s)))
      (fun i => _ * (sigmoidD ((X2 i - l) / s) * (-((X2 i - l) / s) / s))), dotT_sign]
    cases rev <;> simp [gradS2]

/-- A fixed slope gets no gradient. -/
theorem C52_fixed_slope {n : ℕ} (v l s w : ℝ) (rev : Bool) (dL : Fin n → Fin n → ℝ) (X : Fin n → ℝ) (X2 : Option (Fin n → ℝ)) :
    (gradS v l s rev true dL X X2).2 = none ∧ (gradSI v l s w rev true dL X X2).2.1 = none := by
  simp [gradS, gradSI]

theorem C52_window_location {n : ℕ} (v l s w : ℝ) (rev fixed : Bool) {dL : Fin n → Fin n → ℝ} (hs : SymmArr dL)
    (X : Fin n → ℝ) (X2 : Option (Fin n → ℝ)) :
    HasDerivAt (fun l => linLoss dL (basisK v (phiSI l s w rev)) X (X2.getD X)) (gradSI v l s w rev fixed dL X X2).1 l := by
  have h := fun x => hasDerivAt_phiSI_loc (s := s) (w := w) rev l x
  refine (hasDerivAt_basis (phi := fun l => phiSI l s w rev) h).congr_deriv ?_
  set Z := X2.getD X with hZ
  rw [dotT_add_symm hs v (fun i => phiSI l s w rev (X i)) (fun i => phiSI l s w rev (Z i))
      (fun i => _ * (((-sigmoidD ((X i - l) / s) + sigmoidD ((X i - l - w) / (-s))) / s) * (1 / core (w / (2 * s)))))
      (fun i => _ * (((-sigmoidD ((Z i - l) / s) + sigmoidD ((Z i - l - w) / (-s))) / s) * (1 / core (w / (2 * s))))), dotT_sign]
  cases rev <;> cases fixed <;> simp [gradSI, gradSI', ← hZ]

theorem C52_window_slope {n : ℕ} (v l : ℝ) {s w : ℝ} (h0 : 0 < s) (hw : 0 < w) (rev : Bool) {dL : Fin n → Fin n → ℝ}
    (hs : SymmArr dL) (X : Fin n → ℝ) (X2 : Option (Fin n → ℝ)) :
    ∃ g, (gradSI v l s w rev false dL X X2).2.1 = some g ∧
      HasDerivAt (fun s => linLoss dL (basisK v (phiSI l s w rev)) X (X2.getD X)) g s := by
  have h := fun x => hasDerivAt_phiSI_slope h0 hw rev l x
  refine ⟨_, rfl, ?_⟩
  refine (hasDerivAt_basis (phi := fun s => phiSI l s w rev) h).congr_deriv ?_
  set Z := X2.getD X with hZ
  rw [dotT_add_symm hs v (fun i => phiSI l s w rev (X i)) (fun i => phiSI l s w rev (Z i))
      (fun i => _ * (((sigmoidD ((X i - l) / s) * ((X i - l) / s) + sigmoidD ((X i - l - w) / (-s)) * ((X i - l - w) / (-s))) / (-s)) *
        (1 / core (w / (2 * s))) + (sigmoid ((X i - l) / s) + sigmoid ((X i - l - w) / (-s)) - 1) *
          (invCoreD (w / (2 * s)) * (-(w / (2 * s)) / s))))
      (fun i => _ * (((sigmoidD ((Z i - l) / s) * ((Z i - l) / s) + sigmoidD ((Z i - l - w) / (-s)) * ((Z i - l - w) / (-s))) / (-s)) *
        (1 / core (w / (2 * s))) + (sigmoid ((Z i - l) / s) + sigmoid ((Z i - l - w) / (-s)) - 1) *
          (invCoreD (w / (2 * s)) * (-(w / (2 * s)) / s)))), dotT_sign]
  cases rev <;> simp [gradSI']

theorem C52_window_width {n : ℕ} (v l : ℝ) {s w : ℝ} (h0 : 0 < s) (hw : 0 < w) (rev fixed : Bool) {dL : Fin n → Fin n → ℝ}
    (hs : SymmArr dL) (X : Fin n → ℝ) (X2 : Option (Fin n → ℝ)) :
    HasDerivAt (fun w => linLoss dL (basisK v (phiSI l s w rev)) X (X2.getD X)) (gradSI v l s w rev fixed dL X X2).2.2 w := by
  have h := fun x => hasDerivAt_phiSI_width h0 hw rev l x
  refine (hasDerivAt_basis (phi := fun w => phiSI l s w rev) h).congr_deriv ?_
  set Z := X2.getD X with hZ
  rw [dotT_add_symm hs v (fun i => phiSI l s w rev (X i)) (fun i => phiSI l s w rev (Z i))
      (fun i => _ * ((sigmoidD ((X i - l - w) / (-s)) / s) * (1 / core (w / (2 * s))) +
        (sigmoid ((X i - l) / s) + sigmoid ((X i - l - w) / (-s)) - 1) * (invCoreD (w / (2 * s)) / (2 * s))))
      (fun i => _ * ((sigmoidD ((Z i - l - w) / (-s)) / s) * (1 / core (w / (2 * s))) +
        (sigmoid ((Z i - l) / s) + sigmoid ((Z i - l - w) / (-s)) - 1) * (invCoreD (w / (2 * s)) / (2 * s)))), dotT_sign]
  cases rev <;> cases fixed <;> simp [gradSI, gradSI', ← hZ]

/-- Symmetry of `dL_dK` is needed. -/
theorem C52_asymmetric : ∃ (dL : Fin 2 → Fin 2 → ℝ) (X : Fin 2 → ℝ),
    ¬ HasDerivAt (fun l => linLoss dL (basisK 1 (phiS l 1 false)) X X) (gradS 1 0 1 false false dL X none).1 0 := by
  refine ⟨![![0, 1], ![0, 0]], ![0, 1], fun h => ?_⟩
  have := h.unique (hasDerivAt_basis (phi := fun l => phiS l 1 false) fun x => hasDerivAt_phiS_loc (s := 1) false 0 x)
  norm_num [gradS, gradS1, dotT, msum, Fin.sum_univ_two, phiS, sigmoid, sigmoidD] at this

example : SymmArr (![![0, 1], ![1, 0]] : Fin 2 → Fin 2 → ℝ) ∧
    (gradS 1 0 1 false false ![![0, 1], ![1, 0]] ![0, 1] none).1 = -(7 / 8) := by
  constructor
  · intro i j; fin_cases i <;> fin_cases j <;> rfl
  · norm_num [gradS, gradS1, dotT, msum, Fin.sum_univ_two, phiS, sigmoid, sigmoidD]

end GPyABCD
