import Verif.Model.Gradients
import Verif.Lemmas.PerFacts
import Mathlib.Analysis.Calculus.SmoothSeries
import Mathlib.Analysis.Calculus.Deriv.Pow
import Mathlib.Analysis.Calculus.Deriv.Inv
import Mathlib.Analysis.SpecialFunctions.ExpDeriv
import Mathlib.Analysis.SpecialFunctions.Sqrt
import Mathlib.Analysis.SpecialFunctions.Trigonometric.Deriv
import Mathlib.Analysis.SpecificLimits.Normed

/-! # Derivatives of the purely periodic kernel -/

namespace GPyABCD.Kern

/-- `i0` has derivative `i1`. -/
theorem hasDerivAt_i0 (z : ℝ) : HasDerivAt i0 (i1 z) z := by
  set R := |z| + 1 with hR
  have hR0 : 0 < R := by positivity
  let g : ℕ → ℝ → ℝ := fun k z => (z ^ 2 / 4) ^ k / ((k.factorial : ℝ) ^ 2)
  let g' : ℕ → ℝ → ℝ := fun k z => ((k : ℝ) * (z ^ 2 / 4) ^ (k - 1) * (z / 2)) / ((k.factorial : ℝ) ^ 2)
  let u : ℕ → ℝ := fun k => ((k : ℝ) * (R ^ 2 / 4) ^ (k - 1) * (R / 2)) / ((k.factorial : ℝ) ^ 2)
  have hg : ∀ k y, HasDerivAt (g k) (g' k y) y := by
    intro k y
    have h1 : HasDerivAt (fun z : ℝ => z ^ 2 / 4) (y / 2) y := by
      refine ((hasDerivAt_pow 2 y).div_const 4).congr_deriv ?_
      norm_num; ring
    exact (h1.pow k).div_const _
  have hshift : ∀ (a : ℝ) (k : ℕ), (((k + 1 : ℕ) : ℝ) * (a ^ 2 / 4) ^ (k + 1 - 1) * (a / 2)) / (((k + 1).factorial : ℝ) ^ 2) =
      a / 2 * (a ^ 2 / 4) ^ k / ((k.factorial : ℝ) * ((k + 1).factorial : ℝ)) := by
    intro a k
    rw [Nat.add_sub_cancel, Nat.factorial_succ]
    push_cast
    have h1 : (k.factorial : ℝ) ≠ 0 := by exact_mod_cast (Nat.factorial_pos _).ne'
    have h2 : (k : ℝ) + 1 ≠ 0 := by positivity
    field_simp
  have hu : Summable u := by
    rw [← summable_nat_add_iff 1]
    simp only [u, hshift]
    refine Summable.of_nonneg_of_le (fun k => by positivity) (fun k => ?_)
      ((Real.summable_pow_div_factorial (R ^ 2 / 4)).mul_left (R / 2))
    rw [mul_div_assoc]
    refine mul_le_mul_of_nonneg_left ?_ (by positivity)
    refine div_le_div_of_nonneg_left (by positivity) (by positivity) ?_
    have h1 : (1 : ℝ) ≤ ((k + 1).factorial : ℝ) := by exact_mod_cast Nat.factorial_pos _
    nlinarith [show (0 : ℝ) < (k.factorial : ℝ) by exact_mod_cast Nat.factorial_pos _]
  have hb : ∀ k y, y ∈ Metric.ball (0 : ℝ) R → ‖g' k y‖ ≤ u k := by
    intro k y hy
    have hy : |y| < R := by simpa using hy
    simp only [g', u, norm_div, norm_mul, norm_pow, Real.norm_eq_abs, Nat.abs_cast]
    gcongr
    · norm_num
    · norm_num
  have hz : z ∈ Metric.ball (0 : ℝ) R := by simp [hR]
  have := hasDerivAt_tsum_of_isPreconnected hu Metric.isOpen_ball (convex_ball (0 : ℝ) R).isPreconnected
    (fun k y _ => hg k y) hb hz (i0_summable z) hz
  refine this.congr_deriv ?_
  have hs : Summable fun k => g' k z := Summable.of_norm_bounded hu fun k => hb k z hz
  rw [hs.tsum_eq_zero_add]
  simp only [g', hshift]
  simp [i1]

/-- Derivative of the approximation `embi0`. -/
noncomputable def embi0D (x : ℝ) : ℝ :=
  let y := 3.75 / x
  let f := 0.39894228 + (0.01328592 + (0.00225319 + (-0.00157565 + (0.00916281 + (-0.02057706 + (0.02635537 + (-0.01647633 + (0.00392377)*y)*y)*y)*y)*y)*y)*y)*y
  let f' := 0.01328592 + 2 * 0.00225319 * y + 3 * (-0.00157565) * y ^ 2 + 4 * 0.00916281 * y ^ 3 + 5 * (-0.02057706) * y ^ 4 +
    6 * 0.02635537 * y ^ 5 + 7 * (-0.01647633) * y ^ 6 + 8 * 0.00392377 * y ^ 7
  (-(y * f' + f / 2)) / (x * √x)

theorem hasDerivAt_embi0 {x : ℝ} (hx : 0 < x) : HasDerivAt embi0 (embi0D x) x := by
  let P : ℝ → ℝ := fun y => 0.39894228 + 0.01328592 * y + 0.00225319 * y ^ 2 + (-0.00157565) * y ^ 3 + 0.00916281 * y ^ 4 +
    (-0.02057706) * y ^ 5 + 0.02635537 * y ^ 6 + (-0.01647633) * y ^ 7 + 0.00392377 * y ^ 8
  have hP : ∀ y, HasDerivAt P (0.01328592 + 2 * 0.00225319 * y + 3 * (-0.00157565) * y ^ 2 + 4 * 0.00916281 * y ^ 3 +
      5 * (-0.02057706) * y ^ 4 + 6 * 0.02635537 * y ^ 5 + 7 * (-0.01647633) * y ^ 6 + 8 * 0.00392377 * y ^ 7) y := by
    intro y
    have h := ((((((((hasDerivAt_const y (0.39894228 : ℝ)).add ((hasDerivAt_id y).const_mul 0.01328592)).add
      ((hasDerivAt_pow 2 y).const_mul 0.00225319)).add ((hasDerivAt_pow 3 y).const_mul (-0.00157565))).add
      ((hasDerivAt_pow 4 y).const_mul 0.00916281)).add ((hasDerivAt_pow 5 y).const_mul (-0.02057706))).add
      ((hasDerivAt_pow 6 y).const_mul 0.02635537)).add ((hasDerivAt_pow 7 y).const_mul (-0.01647633))).add
      ((hasDerivAt_pow 8 y).const_mul 0.00392377)
    refine h.congr_deriv ?_
    norm_num
    ring
  have hy : HasDerivAt (fun x : ℝ => 3.75 / x) (-(3.75 / x) / x) x := by
    refine ((hasDerivAt_inv hx.ne').const_mul 3.75).congr_deriv ?_
    field_simp
  have hn : HasDerivAt (fun x : ℝ => P (3.75 / x)) _ x := HasDerivAt.comp (h₂ := P) x (hP (3.75 / x)) hy
  have hs := Real.hasDerivAt_sqrt hx.ne'
  have hsq : √x ≠ 0 := (Real.sqrt_pos.2 hx).ne'
  have h := hn.div hs hsq
  have e : embi0 = (fun x : ℝ => P (3.75 / x)) / fun x => √x := by
    funext x
    simp only [embi0, P, Pi.div_apply]
    congr 1
    ring
  rw [e]
  refine h.congr_deriv ?_
  simp only [embi0D, P]
  have hx2 : x = √x ^ 2 := (Real.sq_sqrt hx.le).symm
  generalize √x = r at *
  subst hx2
  generalize 3.75 / r ^ 2 = y
  field_simp
  ring

/-- The polynomial used for minus the derivative of `embi0` is accurate to `1e-6`. -/
theorem embi0D_error {x : ℝ} (hx : 3.75 ≤ x) : |embi0D x + embi0min1 x| ≤ 0.000001 := by
  have hx0 : 0 < x := by linarith
  set y := 3.75 / x with hy
  have hy0 : 0 ≤ y := by positivity
  have hy1 : 0 ≤ 1 - y := by
    have : y ≤ 1 := by rw [hy, div_le_one hx0]; exact hx
    linarith
  let D : ℝ → ℝ := fun y => -817/31250000 * y + 279501/500000000 * y ^ 2 + -88421/18750000 * y ^ 3 + 628469/30000000 * y ^ 4 +
    -27201051/500000000 * y ^ 5 + 42744089/500000000 * y ^ 6 + -120053267/1500000000 * y ^ 7 + 2053851/50000000 * y ^ 8 + -6670409/750000000 * y ^ 9
  have hD1 : D y ≤ 17/10000000 := by
    have : 17/10000000 - D y = 17/10000000 * (y^0 * (1-y)^16) + 1667/31250000 * (y^1 * (1-y)^15) + 18579/500000000 * (y^2 * (1-y)^14) + 440159/750000000 * (y^3 * (1-y)^13) + 2238299/500000000 * (y^4 * (1-y)^12) + 5240647/500000000 * (y^5 * (1-y)^11) + 17371741/1500000000 * (y^6 * (1-y)^10) + 8595643/750000000 * (y^7 * (1-y)^9) + 1220811/62500000 * (y^8 * (1-y)^8) + 4793723/187500000 * (y^9 * (1-y)^7) + 26344981/1500000000 * (y^10 * (1-y)^6) + 191653/31250000 * (y^11 * (1-y)^5) + 906793/500000000 * (y^12 * (1-y)^4) + 1551251/1500000000 * (y^13 * (1-y)^3) + 160199/500000000 * (y^14 * (1-y)^2) + 967/75000000 * (y^15 * (1-y)^1) + 489/250000000 * (y^16 * (1-y)^0) := by
      simp only [D]; ring
    have : 0 ≤ 17/10000000 - D y := by rw [this]; positivity
    linarith
  have hD2 : -(17/10000000) ≤ D y := by
    have : 17/10000000 + D y = 17/10000000 * (y^0 * (1-y)^16) + 33/31250000 * (y^1 * (1-y)^15) + 185421/500000000 * (y^2 * (1-y)^14) + 987841/750000000 * (y^3 * (1-y)^13) + 855701/500000000 * (y^4 * (1-y)^12) + 2184953/500000000 * (y^5 * (1-y)^11) + 23469059/1500000000 * (y^6 * (1-y)^10) + 20576357/750000000 * (y^7 * (1-y)^9) + 94629/3906250 * (y^8 * (1-y)^8) + 2499277/187500000 * (y^9 * (1-y)^7) + 14495819/1500000000 * (y^10 * (1-y)^6) + 272447/31250000 * (y^11 * (1-y)^5) + 2187207/500000000 * (y^12 * (1-y)^4) + 1304749/1500000000 * (y^13 * (1-y)^3) + 43801/500000000 * (y^14 * (1-y)^2) + 3113/75000000 * (y^15 * (1-y)^1) + 361/250000000 * (y^16 * (1-y)^0) := by
      simp only [D]; ring
    have : 0 ≤ 17/10000000 + D y := by rw [this]; positivity
    linarith
  have hs : 1.9 < √x := by
    rw [Real.lt_sqrt (by norm_num)]; norm_num; linarith
  have e : embi0D x + embi0min1 x = D y / √x := by
    have hsq : √x ≠ 0 := by positivity
    have hx' : 1 / x = y / 3.75 := by rw [hy]; field_simp
    simp only [embi0D, embi0min1, ← hy, D]
    rw [← div_div, div_eq_mul_one_div _ x, hx', ← add_div]
    congr 1
    ring
  rw [e, abs_div, abs_of_pos (by positivity : (0:ℝ) < √x), div_le_iff₀ (by positivity)]
  have : |D y| ≤ 17/10000000 := abs_le.2 ⟨hD2, hD1⟩
  linarith

/-! ## Derivatives of the kernel -/

theorem hasDerivAt_cosArg {p : ℝ} (hp : p ≠ 0) (d : ℝ) :
    HasDerivAt (fun p => Real.cos ((2 * Real.pi / p) * d)) (1 / p * ((2 * Real.pi / p) * d) * Real.sin ((2 * Real.pi / p) * d)) p := by
  have h1 : HasDerivAt (fun p : ℝ => (2 * Real.pi / p) * d) (-(1 / p * ((2 * Real.pi / p) * d))) p := by
    refine (((hasDerivAt_inv hp).const_mul (2 * Real.pi)).mul_const d).congr_deriv ?_
    field_simp
  refine ((Real.hasDerivAt_cos _).comp p h1).congr_deriv ?_
  ring

theorem hasDerivAt_invL2 {l : ℝ} (hl : l ≠ 0) : HasDerivAt (fun l : ℝ => 1 / l ^ 2) (-2 * (1 / l ^ 2) / l) l := by
  have h := (hasDerivAt_pow 2 l).inv (pow_ne_zero 2 hl)
  have e : (fun l : ℝ => 1 / l ^ 2) = (fun x => x ^ 2)⁻¹ := by funext l; simp
  rw [e]
  refine h.congr_deriv ?_
  norm_num
  field_simp

end GPyABCD.Kern
