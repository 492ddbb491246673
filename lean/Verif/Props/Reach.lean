import Verif.Lemmas.Reach
import Verif.Lemmas.Components
import Verif.Props.KernelTree

/-!
# Property C116, which expressions fade, and C117: how fast predictions grow beyond the data
-/

namespace GPyABCD
open Kern Params Sops KE Fading Reach

/-! ## C116: exactly what fades -/

/-- C116. Far after a change point covariances are those of its second branch's part just if the first branch has no reach there, i.e. no linear kernels are left of it. -/
theorem C116_after_iff (cfg : Cfg) {a b : KE} {p : PD ℝ} {l r : GK ℝ} (hg : FittedTo cfg (.change .CP a b) (.change .CP p l r)) :
    (∀ e : ℝ, 0 < e → ∃ D, ∀ (n : ℕ) (X : Fin n → ℝ) (i j : Fin n), D ≤ X i → D ≤ X j →
      |kerK cfg X (.change .CP p l r) i j - kerK cfg X (secondPart p r) i j| ≤ e) ↔ reach true a = 0 := by
  obtain ⟨-, hp, hl, -⟩ := fitted_branches hg
  have := fades (gr_fitted hl true) (wt_cp hp true)
  rw [Nat.lt_one_iff] at this
  rw [← this]
  simp only [entry_change, second_entry, add_sub_cancel_right, Far, if_true]

/-- C116. Likewise far before it, with the branches exchanged. -/
theorem C116_before_iff (cfg : Cfg) {a b : KE} {p : PD ℝ} {l r : GK ℝ} (hg : FittedTo cfg (.change .CP a b) (.change .CP p l r)) :
    (∀ e : ℝ, 0 < e → ∃ D, ∀ (n : ℕ) (X : Fin n → ℝ) (i j : Fin n), D ≤ -X i → D ≤ -X j →
      |kerK cfg X (.change .CP p l r) i j - kerK cfg X (pointFirst p l) i j| ≤ e) ↔ reach false b = 0 := by
  obtain ⟨-, hp, -, hr⟩ := fitted_branches hg
  have := fades (gr_fitted hr false) (wt_cp hp false)
  rw [Nat.lt_one_iff] at this
  rw [← this]
  simp only [entry_change, pointFirst_entry, add_sub_cancel_left, Far, Bool.false_eq_true, if_false]

/-- C116. Far from a window, on either side, they are those of its first branch's part just if at most single linear kernels are left of the second branch there. -/
theorem C116_around_iff (cfg : Cfg) {a b : KE} {p : PD ℝ} {l r : GK ℝ} (hg : FittedTo cfg (.change .CW a b) (.change .CW p l r)) (after : Bool) :
    (∀ e : ℝ, 0 < e → ∃ D, ∀ (n : ℕ) (X : Fin n → ℝ) (i j : Fin n), Far after D (X i) → Far after D (X j) →
      |kerK cfg X (.change .CW p l r) i j - kerK cfg X (firstPart p l) i j| ≤ e) ↔ reach after b ≤ 1 := by
  obtain ⟨-, hp, -, hr⟩ := fitted_branches hg
  have := fades (gr_fitted hr after) (wt_cw hp after)
  rw [Nat.lt_succ_iff] at this
  rw [← this]
  simp only [entry_change, first_entry, add_sub_cancel_left]

/-- C116. If the first branch has no reach, the predicted mean as well becomes that of the second branch's part, whatever the data. -/
theorem C116_predictions_reach_partial (cfg : Cfg) (ppf : ℝ → ℝ) {a b : KE} (ha : reach true a = 0) {p : PD ℝ} {l r : GK ℝ}
    (hg : FittedTo cfg (.change .CP a b) (.change .CP p l r)) {n : ℕ} (X y : Fin n → ℝ) (noise : ℝ) {e : ℝ} (he : 0 < e) :
    ∃ D, ∀ (m : ℕ) (Y : Fin m → ℝ) (q : List ℝ) (fc il : Bool) (u v : Prediction m), predict cfg ppf X y (.change .CP p l r) noise Y q fc il = .ok u →
      predictWith cfg ppf X y (.change .CP p l r) noise Y (some (secondPart p r)) q fc il = .ok v → ∀ j, D ≤ Y j → |u.mean j - v.mean j| ≤ e := by
  obtain ⟨-, hp, hl, -⟩ := fitted_branches hg
  set w := (Matrix.of (kerK cfg X (.change .CP p l r)) + noise • (1 : Matrix (Fin n) (Fin n) ℝ))⁻¹.mulVec y with hw
  obtain ⟨B, D1, hB, q1, hb⟩ := up2_fitted hl true (∑ i, |X i|)
  rw [ha] at hb
  obtain ⟨c, C, D2, hc, hC, q2, hwt⟩ := wt_cp hp true
  refine ⟨max (max D1 D2) (B * C * (∑ i, |w i|) / e), fun m Y q fc il u v hu hv j hj => ?_⟩
  have e1 : u.mean = rawMean cfg X y Y (.change .CP p l r) noise := by
    unfold predict at hu
    split at hu
    · simp only [Except.ok.injEq] at hu; rw [← hu]
    · simp at hu
  have e2 : v.mean = rawMeanWith cfg X y Y (.change .CP p l r) (secondPart p r) noise := by
    unfold predictWith at hv
    split at hv
    · simp only [Except.ok.injEq] at hv; rw [← hv]; rfl
    · simp at hv
  have f1 : Far true D1 (Y j) := (le_max_left D1 D2).trans ((le_max_left ..).trans hj)
  have f2 : Far true D2 (Y j) := (le_max_right D1 D2).trans ((le_max_left ..).trans hj)
  have y1 : 1 ≤ |Y j| := q1.trans (far_abs f1)
  have y2 : B * C * (∑ i, |w i|) / e ≤ |Y j| := ((le_max_right ..).trans hj).trans (le_abs_self _)
  have hwj : changePhi .CP p true (Y j) ≤ C / |Y j| := by
    rw [le_div_iff₀ (by positivity), mul_comm]; simpa using (hwt _ f2).2
  rw [e1, e2, mean_diff, ← hw]
  refine (Finset.abs_sum_le_sum_abs _ _).trans ?_
  have term : ∀ i, |kerK2 cfg X Y l i j * (changePhi .CP p true (X i) * changePhi .CP p true (Y j)) * w i| ≤ B * (C / |Y j|) * |w i| := by
    intro i
    have r1 := phi_range .CP hp true (X i)
    have r2 := phi_range .CP hp true (Y j)
    have k1 := hb n m X Y i j (Finset.single_le_sum (f := fun i => |X i|) (fun i _ => abs_nonneg _) (Finset.mem_univ i)) f1
    rw [pow_zero, mul_one] at k1
    rw [abs_mul, abs_mul, abs_of_nonneg (mul_nonneg r1.1 r2.1)]
    refine mul_le_mul_of_nonneg_right (mul_le_mul k1 ?_ (mul_nonneg r1.1 r2.1) hB) (abs_nonneg _)
    exact (mul_le_of_le_one_left r2.1 r1.2).trans hwj
  refine (Finset.sum_le_sum fun i _ => term i).trans ?_
  rw [← Finset.mul_sum, show B * (C / |Y j|) * ∑ i, |w i| = B * C * (∑ i, |w i|) / |Y j| by ring, div_le_iff₀ (by positivity)]
  rw [div_le_iff₀ he] at y2
  linarith

/-! ## C117: growth -/

/-- C117. Before any data, how fast variances grow on either side is exactly decided by the expression, whatever the parameters: like the square of the power `reach`
of the inputs. -/
theorem C117_prior (cfg : Cfg) {k : KE} {g : GK ℝ} (hg : FittedTo cfg k g) (after : Bool) :
    ∃ c B D : ℝ, 0 < c ∧ ∀ (n : ℕ) (X : Fin n → ℝ) (i : Fin n), Far after D (X i) →
      c * (|X i| ^ reach after k) ^ 2 ≤ kerDiag cfg X g i ∧ kerDiag cfg X g i ≤ B * (|X i| ^ reach after k) ^ 2 := by
  obtain ⟨⟨B, D1, hB, q1, h1⟩, c, D2, hc, q2, h2⟩ := gr_fitted hg after
  refine ⟨c, B, max D1 D2, hc, fun n X i hi => ?_⟩
  have a := h1 n X i i (far_mono (le_max_left ..) hi) (far_mono (le_max_left ..) hi)
  have b := h2 n X i (far_mono (le_max_right ..) hi)
  rw [C79_diagonal cfg X g (posLength_adm g hg.2)]
  rw [mul_pow, ← sq] at a b
  exact ⟨b, (le_abs_self _).trans a⟩

theorem pred_bound (cfg : Cfg) {n : ℕ} (X y : Fin n → ℝ) (g : GK ℝ) (noise : ℝ) : ∃ W V : ℝ, 0 ≤ W ∧ 0 ≤ V ∧ ∀ (m : ℕ) (Y : Fin m → ℝ) (j : Fin m) (b : ℝ), 1 ≤ b →
    (∀ i, |kerK2 cfg X Y g i j| ≤ b) → |kerDiag cfg Y g j| ≤ b ^ 2 → |rawMean cfg X y Y g noise j| ≤ W * b ∧ |rawVar cfg X Y g noise j + noise| ≤ V * b ^ 2 := by
  set A := (Matrix.of (kerK cfg X g) + noise • (1 : Matrix (Fin n) (Fin n) ℝ))⁻¹ with hA
  refine ⟨∑ i, |A.mulVec y i|, 1 + (∑ i, ∑ k, |A i k|) + |noise|, Finset.sum_nonneg fun i _ => abs_nonneg _,
    by have : 0 ≤ ∑ i, ∑ k, |A i k| := Finset.sum_nonneg fun i _ => Finset.sum_nonneg fun k _ => abs_nonneg _
       positivity, fun m Y j b hb h1 h2 => ⟨?_, ?_⟩⟩
  · rw [rawMean, ← hA, Matrix.mulVec, dotProduct, Finset.sum_mul]
    refine (Finset.abs_sum_le_sum_abs _ _).trans (Finset.sum_le_sum fun i _ => ?_)
    rw [abs_mul, mul_comm]
    exact mul_le_mul_of_nonneg_left (h1 i) (abs_nonneg _)
  · have hx : |explained cfg X Y g noise j j| ≤ (∑ i, ∑ k, |A i k|) * b ^ 2 := by
      have e : explained cfg X Y g noise j j = ∑ k, (∑ i, kerK2 cfg X Y g i j * A i k) * kerK2 cfg X Y g k j := by
        rw [explained, ← hA, Matrix.mul_apply]
        refine Finset.sum_congr rfl fun k _ => ?_
        rw [Matrix.mul_apply]; rfl
      rw [e, Finset.sum_comm, Finset.sum_mul]
      refine (Finset.abs_sum_le_sum_abs _ _).trans (Finset.sum_le_sum fun k _ => ?_)
      rw [abs_mul, sq, ← mul_assoc]
      refine mul_le_mul ?_ (h1 k) (abs_nonneg _) (mul_nonneg (Finset.sum_nonneg fun i _ => abs_nonneg _) (by linarith))
      rw [Finset.sum_mul]
      refine (Finset.abs_sum_le_sum_abs _ _).trans (Finset.sum_le_sum fun i _ => ?_)
      rw [abs_mul, mul_comm]
      exact mul_le_mul_of_nonneg_left (h1 i) (abs_nonneg _)
    have hb2 : 1 ≤ b ^ 2 := by nlinarith
    have h3 := abs_add_le (rawVar cfg X Y g noise j) noise
    have h4 : |rawVar cfg X Y g noise j| ≤ |kerDiag cfg Y g j| + |explained cfg X Y g noise j j| := by rw [rawVar]; exact abs_sub _ _
    nlinarith [abs_nonneg noise]

/-- Bounds on covariances are bounds on all that is predicted. -/
theorem pred_all (cfg : Cfg) (ppf : ℝ → ℝ) {n : ℕ} (X y : Fin n → ℝ) (g : GK ℝ) (noise lo hi : ℝ) : ∃ M : ℝ, 0 ≤ M ∧
    ∀ (m : ℕ) (Y : Fin m → ℝ) (j : Fin m) (b : ℝ), 1 ≤ b → (∀ i, |kerK2 cfg X Y g i j| ≤ b) → |kerDiag cfg Y g j| ≤ b ^ 2 →
      ∀ (qs : List ℝ) (fc il : Bool) (u : Prediction m), predict cfg ppf X y g noise Y (lo :: hi :: qs) fc il = .ok u →
        |u.mean j| ≤ M * b ∧ |u.low j| ≤ M * b ∧ |u.high j| ≤ M * b := by
  obtain ⟨W, V, hW, hV, h⟩ := pred_bound cfg X y g noise
  set P := |ppf (lo / 100)| + |ppf (hi / 100)| with hP
  refine ⟨P * Real.sqrt V + W, by positivity, fun m Y j b hb h1 h2 qs fc il u hu => ?_⟩
  obtain ⟨a1, a2⟩ := h m Y j b hb h1 h2
  simp only [predict, List.map_cons, Except.ok.injEq] at hu
  subst hu
  have hs : Real.sqrt (rawVar cfg X Y g noise j + noise) ≤ Real.sqrt V * b := by
    rw [← Real.sqrt_sq (by linarith : 0 ≤ b), ← Real.sqrt_mul hV]
    exact Real.sqrt_le_sqrt ((le_abs_self _).trans a2)
  have hq : ∀ q, |ppf (q / 100)| ≤ P → |quantileAt cfg ppf X y Y g noise q j| ≤ (P * Real.sqrt V + W) * b := by
    intro q hq
    rw [quantileAt]
    refine (abs_add_le _ _).trans ?_
    rw [abs_mul, abs_of_nonneg (Real.sqrt_nonneg _), add_mul, mul_assoc]
    exact add_le_add (mul_le_mul hq hs (Real.sqrt_nonneg _) (by positivity)) a1
  refine ⟨?_, hq lo (by rw [hP]; linarith [abs_nonneg (ppf (hi / 100))]), hq hi (by rw [hP]; linarith [abs_nonneg (ppf (lo / 100))])⟩
  have : 0 ≤ P * Real.sqrt V * b := by positivity
  simp only
  nlinarith

/-- C117. Beyond the data predicted means and quantiles grow on either side at most like the power `reach` of the inputs, whatever the data. -/
theorem C117_predictions (cfg : Cfg) (ppf : ℝ → ℝ) {k : KE} {g : GK ℝ} (hg : FittedTo cfg k g) {n : ℕ} (X y : Fin n → ℝ) (noise lo hi : ℝ) (after : Bool) :
    ∃ B D : ℝ, ∀ (m : ℕ) (Y : Fin m → ℝ) (qs : List ℝ) (fc il : Bool) (u : Prediction m), predict cfg ppf X y g noise Y (lo :: hi :: qs) fc il = .ok u →
      ∀ j, Far after D (Y j) → |u.mean j| ≤ B * |Y j| ^ reach after k ∧ |u.low j| ≤ B * |Y j| ^ reach after k ∧ |u.high j| ≤ B * |Y j| ^ reach after k := by
  obtain ⟨M, hM, h⟩ := pred_all cfg ppf X y g noise lo hi
  obtain ⟨B1, D1, hB1, q1, h1⟩ := up2_fitted hg after (∑ i, |X i|)
  obtain ⟨⟨B2, D2, hB2, q2, h2⟩, -⟩ := gr_fitted hg after
  refine ⟨M * (1 + B1 + B2), max D1 D2, fun m Y qs fc il u hu j hj => ?_⟩
  have f1 := far_mono (le_max_left ..) hj
  have f2 := far_mono (le_max_right ..) hj
  have p1 : 1 ≤ |Y j| ^ reach after k := one_le_pow₀ (q1.trans (far_abs f1))
  have := h m Y j ((1 + B1 + B2) * |Y j| ^ reach after k) (by nlinarith) (fun i => ?_) ?_ qs fc il u hu
  · simpa only [mul_assoc] using this
  · refine (h1 n m X Y i j (Finset.single_le_sum (f := fun i => |X i|) (fun i _ => abs_nonneg _) (Finset.mem_univ i)) f1).trans ?_
    exact mul_le_mul_of_nonneg_right (by linarith) (by linarith)
  · rw [C79_diagonal cfg Y g (posLength_adm g hg.2)]
    refine (h2 m Y j j f2 f2).trans ?_
    rw [mul_pow, mul_pow, ← sq]
    refine mul_le_mul_of_nonneg_right ?_ (by positivity)
    nlinarith

/-- C117. Without linear kernels predictions are bounded, everywhere. -/
theorem C117_bounded (cfg : Cfg) (ppf : ℝ → ℝ) {k : KE} (hk : NoLin k) {g : GK ℝ} (hg : FittedTo cfg k g) {n : ℕ} (X y : Fin n → ℝ) (noise lo hi : ℝ) :
    ∃ B : ℝ, ∀ (m : ℕ) (Y : Fin m → ℝ) (qs : List ℝ) (fc il : Bool) (u : Prediction m), predict cfg ppf X y g noise Y (lo :: hi :: qs) fc il = .ok u →
      ∀ j, |u.mean j| ≤ B ∧ |u.low j| ≤ B ∧ |u.high j| ≤ B := by
  obtain ⟨M, hM, h⟩ := pred_all cfg ppf X y g noise lo hi
  obtain ⟨B, hB, h1, h2⟩ := bdd_fitted hk hg
  refine ⟨M * (1 + B), fun m Y qs fc il u hu j => h m Y j (1 + B) (by linarith) (fun i => (h2 n m X Y i j).trans (by linarith)) ?_ qs fc il u hu⟩
  rw [C79_diagonal cfg Y g (posLength_adm g hg.2)]
  exact (h1 m Y j j).trans (by nlinarith)

/-! ## Examples -/

/-- A line before two change points has no reach after them, though it is a line: what the first leaves of it the second lets fade. Before them it has. -/
example : reach true (.change .CP (.base .LIN) (.base .C)) = 0 ∧ ¬ NoLin (.change .CP (.base .LIN) (.base .C)) ∧ reach false (.change .CP (.base .LIN) (.base .C)) = 1 ∧
    FittedTo .default (.change .CP (.change .CP (.base .LIN) (.base .C)) (.base .SE)) (.change .CP { location := some 3 }
      (.change .CP { location := some 1 } (.base .LIN { variance := some 1, offset := some 4 }) (.base .C { variance := some 2 }))
      (.base .SE { variance := some 1, lengthscale := some 2 })) :=
  ⟨by decide, by simp [NoLin, bases], by decide, by rfl, by simp [Adm, AdmPD]⟩

/-- Of a cubic in a window one power is left on either side. -/
example : (∀ after, reach after (.change .CW (.base .C) (.comm .prod [(.LIN, 3)] [])) = 1) ∧
    FittedTo .default (.change .CW (.base .C) (.comm .prod [(.LIN, 3)] [])) (.change .CW { location := some 3, width := some 1 } (.base .C { variance := some 1 })
      (.comb .prod [.base .LIN { variance := some 1, offset := some (-1) }, .base .LIN { offset := some 4 }, .base .LIN { offset := some 0 }])) :=
  ⟨by decide, by rfl, by simp [Adm, AdmL, AdmPD]⟩

/-- Predictions with the default quantiles are of the form that the theorems speak of. -/
example (cfg : Cfg) (ppf : ℝ → ℝ) (g : GK ℝ) (X y : Fin 2 → ℝ) (Y : Fin 3 → ℝ) : ∃ u, predict cfg ppf X y g 1 Y (2.5 :: 97.5 :: []) = .ok u := ⟨_, rfl⟩

end GPyABCD
