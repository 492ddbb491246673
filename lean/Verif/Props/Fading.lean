import Verif.Lemmas.Fading

/-!
# Property C116: change operators switch from the one branch to the other
-/

namespace GPyABCD
open Kern Params Sops KE Fading

/-! ## How well a change kernel has switched at a distance -/

/-- C116. Among inputs at least `d` inside of where the second branch is active, covariances are those of the second branch: what is left of the first has the weight
`e ^ 2`, and what is missing of the second at most `2 * e`, where `e` is `1 / (1 + d / slope)`. Both for the data and between data and new inputs. -/
theorem C116_inside (cfg : Cfg) {c : CC} {a b : KE} {p : PD ℝ} {l r : GK ℝ} (hg : FittedTo cfg (.change c a b) (.change c p l r)) {d : ℝ} (hd : 0 ≤ d)
    {n m : ℕ} (X : Fin n → ℝ) (Y : Fin m → ℝ) :
    (∀ i j, OnSide c p d (X i) → OnSide c p d (X j) → |kerK cfg X (.change c p l r) i j - kerK cfg X r i j| ≤
      (1 / (1 + d / slopeOf p)) ^ 2 * |kerK cfg X l i j| + 2 * (1 / (1 + d / slopeOf p)) * |kerK cfg X r i j|) ∧
    ∀ i j, OnSide c p d (X i) → OnSide c p d (Y j) → |kerK2 cfg X Y (.change c p l r) i j - kerK2 cfg X Y r i j| ≤
      (1 / (1 + d / slopeOf p)) ^ 2 * |kerK2 cfg X Y l i j| + 2 * (1 / (1 + d / slopeOf p)) * |kerK2 cfg X Y r i j| := by
  obtain ⟨-, hp, -, -⟩ := fitted_branches hg
  have hf : ∀ x, changePhi c p false x = 1 - changePhi c p true x := fun x => by rw [phi_compl]; ring
  have w := fun x hx => (⟨(phi_range c hp true x).1, weight_on c hp hd hx⟩ : 0 ≤ changePhi c p true x ∧ changePhi c p true x ≤ _)
  refine ⟨fun i j hi hj => ?_, fun i j hi hj => ?_⟩
  · rw [entry_change, hf, hf]; exact blend (w _ hi) (w _ hj) (phi_range c hp true _).2
  · rw [entry_change2, hf, hf]; exact blend (w _ hi) (w _ hj) (phi_range c hp true _).2

/-- C116. Likewise outside, with the branches exchanged. -/
theorem C116_outside (cfg : Cfg) {c : CC} {a b : KE} {p : PD ℝ} {l r : GK ℝ} (hg : FittedTo cfg (.change c a b) (.change c p l r)) {d : ℝ} (hd : 0 ≤ d)
    {n m : ℕ} (X : Fin n → ℝ) (Y : Fin m → ℝ) :
    (∀ i j, OffSide c p d (X i) → OffSide c p d (X j) → |kerK cfg X (.change c p l r) i j - kerK cfg X l i j| ≤
      (1 / (1 + d / slopeOf p)) ^ 2 * |kerK cfg X r i j| + 2 * (1 / (1 + d / slopeOf p)) * |kerK cfg X l i j|) ∧
    ∀ i j, OffSide c p d (X i) → OffSide c p d (Y j) → |kerK2 cfg X Y (.change c p l r) i j - kerK2 cfg X Y l i j| ≤
      (1 / (1 + d / slopeOf p)) ^ 2 * |kerK2 cfg X Y r i j| + 2 * (1 / (1 + d / slopeOf p)) * |kerK2 cfg X Y l i j| := by
  obtain ⟨-, hp, -, -⟩ := fitted_branches hg
  have w := fun x hx => (⟨(phi_range c hp false x).1, weight_off c hp hd hx⟩ : 0 ≤ changePhi c p false x ∧ changePhi c p false x ≤ _)
  refine ⟨fun i j hi hj => ?_, fun i j hi hj => ?_⟩
  · rw [entry_change, phi_compl, phi_compl, add_comm]; exact blend (w _ hi) (w _ hj) (phi_range c hp false _).2
  · rw [entry_change2, phi_compl, phi_compl, add_comm]; exact blend (w _ hi) (w _ hj) (phi_range c hp false _).2

/-- C116. Between an input outside and one inside hardly anything is shared. -/
theorem C116_across (cfg : Cfg) {c : CC} {a b : KE} {p : PD ℝ} {l r : GK ℝ} (hg : FittedTo cfg (.change c a b) (.change c p l r)) {d : ℝ} (hd : 0 ≤ d)
    {n m : ℕ} (X : Fin n → ℝ) (Y : Fin m → ℝ) :
    (∀ i j, OffSide c p d (X i) → OnSide c p d (X j) →
      |kerK cfg X (.change c p l r) i j| ≤ 1 / (1 + d / slopeOf p) * (|kerK cfg X l i j| + |kerK cfg X r i j|)) ∧
    ∀ i j, OffSide c p d (X i) → OnSide c p d (Y j) →
      |kerK2 cfg X Y (.change c p l r) i j| ≤ 1 / (1 + d / slopeOf p) * (|kerK2 cfg X Y l i j| + |kerK2 cfg X Y r i j|) := by
  obtain ⟨-, hp, -, -⟩ := fitted_branches hg
  have hf : ∀ x, changePhi c p false x = 1 - changePhi c p true x := fun x => by rw [phi_compl]; ring
  have w : ∀ x, OffSide c p d x → 1 - changePhi c p true x ≤ 1 / (1 + d / slopeOf p) := fun x hx => by rw [← hf]; exact weight_off c hp hd hx
  refine ⟨fun i j hi hj => ?_, fun i j hi hj => ?_⟩
  · rw [entry_change, hf, hf]; exact blend_across (phi_range c hp true _) (phi_range c hp true _) (w _ hi) (weight_on c hp hd hj)
  · rw [entry_change2, hf, hf]; exact blend_across (phi_range c hp true _) (phi_range c hp true _) (w _ hi) (weight_on c hp hd hj)

/-- C116. How slowly change points switch: at the distance `d` after the location the standard deviation of the first branch is still there to the part
`1 / (2 * (1 + d / slope))`. -/
theorem C116_slow (cfg : Cfg) {a b : KE} {p : PD ℝ} {l r : GK ℝ} (hg : FittedTo cfg (.change .CP a b) (.change .CP p l r)) {d : ℝ} (hd : 0 ≤ d) :
    kerK cfg (fun _ : Fin 1 => p.location.getD 0 + d) (.change .CP p l r) 0 0 - kerK cfg (fun _ : Fin 1 => p.location.getD 0 + d) (secondPart p r) 0 0 =
      (1 / (2 * (1 + d / slopeOf p))) ^ 2 * kerK cfg (fun _ : Fin 1 => p.location.getD 0 + d) l 0 0 := by
  obtain ⟨-, hp, -, -⟩ := fitted_branches hg
  have hs := slope_pos hp
  rw [entry_change, second_entry, rev_far hs (by linarith)]
  have : slopeOf p + d ≠ 0 := by positivity
  have e : slopeOf p / (2 * (slopeOf p + (p.location.getD 0 + d - p.location.getD 0))) = 1 / (2 * (1 + d / slopeOf p)) := by
    rw [show p.location.getD 0 + d - p.location.getD 0 = d by ring, show 1 + d / slopeOf p = (slopeOf p + d) / slopeOf p by field_simp]
    field_simp
  rw [e]
  ring

/-! ## Far away -/

/-- C116. Far after a change point covariances are those of the second branch, if there is no linear kernel in the first. -/
theorem C116_after_partial (cfg : Cfg) {a b : KE} (ha : NoLin a) {p : PD ℝ} {l r : GK ℝ} (hg : FittedTo cfg (.change .CP a b) (.change .CP p l r)) {e : ℝ}
    (he : 0 < e) : ∃ D, ∀ (n : ℕ) (X : Fin n → ℝ) (i j : Fin n), D ≤ X i → D ≤ X j →
      |kerK cfg X (.change .CP p l r) i j - kerK cfg X r i j| ≤ e * (1 + |kerK cfg X r i j|) := by
  obtain ⟨-, hp, hl, -⟩ := fitted_branches hg
  obtain ⟨B, hB, hb, -⟩ := bdd_fitted ha hl
  obtain ⟨d, hd, h1, h2, -⟩ := small (slope_pos hp) hB he
  refine ⟨p.location.getD 0 + d, fun n X i j hi hj => ((C116_inside cfg hg hd X X).1 i j hi hj).trans ?_⟩
  have h3 := mul_le_mul_of_nonneg_left (hb n X i j) (sq_nonneg (1 / (1 + d / slopeOf p)))
  have h4 := mul_le_mul_of_nonneg_right h2 (abs_nonneg (kerK cfg X r i j))
  linarith

/-- C116. Far before it they are those of the first, if there is no linear kernel in the second. -/
theorem C116_before_partial (cfg : Cfg) {a b : KE} (hb : NoLin b) {p : PD ℝ} {l r : GK ℝ} (hg : FittedTo cfg (.change .CP a b) (.change .CP p l r)) {e : ℝ}
    (he : 0 < e) : ∃ D, ∀ (n : ℕ) (X : Fin n → ℝ) (i j : Fin n), X i ≤ D → X j ≤ D →
      |kerK cfg X (.change .CP p l r) i j - kerK cfg X l i j| ≤ e * (1 + |kerK cfg X l i j|) := by
  obtain ⟨-, hp, -, hr⟩ := fitted_branches hg
  obtain ⟨B, hB, hb, -⟩ := bdd_fitted hb hr
  obtain ⟨d, hd, h1, h2, -⟩ := small (slope_pos hp) hB he
  refine ⟨p.location.getD 0 - d, fun n X i j hi hj => ((C116_outside cfg hg hd X X).1 i j (by simp only [OffSide]; linarith) (by simp only [OffSide]; linarith)).trans ?_⟩
  have h3 := mul_le_mul_of_nonneg_left (hb n X i j) (sq_nonneg (1 / (1 + d / slopeOf p)))
  have h4 := mul_le_mul_of_nonneg_right h2 (abs_nonneg (kerK cfg X l i j))
  linarith

/-- C116. Far from a window, on either side, they are those of the first branch, if no linear kernels are multiplied in the second. -/
theorem C116_around_partial (cfg : Cfg) {a b : KE} (hb : degree b ≤ 1) {p : PD ℝ} {l r : GK ℝ} (hg : FittedTo cfg (.change .CW a b) (.change .CW p l r)) {e : ℝ}
    (he : 0 < e) : ∃ D, ∀ (n : ℕ) (X : Fin n → ℝ) (i j : Fin n), D ≤ |X i| → D ≤ |X j| →
      |kerK cfg X (.change .CW p l r) i j - kerK cfg X l i j| ≤ e * (1 + |kerK cfg X l i j|) := by
  obtain ⟨-, hp, -, hr⟩ := fitted_branches hg
  obtain ⟨B, hB, hpoly⟩ := poly_of cfg r
  have hdeg : deg r ≤ 1 := by rw [← deg_erase, deg_toKernel cfg b _ hr.1]; exact hb
  obtain ⟨D, hD⟩ := hat_line hp (show 0 < min 1 (e / (B + 2)) by positivity)
  set t := min 1 (e / (B + 2)) with ht
  have ht0 : 0 < t := by positivity
  have ht1 : t ≤ 1 := min_le_left ..
  have ht2 : t * (B + 2) ≤ e := by rw [← le_div_iff₀ (by positivity)]; exact min_le_right ..
  refine ⟨D, fun n X i j hi hj => ?_⟩
  have wi := hD _ hi
  have wj := hD _ hj
  have r1 := phi_range .CW hp false (X i)
  have r2 := phi_range .CW hp false (X j)
  have si : changePhi .CW p false (X i) ≤ t := by nlinarith [mul_nonneg (abs_nonneg (X i)) r1.1]
  have sj : changePhi .CW p false (X j) ≤ t := by nlinarith [mul_nonneg (abs_nonneg (X j)) r2.1]
  have hr1 := poly_mono hB le_rfl hdeg (hpoly n X i j)
  rw [pow_one] at hr1
  rw [entry_change, phi_compl, phi_compl]
  generalize changePhi .CW p false (X i) = x at *
  generalize changePhi .CW p false (X j) = y at *
  generalize kerK cfg X l i j = k at *
  have e1 : k * (1 * ((1 - x) * (1 - y))) + kerK cfg X r i j * (1 * (x * y)) - k = kerK cfg X r i j * (x * y) - k * (x + y - x * y) := by ring
  rw [e1]
  have b1 : |kerK cfg X r i j * (x * y)| ≤ e := by
    rw [abs_mul, abs_of_nonneg (mul_nonneg r1.1 r2.1)]
    calc _ ≤ B * ((1 + |X i|) * (1 + |X j|)) * (x * y) := mul_le_mul_of_nonneg_right hr1 (mul_nonneg r1.1 r2.1)
      _ = B * (((1 + |X i|) * x) * ((1 + |X j|) * y)) := by ring
      _ ≤ B * (t * t) := mul_le_mul_of_nonneg_left (mul_le_mul wi wj (mul_nonneg (by positivity) r2.1) ht0.le) hB
      _ ≤ e := by nlinarith [mul_nonneg hB ht0.le]
  have b2 : |k * (x + y - x * y)| ≤ e * |k| := by
    rw [abs_mul, mul_comm]
    refine mul_le_mul_of_nonneg_right ?_ (abs_nonneg _)
    have : 2 * t ≤ e := by nlinarith [mul_nonneg hB ht0.le]
    rw [abs_le]
    constructor <;> nlinarith [mul_nonneg r1.1 r2.1, mul_nonneg r1.1 (sub_nonneg.2 r2.2), r1.1, r2.1]
  have := abs_sub (kerK cfg X r i j * (x * y)) (k * (x + y - x * y))
  linarith

/-- C116. Far after a change point the predicted mean is that of the second branch's part alone, whatever the data, if there is no linear kernel in the first. -/
theorem C116_predictions_partial (cfg : Cfg) (ppf : ℝ → ℝ) {a b : KE} (ha : NoLin a) {p : PD ℝ} {l r : GK ℝ}
    (hg : FittedTo cfg (.change .CP a b) (.change .CP p l r)) {n : ℕ} (X y : Fin n → ℝ) (noise : ℝ) {e : ℝ} (he : 0 < e) :
    ∃ D, ∀ (m : ℕ) (Y : Fin m → ℝ) (q : List ℝ) (fc il : Bool) (u v : Prediction m), predict cfg ppf X y (.change .CP p l r) noise Y q fc il = .ok u →
      predictWith cfg ppf X y (.change .CP p l r) noise Y (some (secondPart p r)) q fc il = .ok v → ∀ j, D ≤ Y j → |u.mean j - v.mean j| ≤ e := by
  obtain ⟨-, hp, hl, -⟩ := fitted_branches hg
  obtain ⟨B, hB, -, hb⟩ := bdd_fitted ha hl
  set w := (Matrix.of (kerK cfg X (.change .CP p l r)) + noise • (1 : Matrix (Fin n) (Fin n) ℝ))⁻¹.mulVec y with hw
  obtain ⟨d, hd, -, -, h3⟩ := small (B := B * ∑ i, |w i|) (slope_pos hp) (mul_nonneg hB (Finset.sum_nonneg fun i _ => abs_nonneg _)) he
  refine ⟨p.location.getD 0 + d, fun m Y q fc il u v hu hv j hj => ?_⟩
  have e1 : u.mean = rawMean cfg X y Y (.change .CP p l r) noise := by
    unfold predict at hu
    split at hu
    · simp only [Except.ok.injEq] at hu; rw [← hu]
    · simp at hu
  have e2 : v.mean = rawMeanWith cfg X y Y (.change .CP p l r) (secondPart p r) noise := by
    unfold predictWith at hv
    split at hv
    · simp only [Except.ok.injEq] at hv; rw [← hv]; rfl
    · simp at hv
  rw [e1, e2, mean_diff, ← hw]
  refine (Finset.abs_sum_le_sum_abs _ _).trans (le_trans ?_ h3)
  rw [Finset.mul_sum, Finset.mul_sum]
  refine Finset.sum_le_sum fun i _ => ?_
  have r1 := phi_range .CP hp true (X i)
  have r2 := phi_range .CP hp true (Y j)
  rw [abs_mul, abs_mul, abs_of_nonneg (mul_nonneg r1.1 r2.1)]
  have h5 : changePhi .CP p true (X i) * changePhi .CP p true (Y j) ≤ 1 / (1 + d / slopeOf p) :=
    (mul_le_of_le_one_left r2.1 r1.2).trans (weight_on .CP hp hd hj)
  have h6 := mul_le_mul (hb n m X Y i j) h5 (mul_nonneg r1.1 r2.1) hB
  calc _ ≤ B * (1 / (1 + d / slopeOf p)) * |w i| := mul_le_mul_of_nonneg_right h6 (abs_nonneg _)
    _ = _ := by ring

/-! ## Lines do not fade -/

theorem lin_form {cfg : Cfg} {g : GK ℝ} (h : FittedTo cfg (.base .LIN) g) :
    ∃ v o, 0 < v ∧ (∀ (n : ℕ) (X : Fin n → ℝ) i j, kerK cfg X g i j = v * ((X i - o) * (X j - o))) ∧
      ∀ (n m : ℕ) (X : Fin n → ℝ) (Y : Fin m → ℝ) i j, kerK2 cfg X Y g i j = v * ((X i - o) * (Y j - o)) := by
  obtain ⟨h, ha⟩ := h
  cases g with
  | comb o ps => simp [toKernel, baseKer, baseName, erase] at h
  | change c p l r => simp [toKernel, baseKer, baseName, erase] at h
  | base b q =>
    simp only [toKernel, baseKer, baseName, erase, Except.ok.injEq, GK.base.injEq] at h
    obtain ⟨rfl, hq⟩ := h
    have hv : ∃ v, q.variance = some v := by
      have : (mapPD (fun _ => ()) q).variance = some () := by
        rw [← hq]; by_cases hc : cfg.linOffset = true <;> simp [basePars, hc, linked, Par.put]
      cases hv : q.variance with
      | none => simp [mapPD, hv] at this
      | some v => exact ⟨v, rfl⟩
    obtain ⟨v, hv⟩ := hv
    refine ⟨v, if cfg.linOffset then q.offset.getD 0 else 0, ha.1 v hv, fun n X i j => ?_, fun n m X Y i j => ?_⟩
    · simp only [kerK, baseK]
      split_ifs <;> simp [matK, linearOffset, linear, varOf, hv] <;> ring
    · simp only [kerK2, baseK2]
      split_ifs <;> simp [matK, linearOffset, linear, varOf, hv] <;> ring

/-- C116 is false of linear kernels: however far behind the change point, a fixed variance of the line before it remains, a quarter of its own times the square of the
slope of the change. -/
theorem C116_line_remains (cfg : Cfg) {b : KE} {p : PD ℝ} {l r : GK ℝ} (hg : FittedTo cfg (.change .CP (.base .LIN) b) (.change .CP p l r)) :
    ∃ v, 0 < v ∧ Filter.Tendsto (fun x => kerK cfg (fun _ : Fin 1 => x) (.change .CP p l r) 0 0 - kerK cfg (fun _ : Fin 1 => x) (secondPart p r) 0 0) Filter.atTop
      (nhds (v * (slopeOf p / 2) ^ 2)) := by
  obtain ⟨-, hp, hl, -⟩ := fitted_branches hg
  obtain ⟨v, o, hv, h1, -⟩ := lin_form hl
  refine ⟨v, hv, ?_⟩
  have := ((line_limit (slope_pos hp) o).pow 2).const_mul v
  refine this.congr fun x => ?_
  rw [entry_change, second_entry, h1]
  ring

theorem parabola_form {cfg : Cfg} {l : GK ℝ} (hl : FittedTo cfg (.comm .prod [(.LIN, 2)] []) l) :
    ∃ v o o', 0 < v ∧ ∀ (n : ℕ) (X : Fin n → ℝ) i j, kerK cfg X l i j = v * ((X i - o) * (X j - o)) * ((X i - o') * (X j - o')) := by
  obtain ⟨h, ha⟩ := hl
  have e : toKernel cfg (.comm .prod [(.LIN, 2)] []) = .ok (.comb .prod [.base .LIN (linked (basePars cfg .LIN)), .base .LIN (linked (basePars cfg .LIN)).noVar]) := by
    simp [toKernel, toKernelL, Counter.elements, orderBase, baseKers, baseKer, baseName, unlinkTail, unlinkVar, reduceK, combine, partsOf, bind, Except.bind, pure,
      Except.pure, List.replicate]
  rw [e] at h
  cases l with
  | base b q => simp [erase] at h
  | change c p l r => simp [erase] at h
  | comb op ps =>
    simp only [erase, Except.ok.injEq, GK.comb.injEq] at h
    obtain ⟨rfl, h⟩ := h
    match ps, h, ha with
    | [x, z], h, ha =>
      simp only [eraseL, List.cons.injEq, and_true] at h
      obtain ⟨h1, h2⟩ := h
      obtain ⟨v, o, hv, f1, -⟩ := lin_form (cfg := cfg) (g := x) ⟨by rw [← h1]; simp [toKernel, baseKer, baseName], ha.1⟩
      cases z with
      | comb o ps => simp [erase] at h2
      | change c p l r => simp [erase] at h2
      | base b q =>
        simp only [erase, GK.base.injEq] at h2
        obtain ⟨rfl, h2⟩ := h2
        have hq : q.variance = none := by
          have : (mapPD (fun _ => ()) q).variance = none := by rw [← h2]; rfl
          cases hv : q.variance with
          | none => rfl
          | some v => simp [mapPD, hv] at this
        refine ⟨v, o, if cfg.linOffset then q.offset.getD 0 else 0, hv, fun n X i j => ?_⟩
        simp only [kerK, kerProd, Arr.mul]
        rw [f1]
        simp only [baseK]
        split_ifs <;> simp [matK, linearOffset, linear, varOf, hq]
    | [], h, _ => simp [eraseL] at h
    | [x], h, _ => simp [eraseL] at h
    | x :: z :: w :: ps, h, _ => simp [eraseL] at h

/-- C116 is the more false of powers of it: of a parabola any variance remains, if one only looks far enough. -/
theorem C116_parabola_grows (cfg : Cfg) {b : KE} {p : PD ℝ} {l r : GK ℝ} (hg : FittedTo cfg (.change .CP (.comm .prod [(.LIN, 2)] []) b) (.change .CP p l r)) :
    Filter.Tendsto (fun x => kerK cfg (fun _ : Fin 1 => x) (.change .CP p l r) 0 0 - kerK cfg (fun _ : Fin 1 => x) (secondPart p r) 0 0) Filter.atTop Filter.atTop := by
  obtain ⟨-, hp, hl, -⟩ := fitted_branches hg
  obtain ⟨v, o, o', hv, h1⟩ := parabola_form hl
  have a1 := ((line_limit (slope_pos hp) o).pow 2).const_mul v
  have a2 : Filter.Tendsto (fun x : ℝ => (x - o') ^ 2) Filter.atTop Filter.atTop :=
    (Filter.tendsto_pow_atTop two_ne_zero).comp (Filter.tendsto_atTop_add_const_right _ (-o') Filter.tendsto_id)
  have a3 := a2.atTop_mul_pos (show 0 < v * (slopeOf p / 2) ^ 2 by have := slope_pos hp; positivity) a1
  refine a3.congr fun x => ?_
  rw [entry_change, second_entry, h1]
  ring

/-- C116 is false of parabolas in windows as well: however far behind the window, a fixed variance of it remains. -/
theorem C116_window_parabola_remains (cfg : Cfg) {a : KE} {p : PD ℝ} {l r : GK ℝ} (hg : FittedTo cfg (.change .CW a (.comm .prod [(.LIN, 2)] [])) (.change .CW p l r)) :
    ∃ v, 0 < v ∧ Filter.Tendsto (fun x => kerK cfg (fun _ : Fin 1 => x) (.change .CW p l r) 0 0 - kerK cfg (fun _ : Fin 1 => x) (firstPart p l) 0 0) Filter.atTop (nhds v) := by
  obtain ⟨-, hp, -, hr⟩ := fitted_branches hg
  obtain ⟨v, o, o', hv, h1⟩ := parabola_form hr
  have hs := slope_pos hp
  have hw := width_pos hp
  refine ⟨v * (slopeOf p ^ 2 * (1 + p.width.getD 1 / (2 * slopeOf p))) ^ 2, by positivity, ?_⟩
  refine (((parabola_limit hp o o').pow 2).const_mul v).congr fun x => ?_
  rw [entry_change, first_entry, h1]
  ring

/-- C116 is false of predictions: there is a fit of CP(LIN, C) to one observation after the change whose predictions never become those of C alone. -/
theorem C116_prediction_remains (cfg : Cfg) (ppf : ℝ → ℝ) : ∃ (p : PD ℝ) (l r : GK ℝ) (X y : Fin 1 → ℝ) (f h : ℝ → ℝ) (L : ℝ),
    FittedTo cfg (.change .CP (.base .LIN) (.base .C)) (.change .CP p l r) ∧
      (∀ x, ∃ u, predict cfg ppf X y (.change .CP p l r) 1 (fun _ : Fin 1 => x) = .ok u ∧ u.mean 0 = f x) ∧
      (∀ x, ∃ u, predictWith cfg ppf X y (.change .CP p l r) 1 (fun _ : Fin 1 => x) (some (secondPart p r)) = .ok u ∧ u.mean 0 = h x) ∧
      L ≠ 0 ∧ Filter.Tendsto (fun x => f x - h x) Filter.atTop (nhds L) := by
  let p : PD ℝ := { location := some 0, slope := if cfg.fixSlope then none else some 0.5 }
  let l : GK ℝ := .base .LIN { variance := some 1, offset := if cfg.linOffset then some 0 else none }
  let r : GK ℝ := .base .C { variance := some 1 }
  let X : Fin 1 → ℝ := fun _ => 1
  let A : Matrix (Fin 1) (Fin 1) ℝ := Matrix.of (kerK cfg X (.change .CP p l r)) + (1 : ℝ) • (1 : Matrix (Fin 1) (Fin 1) ℝ)
  have hg : FittedTo cfg (.change .CP (.base .LIN) (.base .C)) (.change .CP p l r) := by
    refine ⟨?_, ?_⟩
    · by_cases h1 : cfg.fixSlope = true <;> by_cases h2 : cfg.linOffset = true <;>
        simp [toKernel, baseKer, baseName, basePars, kerPars, linked, Par.put, bind, Except.bind, pure, Except.pure, erase, mapPD, p, l, r, h1, h2]
    · by_cases h1 : cfg.fixSlope = true <;> by_cases h2 : cfg.linOffset = true <;> simp [Adm, AdmPD, p, l, r, h1, h2] <;> norm_num
  obtain ⟨-, hp, -, -⟩ := fitted_branches hg
  have hs := slope_pos hp
  have hK : ∀ x, kerK2 cfg X (fun _ : Fin 1 => x) l 0 0 = x - 0 := by
    intro x
    by_cases h2 : cfg.linOffset = true <;> simp [kerK2, baseK2, l, h2, matK, linearOffset, linear, varOf, X]
  have hdet : A.det ≠ 0 := by
    rw [Matrix.det_fin_one]
    have e : A 0 0 = changePhi .CP p true 1 ^ 2 + changePhi .CP p false 1 ^ 2 + 1 := by
      simp only [A, Matrix.add_apply, Matrix.of_apply, entry_change, Matrix.smul_apply, Matrix.one_apply_eq, smul_eq_mul, mul_one]
      by_cases h2 : cfg.linOffset = true <;> simp [kerK, baseK, l, r, h2, matK, linearOffset, linear, bias, varOf, X] <;> ring
    rw [e]; positivity
  have hw : (A⁻¹.mulVec fun _ => (1 : ℝ)) 0 ≠ 0 := by
    intro h0
    have h1 : (A⁻¹.mulVec fun _ => (1 : ℝ)) = 0 := by
      funext i; rw [Subsingleton.elim i 0]; exact h0
    have h2 : A.mulVec (A⁻¹.mulVec fun _ => (1 : ℝ)) = fun _ => 1 := by
      rw [Matrix.mulVec_mulVec, Matrix.mul_nonsing_inv _ (Ne.isUnit hdet), Matrix.one_mulVec]
    rw [h1, Matrix.mulVec_zero] at h2
    simpa using congrFun h2 0
  have hr : changePhi .CP p true 1 ≠ 0 := (C48_range (l := 0) (s := p.slope.getD 0.5) true 1).1.ne'
  refine ⟨p, l, r, X, fun _ => 1, fun x => rawMean cfg X (fun _ => 1) (fun _ : Fin 1 => x) (.change .CP p l r) 1 0,
    fun x => rawMeanWith cfg X (fun _ => 1) (fun _ : Fin 1 => x) (.change .CP p l r) (secondPart p r) 1 0,
    changePhi .CP p true 1 * (A⁻¹.mulVec fun _ => (1 : ℝ)) 0 * (slopeOf p / 2), hg, fun x => ⟨_, rfl, rfl⟩, fun x => ⟨_, rfl, rfl⟩,
    mul_ne_zero (mul_ne_zero hr hw) (by positivity), ?_⟩
  refine ((line_limit hs 0).const_mul _).congr fun x => ?_
  rw [mean_diff, Fin.sum_univ_one, hK]
  simp only [X, A]
  ring

/-! ## Examples -/

/-- A fit that the theorems apply to: a change point from a periodic kernel to a line, ... -/
example : let p : PD ℝ := { location := some 3 }
    let l : GK ℝ := .base .PER { variance := some 2, period := some 3, lengthscale := some 1 }
    let r : GK ℝ := .base .LIN { variance := some 1, offset := some (-1) }
    FittedTo .default (.change .CP (.base .PER) (.base .LIN)) (.change .CP p l r) ∧ NoLin (.base .PER) ∧ OnSide .CP p 2 7 ∧ OffSide .CP p 2 (-7) := by
  refine ⟨⟨by rfl, by simp [Adm, AdmPD]⟩, by simp [NoLin, bases], by norm_num [OnSide], by norm_num [OffSide]⟩

/-- ... a window, ... -/
example : let p : PD ℝ := { location := some 3, width := some 10 }
    let l : GK ℝ := .base .LIN { variance := some 1, offset := some (-1) }
    let r : GK ℝ := .comb .sum [.base .C { variance := some 2 }, .base .WN { variance := some 1 }]
    FittedTo .default (.change .CW (.base .LIN) (.comm .sum [(.C, 1), (.WN, 1)] [])) (.change .CW p l r) ∧ degree (.comm .sum [(.C, 1), (.WN, 1)] []) ≤ 1 ∧
      OnSide .CW p 2 7 ∧ OffSide .CW p 2 20 := by
  refine ⟨⟨by rfl, by simp [Adm, AdmL, AdmPD]⟩, by decide, by norm_num [OnSide], by norm_num [OffSide]⟩

/-- ... a parabola in a window, ... -/
example : FittedTo .default (.change .CW (.base .C) (.comm .prod [(.LIN, 2)] [])) (.change .CW { location := some 3, width := some 1 } (.base .C { variance := some 1 })
    (.comb .prod [.base .LIN { variance := some 1, offset := some (-1) }, .base .LIN { offset := some 4 }])) :=
  ⟨by rfl, by simp [Adm, AdmL, AdmPD]⟩

/-- ... and a parabola before a change point. -/
example : FittedTo .default (.change .CP (.comm .prod [(.LIN, 2)] []) (.base .C)) (.change .CP { location := some 3 }
    (.comb .prod [.base .LIN { variance := some 1, offset := some (-1) }, .base .LIN { offset := some 4 }]) (.base .C { variance := some 1 })) :=
  ⟨by rfl, by simp [Adm, AdmL, AdmPD]⟩

end GPyABCD
