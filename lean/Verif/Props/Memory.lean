import Verif.Lemmas.MemoryKeep
import Verif.Props.Reach

/-!
# Property C119: far from the data predictions are as if there were none
-/

namespace GPyABCD
open Kern Params Sops Reach Memory

theorem explained_bound (cfg : Cfg) {n : ℕ} (X y : Fin n → ℝ) (g : GK ℝ) (noise : ℝ) : ∃ W V : ℝ, 0 ≤ W ∧ 0 ≤ V ∧ ∀ (m : ℕ) (Y : Fin m → ℝ) (b : ℝ), 0 ≤ b →
    (∀ j, (∀ i, |kerK2 cfg X Y g i j| ≤ b) → |rawMean cfg X y Y g noise j| ≤ W * b) ∧
    (∀ j j', (∀ i, |kerK2 cfg X Y g i j| ≤ b) → (∀ i, |kerK2 cfg X Y g i j'| ≤ b) → |explained cfg X Y g noise j j'| ≤ V * b ^ 2) := by
  set A := (Matrix.of (kerK cfg X g) + noise • (1 : Matrix (Fin n) (Fin n) ℝ))⁻¹ with hA
  refine ⟨∑ i, |A.mulVec y i|, ∑ k, ∑ i, |A i k|, Finset.sum_nonneg fun i _ => abs_nonneg _,
    Finset.sum_nonneg fun i _ => Finset.sum_nonneg fun k _ => abs_nonneg _, fun m Y b hb => ⟨fun j h1 => ?_, fun j j' h1 h2 => ?_⟩⟩
  · rw [rawMean, ← hA, Matrix.mulVec, dotProduct, Finset.sum_mul]
    refine (Finset.abs_sum_le_sum_abs _ _).trans (Finset.sum_le_sum fun i _ => ?_)
    rw [abs_mul, mul_comm]
    exact mul_le_mul_of_nonneg_left (h1 i) (abs_nonneg _)
  · have e : explained cfg X Y g noise j j' = ∑ k, (∑ i, kerK2 cfg X Y g i j * A i k) * kerK2 cfg X Y g k j' := by
      rw [explained, ← hA, Matrix.mul_apply]
      refine Finset.sum_congr rfl fun k _ => ?_
      rw [Matrix.mul_apply]; rfl
    rw [e, Finset.sum_mul]
    refine (Finset.abs_sum_le_sum_abs _ _).trans (Finset.sum_le_sum fun k _ => ?_)
    rw [abs_mul, sq, ← mul_assoc]
    refine mul_le_mul ?_ (h2 k) (abs_nonneg _) (mul_nonneg (Finset.sum_nonneg fun i _ => abs_nonneg _) hb)
    rw [Finset.sum_mul]
    refine (Finset.abs_sum_le_sum_abs _ _).trans (Finset.sum_le_sum fun i _ => ?_)
    rw [abs_mul, mul_comm]
    exact mul_le_mul_of_nonneg_left (h1 i) (abs_nonneg _)

theorem sqrt_near (a b : ℝ) : |Real.sqrt a - Real.sqrt b| ≤ Real.sqrt |a - b| := by
  have main : ∀ a b : ℝ, Real.sqrt a ≤ Real.sqrt b + Real.sqrt |a - b| := by
    intro a b
    rw [Real.sqrt_le_left (by positivity)]
    have h1 := Real.sq_sqrt (abs_nonneg (a - b))
    have h2 : b ≤ Real.sqrt b ^ 2 := by
      rcases le_total 0 b with h | h
      · rw [Real.sq_sqrt h]
      · exact h.trans (sq_nonneg _)
    have h3 := le_abs_self (a - b)
    have h4 : 0 ≤ Real.sqrt b * Real.sqrt |a - b| := by positivity
    nlinarith
  rw [abs_sub_le_iff]
  have h := main b a
  rw [abs_sub_comm] at h
  constructor <;> linarith [main a b]

/-- What is predicted where all covariances with the data are small. -/
theorem near_nothing (cfg : Cfg) (ppf : ℝ → ℝ) {n : ℕ} (X y : Fin n → ℝ) (g : GK ℝ) (noise lo hi : ℝ) {ε : ℝ} (hε : 0 < ε) : ∃ δ : ℝ, 0 < δ ∧
    ∀ (m : ℕ) (Y : Fin m → ℝ) (P : Fin m → Prop), (∀ j, P j → ∀ i, |kerK2 cfg X Y g i j| ≤ δ) → ∀ (qs : List ℝ) (fc il : Bool),
      ∃ u v, predict cfg ppf X y g noise Y (lo :: hi :: qs) fc il = .ok u ∧ fromNothing cfg ppf g noise Y (lo :: hi :: qs) fc il = .ok v ∧ u.Near ε P v ∧ ∀ j, v.mean j = 0 := by
  obtain ⟨W, V, hW, hV, h⟩ := explained_bound cfg X y g noise
  set Q := |ppf (lo / 100)| + |ppf (hi / 100)| with hQ
  have hQ0 : 0 ≤ Q := by positivity
  set S := 1 + W + Q * Real.sqrt V + V with hS
  have hS0 : 0 < S := by positivity
  set δ := min 1 (ε / S) with hδ
  have d0 : 0 < δ := by positivity
  have d1 : δ ≤ 1 := min_le_left ..
  have dS : δ * S ≤ ε := by
    have : δ ≤ ε / S := min_le_right ..
    rwa [le_div_iff₀ hS0] at this
  refine ⟨δ, d0, fun m Y P hP qs fc il => ⟨_, _, rfl, rfl, ?_, fun j => ?_⟩⟩
  swap
  · simp [rawMean, Matrix.mulVec, dotProduct]
  have zero_mean : ∀ j, rawMean cfg (Fin.elim0 : Fin 0 → ℝ) Fin.elim0 Y g noise j = 0 := fun j => by simp [rawMean, Matrix.mulVec, dotProduct]
  have zero_exp : ∀ j j', explained cfg (Fin.elim0 : Fin 0 → ℝ) Y g noise j j' = 0 := fun j j' => by simp [explained, Matrix.mul_apply]
  have hm : ∀ j, P j → |rawMean cfg X y Y g noise j| ≤ W * δ := fun j hj => (h m Y δ d0.le).1 j (hP j hj)
  have hx : ∀ j j', P j → P j' → |explained cfg X Y g noise j j'| ≤ V * δ ^ 2 := fun j j' hj hj' => (h m Y δ d0.le).2 j j' (hP j hj) (hP j' hj')
  have q0 : 0 ≤ Q * Real.sqrt V := by positivity
  have small : V * δ ^ 2 ≤ ε := by
    have : V * δ ^ 2 ≤ V * δ := mul_le_mul_of_nonneg_left (by nlinarith) hV
    have : V * δ ≤ S * δ := mul_le_mul_of_nonneg_right (by rw [hS]; linarith) d0.le
    linarith
  have hq : ∀ q j, P j → |ppf (q / 100)| ≤ Q → |quantileAt cfg ppf X y Y g noise q j - quantileAt cfg ppf (Fin.elim0 : Fin 0 → ℝ) Fin.elim0 Y g noise q j| ≤ ε := by
    intro q j hj hq
    have e : quantileAt cfg ppf X y Y g noise q j - quantileAt cfg ppf (Fin.elim0 : Fin 0 → ℝ) Fin.elim0 Y g noise q j =
        ppf (q / 100) * (Real.sqrt (rawVar cfg X Y g noise j + noise) - Real.sqrt (rawVar cfg (Fin.elim0 : Fin 0 → ℝ) Y g noise j + noise)) + rawMean cfg X y Y g noise j := by
      rw [quantileAt, quantileAt, zero_mean]; ring
    have hs : |Real.sqrt (rawVar cfg X Y g noise j + noise) - Real.sqrt (rawVar cfg (Fin.elim0 : Fin 0 → ℝ) Y g noise j + noise)| ≤ Real.sqrt V * δ := by
      refine (sqrt_near _ _).trans ?_
      rw [← Real.sqrt_sq d0.le, ← Real.sqrt_mul hV]
      refine Real.sqrt_le_sqrt ?_
      have := hx j j hj hj
      rw [rawVar, rawVar, zero_exp]
      rw [show kerDiag cfg Y g j - explained cfg X Y g noise j j + noise - (kerDiag cfg Y g j - 0 + noise) = -explained cfg X Y g noise j j by ring, abs_neg]
      exact this
    rw [e]
    refine (abs_add_le _ _).trans ?_
    rw [abs_mul]
    have a1 : |ppf (q / 100)| * |Real.sqrt (rawVar cfg X Y g noise j + noise) - Real.sqrt (rawVar cfg (Fin.elim0 : Fin 0 → ℝ) Y g noise j + noise)| ≤ Q * (Real.sqrt V * δ) :=
      mul_le_mul hq hs (abs_nonneg _) hQ0
    have a2 := hm j hj
    have : δ * S = δ + W * δ + Q * (Real.sqrt V * δ) + V * δ := by rw [hS]; ring
    have : 0 ≤ V * δ := by positivity
    linarith
  refine ⟨fun j hj => ⟨?_, hq lo j hj (by rw [hQ]; linarith [abs_nonneg (ppf (hi / 100))]), hq hi j hj (by rw [hQ]; linarith [abs_nonneg (ppf (lo / 100))])⟩, ?_⟩
  · dsimp only
    rw [zero_mean, sub_zero]
    refine (hm j hj).trans ?_
    have : W * δ ≤ S * δ := mul_le_mul_of_nonneg_right (by rw [hS]; linarith) d0.le
    linarith
  · simp only [predictCov]
    cases fc with
    | false =>
      intro i hi
      have := hx i i hi hi
      simp only [rawVar, zero_exp]
      rw [show ∀ a b c : ℝ, a - b + c - (a - 0 + c) = -b by intros; ring, abs_neg]
      exact this.trans small
    | true =>
      intro i j hi hj
      have := hx i j hi hj
      simp only [rawCov, zero_exp]
      rw [show ∀ a b c : ℝ, a - b + c - (a - 0 + c) = -b by intros; ring, abs_neg]
      exact this.trans small

/-- C119. On a side on which the expression does not remember the data, everything predicted far out is as if there were no data. -/
theorem C119_returns (cfg : Cfg) (ppf : ℝ → ℝ) {k : KE} {g : GK ℝ} (hg : FittedTo cfg k g) {after : Bool} (hk : memory after k < 0) {n : ℕ} (X y : Fin n → ℝ)
    (noise lo hi : ℝ) {ε : ℝ} (hε : 0 < ε) : ∃ D : ℝ, ∀ (m : ℕ) (Y : Fin m → ℝ) (qs : List ℝ) (fc il : Bool),
      ∃ u v, predict cfg ppf X y g noise Y (lo :: hi :: qs) fc il = .ok u ∧ fromNothing cfg ppf g noise Y (lo :: hi :: qs) fc il = .ok v ∧
        u.Near ε (fun j => Far after D (Y j)) v := by
  obtain ⟨δ, hδ, h⟩ := near_nothing cfg ppf X y g noise lo hi hε
  obtain ⟨D, hD⟩ := covs_fade hg hk X hδ
  refine ⟨D, fun m Y qs fc il => ?_⟩
  obtain ⟨u, v, h1, h2, h3, -⟩ := h m Y (fun j => Far after D (Y j)) (fun j hj => hD m Y j hj) qs fc il
  exact ⟨u, v, h1, h2, h3⟩

/-- C119. So predicted means go to zero there, whatever the level of the data is. -/
theorem C119_zero (cfg : Cfg) (ppf : ℝ → ℝ) {k : KE} {g : GK ℝ} (hg : FittedTo cfg k g) {after : Bool} (hk : memory after k < 0) {n : ℕ} (X y : Fin n → ℝ)
    (noise : ℝ) {ε : ℝ} (hε : 0 < ε) : ∃ D : ℝ, ∀ (m : ℕ) (Y : Fin m → ℝ), ∃ u, predict cfg ppf X y g noise Y = .ok u ∧ ∀ j, Far after D (Y j) → |u.mean j| ≤ ε := by
  obtain ⟨δ, hδ, h⟩ := near_nothing cfg ppf X y g noise 2.5 97.5 hε
  obtain ⟨D, hD⟩ := covs_fade hg hk X hδ
  refine ⟨D, fun m Y => ?_⟩
  obtain ⟨u, v, h1, -, h3, h4⟩ := h m Y (fun j => Far after D (Y j)) (fun j hj => hD m Y j hj) [] false true
  refine ⟨u, h1, fun j hj => ?_⟩
  have := (h3.1 j hj).1
  rwa [h4, sub_zero] at this

theorem one_point (cfg : Cfg) (x : ℝ) (g : GK ℝ) (hk : 0 ≤ kerK cfg (fun _ : Fin 1 => x) g 0 0) {m : ℕ} (Y : Fin m → ℝ) (j : Fin m) :
    rawMean cfg (fun _ : Fin 1 => x) (fun _ => kerK cfg (fun _ : Fin 1 => x) g 0 0 + 1) Y g 1 j = kerK2 cfg (fun _ : Fin 1 => x) Y g 0 j := by
  set v := kerK cfg (fun _ : Fin 1 => x) g 0 0 with hv
  have v1 : v + 1 ≠ 0 := by positivity
  have e : (Matrix.of (kerK cfg (fun _ : Fin 1 => x) g) + (1 : ℝ) • (1 : Matrix (Fin 1) (Fin 1) ℝ)) = (v + 1) • 1 := by
    ext a b
    have ha : a = 0 := Subsingleton.elim ..
    have hb : b = 0 := Subsingleton.elim ..
    subst ha hb
    simp [hv]
  have e' : ((v + 1) • (1 : Matrix (Fin 1) (Fin 1) ℝ))⁻¹ = (v + 1)⁻¹ • 1 := by
    apply Matrix.inv_eq_right_inv
    simp [smul_smul, v1]
  rw [rawMean, e, e']
  simp [Matrix.mulVec, dotProduct, v1]

/-- C119 exactly. An expression forgets the data on a side, whatever its parameters and the data, if and only if its power there is negative. -/
theorem C119_iff (cfg : Cfg) (ppf : ℝ → ℝ) {k : KE} {s : GK Unit} (hs : toKernel cfg k = .ok s) (after : Bool) : memory after k < 0 ↔
    ∀ g, FittedTo cfg k g → ∀ (n : ℕ) (X y : Fin n → ℝ) (noise lo hi ε : ℝ), 0 < noise → 0 < ε → ∃ D : ℝ, ∀ (m : ℕ) (Y : Fin m → ℝ) (qs : List ℝ) (fc il : Bool),
      ∃ u v, predict cfg ppf X y g noise Y (lo :: hi :: qs) fc il = .ok u ∧ fromNothing cfg ppf g noise Y (lo :: hi :: qs) fc il = .ok v ∧
        u.Near ε (fun j => Far after D (Y j)) v := by
  refine ⟨fun hk g hg n X y noise lo hi ε _ hε => C119_returns cfg ppf hg hk X y noise lo hi hε, fun h => ?_⟩
  by_contra hk
  obtain ⟨g, hg, hkeep⟩ := kept hs hk
  obtain ⟨-, c0, D0, hc0, -, h2⟩ := gr_fitted hg after
  obtain ⟨a, ha, c, hc, N, hN⟩ := hkeep D0
  have hv : 0 ≤ kerK cfg (fun _ : Fin 1 => at' after a) g 0 0 := le_trans (by positivity) (h2 1 (fun _ => at' after a) 0 (far_at ha))
  obtain ⟨D, hD⟩ := h g hg 1 (fun _ => at' after a) (fun _ => kerK cfg (fun _ : Fin 1 => at' after a) g 0 0 + 1) 1 0 0 (c / 2) one_pos (by positivity)
  obtain ⟨M, hM⟩ := exists_nat_ge D
  obtain ⟨u, v, hu, hv', hn, -⟩ := hD 1 (fun _ => at' after (max N M)) [] false true
  have hm := (hn 0 (far_at (hM.trans (by exact_mod_cast le_max_right N M)))).1
  simp only [predict, fromNothing, List.map_cons, Except.ok.injEq] at hu hv'
  subst hu hv'
  have e0 : rawMean cfg (Fin.elim0 : Fin 0 → ℝ) Fin.elim0 (fun _ : Fin 1 => at' after (max N M)) g 1 0 = 0 := by simp [rawMean, Matrix.mulVec, dotProduct]
  dsimp only at hm
  rw [one_point cfg _ g hv, e0, sub_zero] at hm
  have := hN (max N M) (le_max_left ..)
  rw [cov2] at this
  linarith [le_abs_self (kerK2 cfg (fun _ : Fin 1 => at' after a) (fun _ : Fin 1 => at' after (max N M)) g 0 0)]

/-- C119 does not hold of all expressions: a constant remembers. With one observation of 1 its predicted mean is the same at all inputs, and not that of no data. -/
theorem C119_constant_remembers (cfg : Cfg) (ppf : ℝ → ℝ) (qs : List ℝ) (lo hi : ℝ) (fc il : Bool) : ∃ g, FittedTo cfg (.base .C) g ∧ ∀ (m : ℕ) (Y : Fin m → ℝ) (u v : Prediction m),
    predict cfg ppf (fun _ : Fin 1 => 0) (fun _ => 1) g 1 Y (lo :: hi :: qs) fc il = .ok u → fromNothing cfg ppf g 1 Y (lo :: hi :: qs) fc il = .ok v →
      ∀ j, u.mean j = 1 / 2 ∧ v.mean j = 0 := by
  refine ⟨.base .C { variance := some 1 }, ⟨by rfl, by simp [Adm, AdmPD]⟩, fun m Y u v hu hv j => ?_⟩
  simp only [predict, fromNothing, List.map_cons, Except.ok.injEq] at hu hv
  subst hu hv
  constructor
  · simp only [rawMean]
    have e : (Matrix.of (kerK cfg (fun _ : Fin 1 => (0 : ℝ)) (.base .C { variance := some 1 })) + (1 : ℝ) • (1 : Matrix (Fin 1) (Fin 1) ℝ)) = (2 : ℝ) • 1 := by
      ext a b
      have : a = b := Subsingleton.elim ..
      subst this
      simp [kerK, baseK, matK, bias, varOf]; norm_num
    have e' : ((2 : ℝ) • (1 : Matrix (Fin 1) (Fin 1) ℝ))⁻¹ = (1 / 2 : ℝ) • 1 := by
      apply Matrix.inv_eq_right_inv
      simp [smul_smul]
    rw [e, e']
    simp [Matrix.mulVec, dotProduct, kerK2, baseK2, matK, bias, varOf]
  · simp [rawMean, Matrix.mulVec, dotProduct]

/-! ## Examples -/

/-- A constant before a change point is forgotten after it, and a line or a constant in a window on either side; a line before a change point, and a constant times
one, are not. -/
example : memory true (.change .CP (.base .C) (.base .SE)) < 0 ∧ ¬ memory false (.change .CP (.base .C) (.base .SE)) < 0 ∧
    (∀ after, memory after (.change .CW (.base .SE) (.base .LIN)) < 0) ∧ ¬ memory true (.change .CP (.base .LIN) (.base .SE)) < 0 ∧
    memory true (.comm .sum [(.SE, 1), (.WN, 1)] [.comm .prod [(.LIN, 2), (.SE, 1)] []]) < 0 ∧
    ¬ memory true (.comm .prod [(.LIN, 1)] [.change .CP (.base .C) (.base .SE)]) < 0 := by
  refine ⟨by decide, by decide, fun after => by cases after <;> decide, by decide, by decide, by decide⟩

/-- One of these as fitted. -/
example : FittedTo .default (.change .CW (.base .SE) (.base .LIN)) (.change .CW { location := some 3, width := some 1 } (.base .SE { variance := some 1, lengthscale := some 2 })
    (.base .LIN { variance := some 1, offset := some 2 })) ∧ memory true (.change .CW (.base .SE) (.base .LIN)) < 0 :=
  ⟨⟨by rfl, by simp [Adm, AdmPD]⟩, by decide⟩

end GPyABCD
