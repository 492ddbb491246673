import Verif.Props.KernelFam
import Verif.Props.Predict

/-!
# Property C120: more data never make predictions less certain
-/

namespace GPyABCD
open Kern Params Sops

theorem best_weights {n : ℕ} {A : Matrix (Fin n) (Fin n) ℝ} (hA : A.PosDef) (w k : Fin n → ℝ) : 2 * (w ⬝ᵥ k) - w ⬝ᵥ A.mulVec w ≤ k ⬝ᵥ A⁻¹.mulVec k := by
  set v := A⁻¹.mulVec k with hv
  have hu : IsUnit A.det := (Matrix.isUnit_iff_isUnit_det _).1 hA.isUnit
  have hk : A.mulVec v = k := by rw [hv, Matrix.mulVec_mulVec, Matrix.mul_nonsing_inv _ hu, Matrix.one_mulVec]
  have hs : v ⬝ᵥ A.mulVec w = w ⬝ᵥ k := by
    rw [Matrix.dotProduct_mulVec, ← Matrix.mulVec_transpose, show A.transpose = A from by have := hA.1.eq; rwa [Matrix.conjTranspose_eq_transpose_of_trivial] at this, hk, dotProduct_comm]
  have h := hA.posSemidef.dotProduct_mulVec_nonneg (w - v)
  simp only [star_trivial, Matrix.mulVec_sub, dotProduct_sub, sub_dotProduct, hk, hs] at h
  rw [dotProduct_comm k v]
  linarith

theorem best_attained {n : ℕ} {A : Matrix (Fin n) (Fin n) ℝ} (hA : A.PosDef) (k : Fin n → ℝ) :
    2 * (A⁻¹.mulVec k ⬝ᵥ k) - A⁻¹.mulVec k ⬝ᵥ A.mulVec (A⁻¹.mulVec k) = k ⬝ᵥ A⁻¹.mulVec k := by
  have hu : IsUnit A.det := (Matrix.isUnit_iff_isUnit_det _).1 hA.isUnit
  rw [Matrix.mulVec_mulVec, Matrix.mul_nonsing_inv _ hu, Matrix.one_mulVec, dotProduct_comm k]
  ring

/-- A vector on some of the places, zero on the others. -/
noncomputable def spread {n n' : ℕ} (e : Fin n → Fin n') (w : Fin n → ℝ) : Fin n' → ℝ := Function.extend e w 0

theorem spread_dot {n n' : ℕ} {e : Fin n → Fin n'} (he : Function.Injective e) (w : Fin n → ℝ) (k : Fin n' → ℝ) : spread e w ⬝ᵥ k = w ⬝ᵥ (k ∘ e) := by
  classical
  rw [dotProduct, dotProduct, ← Finset.sum_subset (Finset.subset_univ (Finset.univ.map ⟨e, he⟩)), Finset.sum_map]
  · refine Finset.sum_congr rfl fun i _ => ?_
    simp [spread, he.extend_apply]
  · intro x _ hx
    rw [spread, Function.extend_apply' _ _ _ fun ⟨i, hi⟩ => hx (by simpa using ⟨i, hi⟩)]
    simp

theorem explained_form (cfg : Cfg) {n m : ℕ} (X : Fin n → ℝ) (Y : Fin m → ℝ) (g : GK ℝ) (noise : ℝ) (z : Fin m → ℝ) :
    z ⬝ᵥ Matrix.mulVec (explained cfg X Y g noise) z = (Matrix.of (kerK2 cfg X Y g)).mulVec z ⬝ᵥ
      (Matrix.of (kerK cfg X g) + noise • (1 : Matrix (Fin n) (Fin n) ℝ))⁻¹.mulVec ((Matrix.of (kerK2 cfg X Y g)).mulVec z) := by
  rw [explained, ← Matrix.mulVec_mulVec, ← Matrix.mulVec_mulVec, Matrix.dotProduct_mulVec, Matrix.vecMul_transpose]

theorem kerK2_points (cfg : Cfg) {n n' m : ℕ} (X : Fin n' → ℝ) (e : Fin n → Fin n') (Y : Fin m → ℝ) (g : GK ℝ) (i : Fin n) (j : Fin m) :
    kerK2 cfg (X ∘ e) Y g i j = kerK2 cfg X Y g (e i) j := by
  have h := kerK2_comp cfg (Fin.append X Y) (fun i => Fin.castAdd m (e i)) (Fin.natAdd n') (i := i) (j := j)
    (by intro h; have := congrArg Fin.val h; simp at this; omega) g
  have h1 : Fin.append X Y ∘ (fun i => Fin.castAdd m (e i)) = X ∘ e := by funext a; simp
  have h2 : Fin.append X Y ∘ Fin.natAdd n' = Y := by funext a; simp
  rw [h1, h2] at h
  rw [h, C85_block]

/-- What the observations explain of any combination of values only grows with further ones. -/
theorem explained_grows (cfg : Cfg) {n n' m : ℕ} (X : Fin n' → ℝ) {e : Fin n → Fin n'} (he : Function.Injective e) (Y : Fin m → ℝ) (g : GK ℝ) (hg : Exact g)
    {noise noise' : ℝ} (hn : 0 < noise) (hnn : noise ≤ noise') (z : Fin m → ℝ) :
    z ⬝ᵥ Matrix.mulVec (explained cfg (X ∘ e) Y g noise') z ≤ z ⬝ᵥ Matrix.mulVec (explained cfg X Y g noise) z := by
  rw [explained_form, explained_form]
  set k := (Matrix.of (kerK2 cfg X Y g)).mulVec z with hk
  have hk' : (Matrix.of (kerK2 cfg (X ∘ e) Y g)).mulVec z = k ∘ e := by
    funext i
    simp only [hk, Function.comp, Matrix.mulVec, dotProduct, Matrix.of_apply]
    exact Finset.sum_congr rfl fun j _ => by rw [kerK2_points cfg X e Y]
  rw [hk']
  have pA := (C79_regression_partial cfg X g hg hn).1
  have pB := (C79_regression_partial cfg (X ∘ e) g hg (hn.trans_le hnn)).1
  rw [← best_attained pB (k ∘ e)]
  set A := Matrix.of (kerK cfg X g) + noise • (1 : Matrix (Fin n') (Fin n') ℝ) with hA
  set B := Matrix.of (kerK cfg (X ∘ e) g) + noise' • (1 : Matrix (Fin n) (Fin n) ℝ) with hB
  set w := B⁻¹.mulVec (k ∘ e) with hw
  refine le_trans ?_ (best_weights pA (spread e w) k)
  have h2 : spread e w ⬝ᵥ A.mulVec (spread e w) ≤ w ⬝ᵥ B.mulVec w := by
    rw [spread_dot he]
    have hc : (A.mulVec (spread e w)) ∘ e = (B - (noise' - noise) • (1 : Matrix (Fin n) (Fin n) ℝ)).mulVec w := by
      funext i
      simp only [Function.comp, Matrix.mulVec]
      rw [dotProduct_comm, spread_dot he, dotProduct_comm]
      congr 1
      funext j
      have := C85_points cfg X e he g i j
      simp only [hA, hB, Function.comp, Matrix.sub_apply, Matrix.add_apply, Matrix.smul_apply, Matrix.one_apply, Matrix.of_apply, smul_eq_mul, he.eq_iff]
      rw [show kerK cfg (X ∘ e) g i j = kerK cfg X g (e i) (e j) from this]
      ring
    rw [hc, Matrix.sub_mulVec, dotProduct_sub, Matrix.smul_mulVec, Matrix.one_mulVec, dotProduct_smul, smul_eq_mul]
    have : 0 ≤ (noise' - noise) * (w ⬝ᵥ w) := mul_nonneg (by linarith) (Finset.sum_nonneg fun i _ => mul_self_nonneg _)
    linarith
  rw [spread_dot he]
  linarith

theorem explained_diag (cfg : Cfg) {n n' m : ℕ} (X : Fin n' → ℝ) {e : Fin n → Fin n'} (he : Function.Injective e) (Y : Fin m → ℝ) (g : GK ℝ) (hg : Exact g)
    {noise noise' : ℝ} (hn : 0 < noise) (hnn : noise ≤ noise') (j : Fin m) : explained cfg (X ∘ e) Y g noise' j j ≤ explained cfg X Y g noise j j := by
  have := explained_grows cfg X he Y g hg hn hnn (Pi.single j 1)
  have form : ∀ M : Fin m → Fin m → ℝ, Pi.single j 1 ⬝ᵥ Matrix.mulVec M (Pi.single j 1) = M j j := fun M => by
    rw [single_one_dotProduct]
    exact congrFun (Matrix.mulVec_single_one (Matrix.of M) j) j
  rwa [form, form] at this

/-- C120 (partial: over the reals, periodic lengthscales in the exact regime). Predictions from some of the data (in any order) are nowhere more certain than those from
all of them: variances are no less, and quantiles no closer. -/
theorem C120_certain_partial (cfg : Cfg) {ppf : ℝ → ℝ} {n n' m : ℕ} (X y : Fin n' → ℝ) {e : Fin n → Fin n'} (he : Function.Injective e) (g : GK ℝ) (hg : Exact g)
    {noise : ℝ} (hn : 0 < noise) (Y : Fin m → ℝ) {q1 q2 : ℝ} (hp : ppf (q1 / 100) ≤ ppf (q2 / 100)) (rest : List ℝ) (full lik : Bool) :
    ∃ r r', predict cfg ppf X y g noise Y (q1 :: q2 :: rest) full lik = .ok r ∧ predict cfg ppf (X ∘ e) (y ∘ e) g noise Y (q1 :: q2 :: rest) full lik = .ok r' ∧
      ∀ i, CovArr.var r.covariance i ≤ CovArr.var r'.covariance i ∧ r.high i - r.low i ≤ r'.high i - r'.low i := by
  refine ⟨_, _, rfl, rfl, fun i => ?_⟩
  have hx := explained_diag cfg X he Y g hg hn le_rfl i
  constructor
  · cases full <;> simp only [predictCov, CovArr.var, rawVar, rawCov, if_true, if_false, Bool.false_eq_true, and_true] <;> linarith
  · simp only [quantileAt]
    have : Real.sqrt (rawVar cfg X Y g noise i + noise) ≤ Real.sqrt (rawVar cfg (X ∘ e) Y g noise i + noise) := Real.sqrt_le_sqrt (by rw [rawVar, rawVar]; linarith)
    nlinarith

/-- C120 (partial: as above). The same of sums, differences and all other combinations of values at several inputs, whose variances the full covariance tells. -/
theorem C120_combinations_partial (cfg : Cfg) {ppf : ℝ → ℝ} {n n' m : ℕ} (X y : Fin n' → ℝ) {e : Fin n → Fin n'} (he : Function.Injective e) (g : GK ℝ) (hg : Exact g)
    {noise : ℝ} (hn : 0 < noise) (Y : Fin m → ℝ) (q1 q2 : ℝ) (rest : List ℝ) (lik : Bool) (z : Fin m → ℝ) :
    ∃ r r' A B, predict cfg ppf X y g noise Y (q1 :: q2 :: rest) true lik = .ok r ∧ predict cfg ppf (X ∘ e) (y ∘ e) g noise Y (q1 :: q2 :: rest) true lik = .ok r' ∧
      r.covariance = .matrix A ∧ r'.covariance = .matrix B ∧ ∑ i, ∑ j, z i * A i j * z j ≤ ∑ i, ∑ j, z i * B i j * z j := by
  have hc : ∀ {n : ℕ} (X : Fin n → ℝ), predictCov cfg X Y g noise true lik = .matrix (fun i j => rawCov cfg X Y g noise i j + if lik ∧ i = j then noise else 0) :=
    fun X => if_pos rfl
  refine ⟨_, _, _, _, rfl, rfl, hc _, hc _, ?_⟩
  have h := explained_grows cfg X he Y g hg hn le_rfl z
  have form : ∀ M : Fin m → Fin m → ℝ, z ⬝ᵥ Matrix.mulVec M z = ∑ i, ∑ j, z i * M i j * z j := fun M => by
    simp only [dotProduct, Matrix.mulVec, Finset.mul_sum, mul_assoc]
  rw [form, form] at h
  simp only [rawCov, mul_add, add_mul, mul_sub, sub_mul, Finset.sum_add_distrib, Finset.sum_sub_distrib]
  linarith

/-- C120 (partial: as above). Less noise does not make what is predicted of the function less certain. -/
theorem C120_noise_partial (cfg : Cfg) {ppf : ℝ → ℝ} {n m : ℕ} (X y : Fin n → ℝ) (g : GK ℝ) (hg : Exact g) {noise noise' : ℝ} (hn : 0 < noise) (hnn : noise ≤ noise')
    (Y : Fin m → ℝ) (q1 q2 : ℝ) (rest : List ℝ) (full lik : Bool) :
    ∃ r r', predict cfg ppf X y g noise Y (q1 :: q2 :: rest) full lik = .ok r ∧ predict cfg ppf X y g noise' Y (q1 :: q2 :: rest) full lik = .ok r' ∧
      ∀ i, CovArr.var r.covariance i ≤ CovArr.var r'.covariance i := by
  refine ⟨_, _, rfl, rfl, fun i => ?_⟩
  have hx := explained_diag cfg X Function.injective_id Y g hg hn hnn i
  rw [Function.comp_id] at hx
  cases full <;> cases lik <;> simp only [predictCov, CovArr.var, rawVar, rawCov, if_true, if_false, Bool.false_eq_true, and_true, false_and] <;> linarith

/-! ## Examples -/

/-- The first two of three data points, and a kernel with all that is needed. -/
example : Function.Injective (Fin.castSucc : Fin 2 → Fin 3) ∧
    Exact (.comb .sum [.base .LIN { variance := some 2, offset := some 1 }, .base .PER { variance := some 1, period := some 3, lengthscale := some 1 }]) :=
  ⟨Fin.castSucc_injective 2, by simp only [Exact, ExactL, and_true]; constructor <;> (simp; try norm_num)⟩

/-- Quantile functions are increasing. -/
example {ppf : ℝ → ℝ} (hp : StrictMonoOn ppf (Set.Ioo 0 1)) : ppf (2.5 / 100) ≤ ppf (97.5 / 100) :=
  (hp (by constructor <;> norm_num) (by constructor <;> norm_num) (by norm_num)).le

end GPyABCD
