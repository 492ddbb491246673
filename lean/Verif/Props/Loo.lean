import Verif.Model.LooGPy
import Verif.Spec.Loo
import Verif.Props.KernelFam
import Verif.Props.Predict
import Verif.Props.Pareto

/-!
# Property C118: the leave-one-out score
-/

namespace GPyABCD
open Kern Params Sops Search

theorem left_out {n : ℕ} (A : Matrix (Fin (n + 1)) (Fin (n + 1)) ℝ) (hA : IsUnit A.det) (i : Fin (n + 1))
    (hB : IsUnit (A.submatrix i.succAbove i.succAbove).det) (y : Fin (n + 1) → ℝ) :
    (A.mulVec (A⁻¹.mulVec y)) i = (fun j => A i (i.succAbove j)) ⬝ᵥ (A.submatrix i.succAbove i.succAbove)⁻¹.mulVec (y ∘ i.succAbove) +
      (A i i - (fun j => A i (i.succAbove j)) ⬝ᵥ (A.submatrix i.succAbove i.succAbove)⁻¹.mulVec (fun j => A (i.succAbove j) i)) * A⁻¹.mulVec y i := by
  set z := A⁻¹.mulVec y with hz
  set B := A.submatrix i.succAbove i.succAbove with hB'
  have hy : A.mulVec z = y := by rw [hz, Matrix.mulVec_mulVec, Matrix.mul_nonsing_inv _ hA, Matrix.one_mulVec]
  have rows : B.mulVec (z ∘ i.succAbove) = y ∘ i.succAbove - z i • (fun j => A (i.succAbove j) i) := by
    funext j
    have h := congrFun hy (i.succAbove j)
    rw [Matrix.mulVec, dotProduct, Fin.sum_univ_succAbove _ i] at h
    simp only [Matrix.mulVec, dotProduct, hB', Matrix.submatrix_apply, Function.comp, Pi.sub_apply, Pi.smul_apply, smul_eq_mul]
    rw [← h]; ring
  have hz' : z ∘ i.succAbove = B⁻¹.mulVec (y ∘ i.succAbove) - z i • B⁻¹.mulVec (fun j => A (i.succAbove j) i) := by
    rw [← Matrix.mulVec_smul, ← Matrix.mulVec_sub, ← rows, Matrix.mulVec_mulVec, Matrix.nonsing_inv_mul _ hB, Matrix.one_mulVec]
  rw [Matrix.mulVec, dotProduct, Fin.sum_univ_succAbove _ i]
  have e : ∑ j, A i (i.succAbove j) * z (i.succAbove j) = (fun j => A i (i.succAbove j)) ⬝ᵥ (z ∘ i.succAbove) := rfl
  rw [e, hz', dotProduct_sub, dotProduct_smul, smul_eq_mul]
  ring

theorem loo_parts (cfg : Cfg) (ppf : ℝ → ℝ) {n : ℕ} (X y : Fin (n + 1) → ℝ) (g : GK ℝ) (hg : Exact g) {noise : ℝ} (hn : 0 < noise) (i : Fin (n + 1)) :
    ∃ u, withoutPoint cfg ppf X y g noise i = .ok u ∧ 0 < u.var ∧ (covY cfg X g noise)⁻¹ i i = 1 / u.var ∧
      (covY cfg X g noise)⁻¹.mulVec y i = (y i - u.mean 0) / u.var := by
  set A := covY cfg X g noise with hA
  have pA := (C79_regression_partial cfg X g hg hn).1
  have pB := (C79_regression_partial cfg (X ∘ i.succAbove) g hg hn).1
  have hB : A.submatrix i.succAbove i.succAbove = Matrix.of (kerK cfg (X ∘ i.succAbove) g) + noise • (1 : Matrix (Fin n) (Fin n) ℝ) := by
    ext a b
    simp only [hA, covY, Matrix.submatrix_apply, Matrix.add_apply, Matrix.of_apply, Matrix.smul_apply, Matrix.one_apply, smul_eq_mul]
    rw [show kerK cfg (X ∘ i.succAbove) g a b = kerK cfg X g (i.succAbove a) (i.succAbove b) from C85_points cfg X _ Fin.succAbove_right_injective g a b]
    simp only [Fin.succAbove_right_injective.eq_iff]
  have uA : IsUnit A.det := (Matrix.isUnit_iff_isUnit_det _).1 pA.isUnit
  have uB : IsUnit (A.submatrix i.succAbove i.succAbove).det := by rw [hB]; exact (Matrix.isUnit_iff_isUnit_det _).1 pB.isUnit
  have cross : ∀ j, kerK2 cfg (X ∘ i.succAbove) (fun _ : Fin 1 => X i) g j 0 = A (i.succAbove j) i := by
    intro j
    have := kerK2_comp cfg X i.succAbove (fun _ : Fin 1 => i) (i := j) (j := 0) (Fin.succAbove_ne i j) g
    rw [show X ∘ (fun _ : Fin 1 => i) = fun _ => X i from rfl] at this
    rw [this]
    simp [hA, covY, Matrix.one_apply, Fin.succAbove_ne]
  have symm : ∀ a b, A a b = A b a := fun a b => by
    have := pA.1.apply a b
    simpa [hA, covY] using this.symm
  have cross' : (fun j => A i (i.succAbove j)) = fun j => kerK2 cfg (X ∘ i.succAbove) (fun _ : Fin 1 => X i) g j 0 := by funext j; rw [cross, symm]
  have hm : rawMean cfg (X ∘ i.succAbove) (y ∘ i.succAbove) (fun _ : Fin 1 => X i) g noise 0 =
      (fun j => A i (i.succAbove j)) ⬝ᵥ (A.submatrix i.succAbove i.succAbove)⁻¹.mulVec (y ∘ i.succAbove) := by
    rw [rawMean, hB, cross']; rfl
  have hv : rawVar cfg (X ∘ i.succAbove) (fun _ : Fin 1 => X i) g noise 0 + noise =
      A i i - (fun j => A i (i.succAbove j)) ⬝ᵥ (A.submatrix i.succAbove i.succAbove)⁻¹.mulVec (fun j => A (i.succAbove j) i) := by
    have e1 : kerDiag cfg (fun _ : Fin 1 => X i) g 0 + noise = A i i := by
      rw [C79_diagonal cfg _ g (Exact.posLength g hg), show kerK cfg (fun _ : Fin 1 => X i) g 0 0 = kerK cfg X g i i from
        C85_points cfg X (fun _ : Fin 1 => i) (Function.injective_of_subsingleton _) g 0 0]
      simp [hA, covY]
    have e2 : explained cfg (X ∘ i.succAbove) (fun _ : Fin 1 => X i) g noise 0 0 =
        (fun j => A i (i.succAbove j)) ⬝ᵥ (A.submatrix i.succAbove i.succAbove)⁻¹.mulVec (fun j => A (i.succAbove j) i) := by
      rw [explained, ← hB, Matrix.mul_assoc, Matrix.mul_apply, dotProduct]
      refine Finset.sum_congr rfl fun j _ => ?_
      rw [Matrix.transpose_apply, Matrix.of_apply, cross, symm, Matrix.mul_apply, Matrix.mulVec, dotProduct]
      simp only [Matrix.of_apply, cross]
    rw [rawVar, e2, ← e1]; ring
  set s := rawVar cfg (X ∘ i.succAbove) (fun _ : Fin 1 => X i) g noise 0 + noise with hs
  have solve : ∀ w : Fin (n + 1) → ℝ, w i = (fun j => A i (i.succAbove j)) ⬝ᵥ (A.submatrix i.succAbove i.succAbove)⁻¹.mulVec (w ∘ i.succAbove) + s * A⁻¹.mulVec w i := by
    intro w
    have := left_out A uA i uB w
    rwa [Matrix.mulVec_mulVec, Matrix.mul_nonsing_inv _ uA, Matrix.one_mulVec, ← hv] at this
  have diag : 1 = s * A⁻¹ i i := by
    have := solve (Pi.single i 1)
    have h0 : (Pi.single i (1 : ℝ) : Fin (n + 1) → ℝ) ∘ i.succAbove = 0 := by funext j; simp [Fin.succAbove_ne]
    rw [h0, Matrix.mulVec_zero, dotProduct_zero, zero_add, Pi.single_eq_same, Matrix.mulVec_single_one] at this
    exact this
  have hpos : 0 < A⁻¹ i i := by
    have := pA.inv.diag_pos (i := i)
    exact this
  have spos : 0 < s := by
    by_contra h
    have := mul_nonpos_of_nonpos_of_nonneg (not_lt.1 h) hpos.le
    linarith
  refine ⟨_, rfl, ?_, ?_, ?_⟩
  · simpa [predictCov, Prediction.var] using spos
  · simp only [predictCov, Prediction.var, Bool.false_eq_true, if_false, if_true]
    rw [eq_div_iff spos.ne', mul_comm]; exact diag.symm
  · have := solve y
    rw [← hm] at this
    simp only [predictCov, Prediction.var, Bool.false_eq_true, if_false, if_true]
    rw [eq_div_iff spos.ne']
    linarith

/-- C118 (partial: over the reals, periodic lengthscales in the exact regime). What `LOO` returns for a data point is the logarithm of the density that the prediction
of that point from all the others gives to what was observed there. -/
theorem C118_points_partial (cfg : Cfg) (ppf : ℝ → ℝ) {n : ℕ} (X y : Fin (n + 1) → ℝ) (g : GK ℝ) (hg : Exact g) {noise : ℝ} (hn : 0 < noise) (i : Fin (n + 1)) :
    ∃ u, withoutPoint cfg ppf X y g noise i = .ok u ∧ 0 < u.density (y i) ∧ looGPy cfg X y g noise i = Real.log (u.density (y i)) := by
  obtain ⟨u, hu, hs, h1, h2⟩ := loo_parts cfg ppf X y g hg hn i
  have hd : u.density (y i) = (Real.sqrt (2 * Real.pi * u.var))⁻¹ * Real.exp (-(y i - u.mean 0) ^ 2 / (2 * u.var)) := by
    rw [Prediction.density, ProbabilityTheory.gaussianPDFReal, Real.coe_toNNReal _ hs.le]
  have hp : 0 < 2 * Real.pi * u.var := by have := Real.pi_pos; positivity
  refine ⟨u, hu, by rw [hd]; positivity, ?_⟩
  rw [hd, Real.log_mul (by positivity) (by positivity), Real.log_exp, Real.log_inv, Real.log_sqrt hp.le, Real.log_mul (by have := Real.pi_pos; positivity) hs.ne',
    looGPy, h1, h2, Real.log_div one_ne_zero hs.ne', Real.log_one]
  field_simp
  ring

/-- The densities of all data points, each predicted from the others. -/
noncomputable def looDens (cfg : Cfg) (ppf : ℝ → ℝ) {n : ℕ} (X y : Fin (n + 1) → ℝ) (g : GK ℝ) (noise : ℝ) : List ℝ :=
  List.ofFn fun i => match withoutPoint cfg ppf X y g noise i with
    | .ok u => u.density (y i)
    | .error _ => 0

theorem looDens_log (cfg : Cfg) (ppf : ℝ → ℝ) {n : ℕ} (X y : Fin (n + 1) → ℝ) (g : GK ℝ) (hg : Exact g) {noise : ℝ} (hn : 0 < noise) :
    List.ofFn (looGPy cfg X y g noise) = (looDens cfg ppf X y g noise).map Real.log ∧ (looDens cfg ppf X y g noise).length = n + 1 ∧
      ∀ x ∈ looDens cfg ppf X y g noise, 0 < x := by
  refine ⟨?_, by simp [looDens], fun x hx => ?_⟩
  · rw [looDens, List.map_ofFn]
    congr 1
    funext i
    obtain ⟨u, hu, -, h⟩ := C118_points_partial cfg ppf X y g hg hn i
    simp only [Function.comp, hu, h]
  · rw [looDens, List.mem_ofFn] at hx
    obtain ⟨i, rfl⟩ := hx
    obtain ⟨u, hu, h, -⟩ := C118_points_partial cfg ppf X y g hg hn i
    simpa only [hu] using h

/-- C118 (partial: as above). `LA_LOO` is the mean of these: of two models of the same data the one with the greater score predicts the data points better from the
others. -/
theorem C118_score_partial (cfg : Cfg) (ppf : ℝ → ℝ) {n : ℕ} (X y : Fin (n + 1) → ℝ) (g g' : GK ℝ) (hg : Exact g) (hg' : Exact g') {noise noise' : ℝ}
    (hn : 0 < noise) (hn' : 0 < noise') : laLooOf cfg X y g noise < laLooOf cfg X y g' noise' ↔
      (looDens cfg ppf X y g noise).prod < (looDens cfg ppf X y g' noise').prod := by
  obtain ⟨a1, a2, a3⟩ := looDens_log cfg ppf X y g hg hn
  obtain ⟨b1, b2, b3⟩ := looDens_log cfg ppf X y g' hg' hn'
  rw [laLooOf, laLooOf, a1, b1]
  exact (C107_loo _ _ a3 b3 (a2.trans b2.symm) fun e => by rw [e] at a2; simp at a2).2

/-- C118 is false of searches: with `LA_LOO` as the utility function a search lists the models by how well they predict the data points from the others, worst first. -/
theorem C118_search_worst_first (cfg : Cfg) (ppf : ℝ → ℝ) {n : ℕ} (X y : Fin (n + 1) → ℝ) {K ε : Type} (E : Env K {m : GK ℝ × ℝ // Exact m.1 ∧ 0 < m.2} ℝ ε)
    (hle : ∀ a b, E.le a b = true ↔ a ≤ b) (hs : ∀ d, E.score d = laLooOf cfg X y d.1.1 d.1.2) (v : Bool) (starts : List K) (rounds : Int) (beam : BeamArg)
    (s : St K {m : GK ℝ × ℝ // Exact m.1 ∧ 0 < m.2} ℝ) (h : explore E v starts rounds beam = .ok s) :
    s.sorted.Pairwise (fun a b => (looDens cfg ppf X y a.data.1.1 a.data.1.2).prod ≤ (looDens cfg ppf X y b.data.1.1 b.data.1.2).prod) :=
  C107_loo_logs E hle (fun d => looDens cfg ppf X y d.1.1 d.1.2) (n + 1) (Nat.succ_pos _) (fun d => (looDens_log cfg ppf X y _ d.2.1 d.2.2).2)
    (fun d => by rw [hs, laLooOf, (looDens_log cfg ppf X y _ d.2.1 d.2.2).1]) v starts rounds beam s h

/-! ## Examples -/

/-- A fitted kernel with all that is needed, and a search by `LA_LOO` over such models that returns. -/
example (cfg : Cfg) (X y : Fin 3 → ℝ) : ∃ (d : ℕ → {m : GK ℝ × ℝ // Exact m.1 ∧ 0 < m.2}) (s : St ℕ {m : GK ℝ × ℝ // Exact m.1 ∧ 0 < m.2} ℝ),
    (d 1).1 ≠ (d 2).1 ∧ explore (scoredEnv d (fun d => laLooOf cfg X y d.1.1 d.1.2)) false [1, 2] (3 : ℕ) (.int 2) = .ok s := by
  let d : ℕ → {m : GK ℝ × ℝ // Exact m.1 ∧ 0 < m.2} := fun k =>
    ⟨(.comb .sum [.base .LIN { variance := some 2, offset := some 1 }, .base .PER { variance := some 1, period := some 3, lengthscale := some 1 }], (k : ℝ) + 1),
      by simp only [Exact, ExactL, and_true]; constructor <;> (simp; try norm_num), by positivity⟩
  obtain ⟨s, h⟩ := C31_succeeds (scoredEnv d (fun d => laLooOf cfg X y d.1.1 d.1.2)) (fun _ k => ⟨d k, rfl⟩) [1, 2] 3 (.int 2) (by simp) (by simp)
  exact ⟨d, s, by simp [d], h⟩

end GPyABCD
