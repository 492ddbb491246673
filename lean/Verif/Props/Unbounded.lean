import Verif.Props.Attain
import Verif.Props.Units
import Verif.Props.KernelTree
import Verif.Spec.Unbounded
import Mathlib.LinearAlgebra.Matrix.SchurComplement
import Mathlib.Analysis.Matrix.Spectrum

/-!
# Property C122: only the least noise bounds the likelihood

`noise` is the variance of the likelihood plus the 1e-8 that GPy adds to it (`Model/Likelihood`). In GPy it is therefore above 1e-8, and `C122_bound_partial` with `δ = 1e-8`
bounds all log-likelihoods; the other theorems, in which the noise may be any positive number, say that nothing else does.
-/

namespace GPyABCD
open scoped Pointwise
open KE Kern Params Sops

/-- The log-likelihood of outputs that are a multiple of the one function the kernel knows. -/
theorem rank_one {n : ℕ} {A : Matrix (Fin n) (Fin n) ℝ} {w : Fin n → ℝ} {v s : ℝ} (hv : 0 < v) (hs : 0 < s) (hA : A = Matrix.of (fun i j => v * (w i * w j)) + s • 1) (c : ℝ) :
    0 < A.det ∧ Real.log A.det = n * Real.log s + Real.log (1 + v * (w ⬝ᵥ w) / s) ∧ ∑ i, A⁻¹.mulVec (fun i => c * w i) i * (c * w i) = c ^ 2 * (w ⬝ᵥ w) / (s + v * (w ⬝ᵥ w)) := by
  have hq : 0 ≤ w ⬝ᵥ w := by
    simp only [dotProduct]
    exact Finset.sum_nonneg fun i _ => mul_self_nonneg _
  have hp : 0 < 1 + v * (w ⬝ᵥ w) / s := by positivity
  have e : A = s • (1 + Matrix.replicateCol Unit (fun i => v / s * w i) * Matrix.replicateRow Unit w) := by
    rw [hA, smul_add, add_comm]
    congr 1
    ext i j
    simp [Matrix.mul_apply]
    field_simp
  have hd : A.det = s ^ n * (1 + v * (w ⬝ᵥ w) / s) := by
    rw [e, Matrix.det_smul, Matrix.det_one_add_replicateCol_mul_replicateRow, Fintype.card_fin]
    congr 2
    simp only [dotProduct, Finset.mul_sum, Finset.sum_div]
    exact Finset.sum_congr rfl fun i _ => by ring
  have hd0 : 0 < A.det := by rw [hd]; positivity
  refine ⟨hd0, by rw [hd, Real.log_mul (by positivity) hp.ne', Real.log_pow], ?_⟩
  have hu : IsUnit A.det := hd0.ne'.isUnit
  have hw : A.mulVec w = (s + v * (w ⬝ᵥ w)) • w := by
    rw [hA, Matrix.add_mulVec, Matrix.smul_mulVec, Matrix.one_mulVec]
    funext i
    simp only [Pi.add_apply, Pi.smul_apply, smul_eq_mul, Matrix.mulVec, Matrix.of_apply, dotProduct]
    rw [add_mul, add_comm, Finset.mul_sum, Finset.sum_mul]
    congr 1
    exact Finset.sum_congr rfl fun j _ => by ring
  have hne : s + v * (w ⬝ᵥ w) ≠ 0 := by positivity
  have hi : A⁻¹.mulVec (fun i => c * w i) = fun i => c / (s + v * (w ⬝ᵥ w)) * w i := by
    have h1 : (fun i => c * w i) = A.mulVec ((c / (s + v * (w ⬝ᵥ w))) • w) := by
      rw [Matrix.mulVec_smul, hw, smul_smul, div_mul_cancel₀ _ hne]
      rfl
    rw [h1, Matrix.mulVec_mulVec, Matrix.nonsing_inv_mul _ hu, Matrix.one_mulVec]
    rfl
  rw [hi]
  generalize hD : s + v * (w ⬝ᵥ w) = D
  simp only [dotProduct]
  rw [Finset.mul_sum, Finset.sum_div]
  exact Finset.sum_congr rfl fun i _ => by ring

theorem unbounded_of (cfg : Cfg) {k : KE} (hk : ∀ b ∈ bases k, b.isSigmoid = false) (ek : noEmpty k = true) {v : ℝ} (hv : 0 < v) {w : ℝ → ℝ}
    (hf : (fun x y => v * (w x * w y)) ∈ den (realI cfg posV) k) {n : ℕ} (hn : 2 ≤ n) {X y : Fin n → ℝ} (hX : Function.Injective X) {c : ℝ} (hy : ∀ i, y i = c * w (X i)) :
    Unbounded cfg k X y := by
  obtain ⟨s, e1, e2⟩ := C84_covariances cfg k hk ek
  obtain ⟨g, q1, q2, q3⟩ := (e2 _).1 hf
  intro B
  obtain rfl : y = fun i => c * w (X i) := funext hy
  set u : Fin n → ℝ := fun i => w (X i) with hu
  have hq : 0 ≤ u ⬝ᵥ u := by
    simp only [dotProduct]
    exact Finset.sum_nonneg fun i _ => mul_self_nonneg _
  set t : ℝ := max 0 (2 * B + n * Real.log (2 * Real.pi) + Real.log (1 + v * (u ⬝ᵥ u)) + c ^ 2 / v + 1) with ht
  have ht0 : 0 ≤ t := le_max_left _ _
  have ht1 : 2 * B + n * Real.log (2 * Real.pi) + Real.log (1 + v * (u ⬝ᵥ u)) + c ^ 2 / v + 1 ≤ t := le_max_right _ _
  set z := Real.exp (-t) with hz
  have hz0 : 0 < z := Real.exp_pos _
  have hz1 : z ≤ 1 := Real.exp_le_one_iff.2 (by linarith)
  have hA : covY cfg X g z = Matrix.of (fun i j => v * (u i * u j)) + z • 1 := by
    rw [covY]
    congr 1
    ext i j
    exact q3 n X hX i j
  obtain ⟨d1, d2, d3⟩ := rank_one hv hz0 hA c
  refine ⟨_, ⟨g, z, ⟨by rw [e1, q1], q2⟩, hz0, d1.ne', rfl⟩, ?_⟩
  have hlog : Real.log (1 + v * (u ⬝ᵥ u) / z) = Real.log (z + v * (u ⬝ᵥ u)) + t := by
    have : 1 + v * (u ⬝ᵥ u) / z = (z + v * (u ⬝ᵥ u)) / z := by field_simp
    rw [this, Real.log_div (by positivity) hz0.ne', hz, Real.log_exp]
    ring
  have h1 : Real.log (z + v * (u ⬝ᵥ u)) ≤ Real.log (1 + v * (u ⬝ᵥ u)) := Real.log_le_log (by positivity) (by linarith)
  have h2 : c ^ 2 * (u ⬝ᵥ u) / (z + v * (u ⬝ᵥ u)) ≤ c ^ 2 / v := by
    rw [div_le_div_iff₀ (by positivity) hv]
    nlinarith [mul_nonneg (sq_nonneg c) hz0.le]
  have h3 : (2 : ℝ) ≤ n := by exact_mod_cast hn
  have h4 : 2 * t ≤ n * t := mul_le_mul_of_nonneg_right h3 ht0
  rw [logLik, d2, d3, hlog, hz, Real.log_exp]
  rw [← hz]
  norm_num
  nlinarith

theorem unbounded_reaches {cfg : Cfg} {k r : KE} {n : ℕ} {X y : Fin n → ℝ} (h : Unbounded cfg k X y) (hr : Reaches cfg X y k r) : Unbounded cfg r X y := by
  intro B
  obtain ⟨_, ⟨g, noise, hg, hn, hd, rfl⟩, hB⟩ := h (B + 1)
  obtain ⟨g', hg', hd', h'⟩ := hr g noise hg hn hd 1 one_pos
  exact ⟨_, ⟨g', noise, hg', hn, hd', rfl⟩, by have := (abs_lt.1 h').1; linarith⟩

/-- C122: but for the least noise there is no bound: on outputs that lie on a line that is not flat, fits with LIN can have any likelihood, however high. -/
theorem C122_line (cfg : Cfg) (hc : cfg.linOffset = true) {n : ℕ} (hn : 2 ≤ n) (X : Fin n → ℝ) (hX : Function.Injective X) {a : ℝ} (ha : a ≠ 0) (d : ℝ) :
    Unbounded cfg (comm .sum [(.LIN, 1)] []) X (fun i => a * X i + d) := by
  refine unbounded_of cfg (by decide) (by decide) one_pos (w := fun x => x - (-(d / a))) ?_ hn hX (c := a) (fun i => by field_simp; ring)
  have : (fun x y => (1 : ℝ) * ((x - (-(d / a))) * (y - (-(d / a))))) ∈ (realI cfg posV).F .LIN := by
    refine ⟨1, mem_posV.2 one_pos, -(d / a), by simp [hc], ?_⟩
    funext x y
    simp only [linearOffset]
    ring
  simpa [den, denL, opFold, Counter.elements] using this

/-- C122: on outputs that are all the same, so can fits with C. -/
theorem C122_constant (cfg : Cfg) {n : ℕ} (hn : 2 ≤ n) (X : Fin n → ℝ) (hX : Function.Injective X) (d : ℝ) : Unbounded cfg (comm .sum [(.C, 1)] []) X (fun _ => d) := by
  refine unbounded_of cfg (by decide) (by decide) one_pos (w := fun _ => 1) ?_ hn hX (c := d) (fun i => by ring)
  have : (fun _ _ => (1 : ℝ) * (1 * 1)) ∈ (realI cfg posV).F .C := ⟨1, mem_posV.2 one_pos, by funext x y; simp [bias]⟩
  simpa [den, denL, opFold, Counter.elements] using this

/-- C122 (partial: not where LIN meets C while it absorbs constants): and so can fits with any sum that has such a term. -/
theorem C122_sums_partial (cfg : Cfg) (k t : KE) (h1 : operand k = true) (h2 : operand t = true) (s1 : ∀ b ∈ bases k, b.isSigmoid = false)
    (s2 : ∀ b ∈ bases t, b.isSigmoid = false) (hl : LinCOK cfg (bases k ++ bases t)) {n : ℕ} (X y : Fin n → ℝ) (hX : Function.Injective X) (h : Unbounded cfg t X y) :
    ∃ r rest, add cfg k t = r :: rest ∧ Unbounded cfg r X y := by
  obtain ⟨r, rest, e, _, h'⟩ := C121_add_partial cfg k t h1 h2 s1 s2 hl X y hX
  exact ⟨r, rest, e, unbounded_reaches h h'⟩

/-- `PER * WN` and `LIN`, on three points of a line. -/
example : operand (comm .prod [(.PER, 1), (.WN, 1)] []) = true ∧ operand (comm .sum [(.LIN, 1)] []) = true ∧
    LinCOK .default (bases (comm .prod [(.PER, 1), (.WN, 1)] []) ++ bases (comm .sum [(.LIN, 1)] [])) ∧
    Unbounded .default (comm .sum [(.LIN, 1)] []) (fun i : Fin 3 => (i : ℝ)) (fun i => 2 * (i : ℝ) + 5) :=
  ⟨by decide, by decide, Or.inr (Or.inl (by decide)), C122_line .default rfl (by decide) _ (fun i j h => by simpa [Fin.ext_iff] using h) two_ne_zero 5⟩

/-- C122: on outputs that are all zero every expression can. -/
theorem C122_zero (cfg : Cfg) (k : KE) (hs : ∀ b ∈ bases k, b.isSigmoid = false) {n : ℕ} (hn : 1 ≤ n) (X : Fin n → ℝ) (h : (attainable cfg k X (fun _ => 0)).Nonempty) :
    Unbounded cfg k X (fun _ => 0) := by
  intro B
  obtain ⟨L, hL⟩ := h
  set t : ℝ := max 0 (B - L + 1) with ht
  have h0 : (0 : ℝ) ≤ t := le_max_left _ _
  have h1 : B - L + 1 ≤ t := le_max_right _ _
  have e := C115_attainable_outputs cfg k hs X (fun _ => 0) (Real.exp_pos (-t))
  simp only [mul_zero, Real.log_exp] at e
  refine ⟨L - n * -t, by rw [e]; exact ⟨L, hL, rfl⟩, ?_⟩
  have h2 : (1 : ℝ) ≤ n := by exact_mod_cast hn
  nlinarith

/-- One point, `C + WN`. -/
example : (attainable .default (comm .sum [(.C, 1), (.WN, 1)] []) (fun i : Fin 1 => (i : ℝ)) (fun _ => 0)).Nonempty := by
  refine ⟨_, .comb .sum [.base .C { variance := some 1 }, .base .WN { variance := some 1 }], 1, ⟨by rfl, by simp [Adm, AdmL, AdmPD]⟩, one_pos, ?_, rfl⟩
  rw [Matrix.det_fin_one]
  norm_num [covY, kerK, kerSum, baseK, matK, varOf, bias, Arr.add]

/-- C122 (partial: periodic lengthscales in the exact regime): only vanishing noise makes this possible. While the noise is at least `δ`, no log-likelihood is above
`-n/2 log(2πδ)`. -/
theorem C122_bound_partial (cfg : Cfg) {n : ℕ} (X y : Fin n → ℝ) (g : GK ℝ) (hg : Exact g) {δ noise : ℝ} (hδ : 0 < δ) (h : δ ≤ noise) :
    logLik cfg X y g noise ≤ -(n / 2) * Real.log (2 * Real.pi * δ) := by
  have hn : 0 < noise := hδ.trans_le h
  have hK := C79_positive_partial cfg X g hg
  have hA : (covY cfg X g noise).PosDef := (C79_regression_partial cfg X g hg hn).1
  have key : ∀ z : Fin n → ℝ, z ⬝ᵥ z = 1 → noise ≤ z ⬝ᵥ (covY cfg X g noise).mulVec z := by
    intro z h1
    have h2 := hK.dotProduct_mulVec_nonneg z
    simp only [star_trivial] at h2
    rw [covY, Matrix.add_mulVec, Matrix.smul_mulVec, Matrix.one_mulVec, dotProduct_add, dotProduct_smul, smul_eq_mul, h1]
    linarith
  have hdet : noise ^ n ≤ (covY cfg X g noise).det := by
    rw [hA.1.det_eq_prod_eigenvalues]
    have : ∀ i, noise ≤ hA.1.eigenvalues i := by
      intro i
      rw [hA.1.eigenvalues_eq i]
      have h1 : (hA.1.eigenvectorBasis i).ofLp ⬝ᵥ (hA.1.eigenvectorBasis i).ofLp = 1 := by
        have := hA.1.eigenvectorBasis.orthonormal.1 i
        rw [EuclideanSpace.norm_eq, Real.sqrt_eq_one] at this
        simpa [dotProduct, sq] using this
      simp only [star_trivial, RCLike.re_to_real]
      exact key _ h1
    calc noise ^ n = ∏ _i : Fin n, noise := by simp
      _ ≤ ∏ i, hA.1.eigenvalues i := Finset.prod_le_prod (fun _ _ => hn.le) fun i _ => this i
      _ = _ := by simp
  have hq : 0 ≤ ∑ i, (covY cfg X g noise)⁻¹.mulVec y i * y i := by
    have := hA.inv.posSemidef.dotProduct_mulVec_nonneg y
    simp only [star_trivial, dotProduct] at this
    exact this.trans_eq (Finset.sum_congr rfl fun i _ => mul_comm _ _)
  have hl : n * Real.log δ ≤ Real.log (covY cfg X g noise).det := by
    rw [← Real.log_pow]
    exact Real.log_le_log (by positivity) ((pow_le_pow_left₀ hδ.le h n).trans hdet)
  rw [logLik, Real.log_mul (by positivity) hδ.ne']
  norm_num
  nlinarith

/-- `LIN * SE`. -/
example : Exact (.comb .prod [.base .LIN { variance := some 2, offset := some 1 }, .base .SE { lengthscale := some 3 }]) := by simp [Exact, ExactL, AdmPD]

end GPyABCD
