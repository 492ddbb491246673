import Verif.Model.Predict
import Verif.Props.KernelFam
import Mathlib.Probability.Distributions.Gaussian.Real
import Mathlib.Probability.CDF

/-!
# Property C96: predictions

C96: the four entries of the dictionary that `predict` returns belong together: `low_quantile` and `high_quantile` are the asked quantiles of the normal distribution
that has the returned mean and variance, and the variances are the diagonal of the matrix that `full_cov` returns.
-/

namespace GPyABCD
open Kern Params Sops ProbabilityTheory MeasureTheory

/-- What `norm.ppf` is for: on the open unit interval, the inverse of the distribution function of the standard normal distribution. -/
def IsPpf (ppf : ℝ → ℝ) : Prop := ∀ p, 0 < p → p < 1 → cdf (gaussianReal 0 1) (ppf p) = p

/-- The diagonal of what is under `'covariance'`. -/
def CovArr.var {m : ℕ} : CovArr m → Fin m → ℝ
  | .column v => v
  | .matrix A => fun i => A i i

theorem cdf_scaled {s : ℝ} (hs : 0 < s) (μ x : ℝ) :
    cdf (gaussianReal μ (Real.toNNReal s)) (x * Real.sqrt s + μ) = cdf (gaussianReal 0 1) x := by
  have h1 : (gaussianReal 0 1).map (fun z => z * Real.sqrt s + μ) = gaussianReal μ (Real.toNNReal s) := by
    have e : (fun z : ℝ => z * Real.sqrt s + μ) = (fun z => z + μ) ∘ (fun z => z * Real.sqrt s) := rfl
    rw [e, ← Measure.map_map (by fun_prop) (by fun_prop), gaussianReal_map_mul_const, gaussianReal_map_add_const]
    congr 1
    · simp
    · ext
      simp [Real.sq_sqrt hs.le, Real.coe_toNNReal _ hs.le]
  rw [← h1]
  have hp : IsProbabilityMeasure ((gaussianReal 0 1).map (fun z => z * Real.sqrt s + μ)) := by rw [h1]; infer_instance
  rw [cdf_eq_real, cdf_eq_real, Measure.real, Measure.real, Measure.map_apply (by fun_prop) measurableSet_Iic]
  congr 2
  ext z
  have hq : 0 < Real.sqrt s := Real.sqrt_pos.2 hs
  simp only [Set.mem_preimage, Set.mem_Iic]
  constructor
  · intro h; nlinarith
  · intro h; nlinarith

theorem cdf_half : cdf (gaussianReal 0 1) 0 = 1 / 2 := by
  have hm : (gaussianReal 0 1).map (fun x => -x) = gaussianReal 0 1 := by rw [gaussianReal_map_neg, neg_zero]
  have h1 : (gaussianReal 0 1).real (Set.Ici 0) = (gaussianReal 0 1).real (Set.Iic 0) := by
    conv_rhs => rw [← hm]
    rw [Measure.real, Measure.real, Measure.map_apply (by fun_prop) measurableSet_Iic]
    congr 2
    ext x
    simp
  have h2 : (gaussianReal 0 1).real (Set.Ioi 0) = (gaussianReal 0 1).real (Set.Ici 0) := by
    have := nullSingletonClass_gaussianReal (μ := 0) (v := 1) one_ne_zero
    rw [Measure.real, Measure.real, measure_congr Ioi_ae_eq_Ici]
  have h3 : (gaussianReal 0 1).real (Set.Iic (0 : ℝ)) + (gaussianReal 0 1).real (Set.Iic (0 : ℝ))ᶜ = 1 := by
    rw [measureReal_add_measureReal_compl measurableSet_Iic]; simp
  rw [Set.compl_Iic, h2, h1] at h3
  rw [cdf_eq_real]
  linarith

theorem ppf_lt {ppf : ℝ → ℝ} (h : IsPpf ppf) {p q : ℝ} (h0 : 0 < p) (hpq : p < q) (h1 : q < 1) : ppf p < ppf q := by
  by_contra hc
  have := monotone_cdf (gaussianReal 0 1) (not_lt.1 hc)
  rw [h p h0 (hpq.trans h1), h q (h0.trans hpq) h1] at this
  linarith

theorem ppf_neg {ppf : ℝ → ℝ} (h : IsPpf ppf) {p : ℝ} (h0 : 0 < p) (h1 : p < 1 / 2) : ppf p < 0 := by
  by_contra hc
  have := monotone_cdf (gaussianReal 0 1) (not_lt.1 hc)
  rw [h p h0 (h1.trans (by norm_num)), cdf_half] at this
  linarith

theorem ppf_pos {ppf : ℝ → ℝ} (h : IsPpf ppf) {p : ℝ} (h0 : 1 / 2 < p) (h1 : p < 1) : 0 < ppf p := by
  by_contra hc
  have := monotone_cdf (gaussianReal 0 1) (not_lt.1 hc)
  rw [h p (by linarith) h1, cdf_half] at this
  linarith

theorem cdf_lt {x y : ℝ} (h : x < y) : cdf (gaussianReal 0 1) x < cdf (gaussianReal 0 1) y := by
  refine lt_of_le_of_ne (monotone_cdf _ h.le) fun he => ?_
  have h0 : gaussianReal 0 1 (Set.Ioc x y) = 0 := by
    have := StieltjesFunction.measure_Ioc (cdf (gaussianReal 0 1)) x y
    rw [measure_cdf] at this
    rw [this, he, sub_self, ENNReal.ofReal_zero]
  have := gaussianReal_absolutelyContinuous' 0 one_ne_zero h0
  rw [Real.volume_Ioc, ENNReal.ofReal_eq_zero] at this
  linarith

/-- There is such a function. -/
theorem exists_ppf : ∃ ppf, IsPpf ppf := by
  have hc : Continuous (cdf (gaussianReal 0 1)) := by
    rw [continuous_iff_continuousAt]
    intro x
    rw [(monotone_cdf _).continuousAt_iff_leftLim_eq_rightLim, StieltjesFunction.rightLim_eq]
    have := nullSingletonClass_gaussianReal (μ := 0) (v := 1) one_ne_zero
    have h := StieltjesFunction.measure_singleton (cdf (gaussianReal 0 1)) x
    rw [measure_cdf, measure_singleton, eq_comm, ENNReal.ofReal_eq_zero] at h
    have := (monotone_cdf (gaussianReal 0 1)).leftLim_le (le_refl x)
    linarith
  have : ∀ p : ℝ, ∃ x, 0 < p → p < 1 → cdf (gaussianReal 0 1) x = p := by
    intro p
    by_cases hp : 0 < p ∧ p < 1
    · obtain ⟨x, hx⟩ := mem_range_of_exists_le_of_exists_ge hc
        (((tendsto_cdf_atBot (gaussianReal 0 1)).eventually_lt_const hp.1).exists.imp fun _ => le_of_lt)
        (((tendsto_cdf_atTop (gaussianReal 0 1)).eventually_const_lt hp.2).exists.imp fun _ => le_of_lt)
      exact ⟨x, fun _ _ => hx⟩
    · exact ⟨0, fun h h' => absurd ⟨h, h'⟩ hp⟩
  choose f hf using this
  exact ⟨f, hf⟩

mutual
theorem Exact.posLength : (g : GK ℝ) → Exact g → PosLength g
  | .base _ _, h => fun hb l hl => (h.2 hb l hl).1
  | .comb _ parts, h => ExactL.posLength parts h
  | .change _ _ l r, h => ⟨Exact.posLength l h.1, Exact.posLength r h.2⟩
theorem ExactL.posLength : (gs : List (GK ℝ)) → ExactL gs → PosLengthL gs
  | [], _ => trivial
  | g :: gs, h => ⟨Exact.posLength g h.1, ExactL.posLength gs h.2⟩
end

theorem rawCov_eq (cfg : Cfg) {n m : ℕ} (X : Fin n → ℝ) (Y : Fin m → ℝ) (g : GK ℝ) (noise : ℝ) : Matrix.of (rawCov cfg X Y g noise) = predCov cfg X Y g noise := by
  ext i j
  rfl

theorem rawVar_eq (cfg : Cfg) {n m : ℕ} (X : Fin n → ℝ) (Y : Fin m → ℝ) (g : GK ℝ) (hg : PosLength g) (noise : ℝ) (i : Fin m) :
    rawVar cfg X Y g noise i = rawCov cfg X Y g noise i i := by
  rw [rawVar, rawCov, C79_diagonal cfg Y g hg]

theorem rawVar_nonneg (cfg : Cfg) {n m : ℕ} (X : Fin n → ℝ) (Y : Fin m → ℝ) (g : GK ℝ) (hg : Exact g) {noise : ℝ} (hn : 0 < noise) (i : Fin m) :
    0 ≤ rawVar cfg X Y g noise i := by
  rw [rawVar_eq cfg X Y g (Exact.posLength g hg)]
  have h := (C85_predictions_partial cfg X Y g hg hn).1
  rw [← rawCov_eq] at h
  exact h.diag_nonneg (i := i)

/-- C96 (partial: `Exact` as in `C79_positive_partial`; and see `C96_latent`). What `predict` returns belongs together, when the noise is included as it is unless
asked otherwise: no returned variance is negative (none is below the noise), and at every new input the returned low and high quantiles are the asked quantiles of
the normal distribution with the returned mean and variance. -/
theorem C96_sound_partial (cfg : Cfg) {n m : ℕ} {ppf : ℝ → ℝ} (hp : IsPpf ppf) (X y : Fin n → ℝ) (g : GK ℝ) (hg : Exact g) {noise : ℝ} (hn : 0 < noise)
    (Y : Fin m → ℝ) {q1 q2 : ℝ} (rest : List ℝ) (h1 : 0 < q1 ∧ q1 < 100) (h2 : 0 < q2 ∧ q2 < 100) (full : Bool) :
    ∃ r, predict cfg ppf X y g noise Y (q1 :: q2 :: rest) full = .ok r ∧ ∀ i, noise ≤ CovArr.var r.covariance i ∧
      cdf (gaussianReal (r.mean i) (Real.toNNReal (CovArr.var r.covariance i))) (r.low i) = q1 / 100 ∧
      cdf (gaussianReal (r.mean i) (Real.toNNReal (CovArr.var r.covariance i))) (r.high i) = q2 / 100 := by
  refine ⟨_, rfl, fun i => ?_⟩
  have hv := rawVar_nonneg cfg X Y g hg hn i
  have e : CovArr.var (predictCov cfg X Y g noise full true) i = rawVar cfg X Y g noise i + noise := by
    cases full
    · simp [predictCov, CovArr.var]
    · simp [predictCov, CovArr.var, rawVar_eq cfg X Y g (Exact.posLength g hg)]
  simp only [e, quantileAt]
  refine ⟨by linarith, ?_, ?_⟩
  · rw [cdf_scaled (by linarith), hp _ (by linarith [h1.1]) (by linarith [h1.2])]
  · rw [cdf_scaled (by linarith), hp _ (by linarith [h2.1]) (by linarith [h2.2])]

/-- C96 (partial: `Exact`). Quantiles asked in ascending order come out in ascending order, and if they are asked on both sides of 50, as by default, the mean is
strictly between them; whatever the other options. -/
theorem C96_order_partial (cfg : Cfg) {n m : ℕ} {ppf : ℝ → ℝ} (hp : IsPpf ppf) (X y : Fin n → ℝ) (g : GK ℝ) (hg : Exact g) {noise : ℝ} (hn : 0 < noise)
    (Y : Fin m → ℝ) {q1 q2 : ℝ} (rest : List ℝ) (h1 : 0 < q1) (h12 : q1 < q2) (h2 : q2 < 100) (full lik : Bool) :
    ∃ r, predict cfg ppf X y g noise Y (q1 :: q2 :: rest) full lik = .ok r ∧ ∀ i, r.low i < r.high i ∧
      (q1 < 50 → 50 < q2 → r.low i < r.mean i ∧ r.mean i < r.high i) := by
  refine ⟨_, rfl, fun i => ?_⟩
  have hv := rawVar_nonneg cfg X Y g hg hn i
  have hs : 0 < Real.sqrt (rawVar cfg X Y g noise i + noise) := Real.sqrt_pos.2 (by linarith)
  have hl := ppf_lt hp (p := q1 / 100) (q := q2 / 100) (by linarith) (by linarith) (by linarith)
  simp only [quantileAt]
  refine ⟨by nlinarith, fun ha hb => ⟨?_, ?_⟩⟩
  · have := ppf_neg hp (p := q1 / 100) (by linarith) (by linarith)
    nlinarith
  · have := ppf_pos hp (p := q2 / 100) (by linarith) (by linarith)
    nlinarith

/-- C96. With `full_cov`, the diagonal of the returned matrix has the variances that are returned without it; nothing else in the dictionary changes. -/
theorem C96_diagonal (cfg : Cfg) {n m : ℕ} (ppf : ℝ → ℝ) (X y : Fin n → ℝ) (g : GK ℝ) (hg : PosLength g) (noise : ℝ) (Y : Fin m → ℝ) (qs : List ℝ) (lik : Bool)
    (r : Prediction m) (h : predict cfg ppf X y g noise Y qs true lik = .ok r) :
    ∃ r', predict cfg ppf X y g noise Y qs false lik = .ok r' ∧ r'.mean = r.mean ∧ r'.low = r.low ∧ r'.high = r.high ∧
      r'.covariance = .column (CovArr.var r.covariance) := by
  unfold predict at h ⊢
  rcases qs with _ | ⟨q1, _ | ⟨q2, qs⟩⟩
  · cases h
  · cases h
  · simp only [List.map_cons, Except.ok.injEq] at h ⊢
    subst h
    refine ⟨_, rfl, rfl, rfl, rfl, ?_⟩
    show predictCov cfg X Y g noise false lik = _
    simp only [predictCov, CovArr.var, Bool.false_eq_true, if_false, if_true]
    congr 1
    funext i
    rw [rawVar_eq cfg X Y g hg]
    cases lik <;> simp

/-- C96. Fewer than two quantiles make `predict` raise `IndexError`; of more than two only the first two are returned. -/
theorem C96_quantiles (cfg : Cfg) {n m : ℕ} (ppf : ℝ → ℝ) (X y : Fin n → ℝ) (g : GK ℝ) (noise : ℝ) (Y : Fin m → ℝ) (qs : List ℝ) (full lik : Bool) :
    (predict cfg ppf X y g noise Y qs full lik = .error .index ↔ qs.length < 2) ∧
      predict cfg ppf X y g noise Y qs full lik = predict cfg ppf X y g noise Y (qs.take 2) full lik := by
  rcases qs with _ | ⟨q1, _ | ⟨q2, qs⟩⟩ <;> simp [predict]

/-- C96, the violation: the quantiles always include the noise. With `include_likelihood = False` the returned covariance does not: the dictionary is otherwise the
same. -/
theorem C96_latent (cfg : Cfg) {n m : ℕ} {ppf : ℝ → ℝ} (X y : Fin n → ℝ) (g : GK ℝ) {noise : ℝ} (Y : Fin m → ℝ) (qs : List ℝ) (full : Bool) (r : Prediction m)
    (h : predict cfg ppf X y g noise Y qs full false = .ok r) :
    ∃ r', predict cfg ppf X y g noise Y qs full true = .ok r' ∧ r'.low = r.low ∧ r'.high = r.high ∧ r'.mean = r.mean ∧
      ∀ i, CovArr.var r'.covariance i = CovArr.var r.covariance i + noise := by
  unfold predict at h ⊢
  rcases qs with _ | ⟨q1, _ | ⟨q2, qs⟩⟩
  · cases h
  · cases h
  · simp only [List.map_cons, Except.ok.injEq] at h ⊢
    subst h
    refine ⟨_, rfl, rfl, rfl, rfl, fun i => ?_⟩
    cases full <;> simp [predictCov, CovArr.var]

/-- C96, the violation, what it means: with `include_likelihood = False` the returned low quantile is never the asked quantile (below 50) of the normal distribution with the
returned mean and variance. It is too low: the distribution has strictly less than the asked probability below it. -/
theorem C96_latent_wrong (cfg : Cfg) {n m : ℕ} {ppf : ℝ → ℝ} (hp : IsPpf ppf) (X y : Fin n → ℝ) (g : GK ℝ) (hg : Exact g) {noise : ℝ} (hn : 0 < noise)
    (Y : Fin m → ℝ) {q1 q2 : ℝ} (rest : List ℝ) (h1 : 0 < q1 ∧ q1 < 50) (full : Bool) (r : Prediction m)
    (h : predict cfg ppf X y g noise Y (q1 :: q2 :: rest) full false = .ok r) (i : Fin m) :
    cdf (gaussianReal (r.mean i) (Real.toNNReal (CovArr.var r.covariance i))) (r.low i) < q1 / 100 := by
  simp only [predict, List.map_cons, Except.ok.injEq] at h
  subst h
  have hv := rawVar_nonneg cfg X Y g hg hn i
  have e : CovArr.var (predictCov cfg X Y g noise full false) i = rawVar cfg X Y g noise i := by
    cases full
    · simp [predictCov, CovArr.var]
    · simp [predictCov, CovArr.var, rawVar_eq cfg X Y g (Exact.posLength g hg)]
  have hneg := ppf_neg hp (p := q1 / 100) (by linarith) (by linarith)
  have hq := hp (q1 / 100) (by linarith) (by linarith)
  simp only [e, quantileAt]
  generalize rawVar cfg X Y g noise i = v at hv ⊢
  generalize rawMean cfg X y Y g noise i = μ
  rcases hv.eq_or_lt with rfl | hv
  · rw [Real.toNNReal_zero, gaussianReal_zero_var, cdf_eq_real, Measure.real, Measure.dirac_apply' _ measurableSet_Iic, Set.indicator_of_notMem]
    · simp; linarith
    · have : 0 < Real.sqrt (0 + noise) := Real.sqrt_pos.2 (by linarith)
      simp only [Set.mem_Iic, not_le]
      nlinarith
  · have hs : 0 < Real.sqrt v := Real.sqrt_pos.2 hv
    have hlt : Real.sqrt v < Real.sqrt (v + noise) := Real.sqrt_lt_sqrt hv.le (by linarith)
    have e2 : ppf (q1 / 100) * Real.sqrt (v + noise) + μ = (ppf (q1 / 100) * (Real.sqrt (v + noise) / Real.sqrt v)) * Real.sqrt v + μ := by
      field_simp
    rw [e2, cdf_scaled hv, ← hq]
    rw [hq]
    conv_rhs => rw [← hq]
    refine cdf_lt ?_
    have : 1 < Real.sqrt (v + noise) / Real.sqrt v := by rw [one_lt_div hs]; exact hlt
    nlinarith

/-- A fitted kernel and noise that meet the hypotheses; and the default quantiles do. -/
example : Exact (.comb .sum [.base .LIN { variance := some 2, offset := some 1 }, .base .PER { lengthscale := some 1 }]) ∧ (0 : ℝ) < 1 / 10 ∧
    ((0 : ℝ) < 2.5 ∧ (2.5 : ℝ) < 50) ∧ (50 : ℝ) < 97.5 ∧ (97.5 : ℝ) < 100 := by
  refine ⟨?_, by norm_num, by norm_num, by norm_num, by norm_num⟩
  simp [Exact, ExactL]; norm_num

example : ∃ ppf, IsPpf ppf := exists_ppf

end GPyABCD
