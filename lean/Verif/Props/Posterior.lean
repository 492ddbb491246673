import Verif.Spec.Posterior
import Verif.Lemmas.Posterior
import Verif.Props.Predict

/-!
# Property C110: predictions are what the model implies

C110: what `predict` returns is the conditional distribution, given the data, of new observations under the model that has been fitted; so a new observation falls below the
returned quantile with the asked probability.
-/

namespace GPyABCD
open Kern Params Sops ProbabilityTheory MeasureTheory WithLp

section Posterior
variable {Ω : Type} [MeasurableSpace Ω] {P : Measure Ω} {n m : ℕ} {f e : Fin (n + m) → Ω → ℝ} {cfg : Cfg} {X : Fin n → ℝ} {Y : Fin m → ℝ} {g : GK ℝ} {noise : ℝ}

theorem Sampled.gaussian (h : Sampled P cfg (Fin.append X Y) g noise f e) (lik : Bool) :
    HasGaussianLaw (fun ω => ((fun a => observed f e ω a), (fun i => unseen f e lik ω i))) P := by
  let V := Fin (n + m) → ℝ
  have := h.joint.map_fun ((ContinuousLinearMap.pi fun a : Fin n =>
      (ContinuousLinearMap.proj (R := ℝ) (φ := fun _ : Fin (n + m) => ℝ) (Fin.castAdd m a)).comp (ContinuousLinearMap.fst ℝ V V) +
      (ContinuousLinearMap.proj (R := ℝ) (φ := fun _ : Fin (n + m) => ℝ) (Fin.castAdd m a)).comp (ContinuousLinearMap.snd ℝ V V)).prod
    (ContinuousLinearMap.pi fun i : Fin m =>
      (ContinuousLinearMap.proj (R := ℝ) (φ := fun _ : Fin (n + m) => ℝ) (Fin.natAdd n i)).comp (ContinuousLinearMap.fst ℝ V V) +
      if lik then (ContinuousLinearMap.proj (R := ℝ) (φ := fun _ : Fin (n + m) => ℝ) (Fin.natAdd n i)).comp (ContinuousLinearMap.snd ℝ V V) else 0))
  cases lik <;> exact this

theorem Sampled.f_mem (h : Sampled P cfg (Fin.append X Y) g noise f e) (i : Fin (n + m)) : MemLp (f i) 2 P := (h.joint.fst.eval i).memLp_two
theorem Sampled.e_mem (h : Sampled P cfg (Fin.append X Y) g noise f e) (i : Fin (n + m)) : MemLp (e i) 2 P := (h.joint.snd.eval i).memLp_two

/-- The noise that counts at an input. -/
def noiseAt (e : Fin (n + m) → Ω → ℝ) (c : Bool) (i : Fin (n + m)) : Ω → ℝ := fun ω => if c then e i ω else 0

section Sum
variable (h : Sampled P cfg (Fin.append X Y) g noise f e) (c d : Bool) (i j : Fin (n + m))
include h

theorem Sampled.noise_mem : MemLp (noiseAt e c i) 2 P := by
  cases c
  · exact MemLp.zero
  · exact h.e_mem i

theorem Sampled.cov_f_noise : cov[f i, noiseAt e d j; P] = 0 := by
  cases d
  · exact covariance_zero_right
  · exact h.fe_cov i j

theorem Sampled.cov_noise_f : cov[noiseAt e c i, f j; P] = 0 := by rw [covariance_comm, h.cov_f_noise]

theorem Sampled.cov_noise : cov[noiseAt e c i, noiseAt e d j; P] = if c ∧ d ∧ i = j then noise else 0 := by
  cases c
  · rw [if_neg (by simp)]; exact covariance_zero_left
  · cases d
    · rw [if_neg (by simp)]; exact covariance_zero_right
    · refine (h.e_cov i j).trans ?_
      simp

theorem Sampled.cov_sum :
    cov[fun ω => f i ω + noiseAt e c i ω, fun ω => f j ω + noiseAt e d j ω; P] = kerK cfg (Fin.append X Y) g i j + if c ∧ d ∧ i = j then noise else 0 := by
  have hp := h.joint.isProbabilityMeasure
  have hm := h.noise_mem
  have := covariance_add_left (h.f_mem i) (hm c i) ((h.f_mem j).add (hm d j))
  rw [covariance_add_right (h.f_mem i) (h.f_mem j) (hm d j), covariance_add_right (hm c i) (h.f_mem j) (hm d j), h.cov_f_noise, h.cov_noise_f, h.cov_noise, h.f_cov,
    add_zero, zero_add] at this
  exact this

theorem Sampled.mean_sum : ∫ ω, (f i ω + noiseAt e c i ω) ∂P = 0 := by
  have hp := h.joint.isProbabilityMeasure
  cases c
  · simpa [noiseAt] using h.f_mean i
  · simp only [noiseAt, if_true]
    rw [integral_add ((h.f_mem i).integrable (by norm_num)) ((h.e_mem i).integrable (by norm_num)), h.f_mean, h.e_mean, add_zero]

end Sum

theorem predict_ok {ppf : ℝ → ℝ} {y : Fin n → ℝ} {qs : List ℝ} {full lik : Bool} {r : Prediction m} (h : predict cfg ppf X y g noise Y qs full lik = .ok r) :
    r.mean = rawMean cfg X y Y g noise ∧ r.covariance = predictCov cfg X Y g noise full lik ∧
      ∀ full', ∃ r', predict cfg ppf X y g noise Y qs full' lik = .ok r' := by
  unfold predict at h ⊢
  split at h
  · rw [← Except.ok.inj h]
    exact ⟨rfl, rfl, fun _ => ⟨_, rfl⟩⟩
  · cases h

theorem psd_predictCov (hg : Exact g) (hn : 0 < noise) (lik : Bool) :
    (Matrix.of fun i j => rawCov cfg X Y g noise i j + if lik ∧ i = j then noise else 0).PosSemidef := by
  have h1 := (C85_predictions_partial cfg X Y g hg hn).1
  have h2 : (Matrix.of fun i j => rawCov cfg X Y g noise i j + if lik ∧ i = j then noise else 0) = predCov cfg X Y g noise + (if lik then noise else 0) • 1 := by
    rw [← rawCov_eq]
    ext i j
    cases lik <;> simp [Matrix.one_apply]
  rw [h2]
  refine h1.add (Matrix.PosSemidef.one.smul ?_)
  split
  · exact hn.le
  · exact le_refl _

/-- C110 (partial: `Exact` as in `C79_positive_partial`). Under the fitted model, whatever is asked of the observations and of what is unseen at the new inputs together has the
probability that results when the unseen is drawn, given the observations, from the normal distribution with the mean and the matrix that `predict` returns for them:
the unseen are new observations, or the function's values with `include_likelihood = False`. -/
theorem C110_posterior_partial (hs : Sampled P cfg (Fin.append X Y) g noise f e) (hg : Exact g) (hn : 0 < noise) {ppf : ℝ → ℝ} (qs : List ℝ) (lik : Bool)
    (r : (Fin n → ℝ) → Prediction m) (S : (Fin n → ℝ) → Fin m → Fin m → ℝ)
    (hr : ∀ y, predict cfg ppf X y g noise Y qs true lik = .ok (r y) ∧ (r y).covariance = .matrix (S y))
    {C : Set ((Fin n → ℝ) × EuclideanSpace ℝ (Fin m))} (hC : MeasurableSet C) :
    P {ω | (observed f e ω, toLp 2 (unseen f e lik ω)) ∈ C} =
      ∫⁻ y, multivariateGaussian (toLp 2 (r y).mean) (Matrix.of (S y)) {z | (y, z) ∈ C} ∂(P.map (observed f e)) := by
  have hp := hs.joint.isProbabilityMeasure
  obtain ⟨hA, hu⟩ := C79_regression_partial cfg X g hg hn
  obtain ⟨b1, b2⟩ := C85_diagonal_blocks cfg X Y g
  set A := Matrix.of (kerK cfg X g) + noise • (1 : Matrix (Fin n) (Fin n) ℝ) with hAdef
  set B : Matrix (Fin n) (Fin m) ℝ := Matrix.of (kerK2 cfg X Y g) with hB
  set D : Matrix (Fin m) (Fin m) ℝ := Matrix.of (kerK cfg Y g) + (if lik then noise else 0) • 1 with hD
  have hne : ∀ (a : Fin n) (k : Fin m), Fin.castAdd m a ≠ Fin.natAdd n k := by
    intro a k hak
    have := congrArg Fin.val hak
    simp at this
    omega
  have eo : ∀ a, (fun ω => observed f e ω a) = fun ω => f (Fin.castAdd m a) ω + noiseAt e true (Fin.castAdd m a) ω := fun a => rfl
  have et : ∀ i, (fun ω => unseen f e lik ω i) = fun ω => f (Fin.natAdd n i) ω + noiseAt e lik (Fin.natAdd n i) ω := fun i => rfl
  have hSeq : ∀ y, Matrix.of (S y) = D - B.transpose * A⁻¹ * B := by
    intro y
    obtain ⟨h1, h2⟩ := hr y
    have h3 : (r y).covariance = predictCov cfg X Y g noise true lik := (predict_ok h1).2.1
    rw [h2] at h3
    rw [CovArr.matrix.inj h3]
    ext i j
    simp only [rawCov, explained, Matrix.of_apply, Matrix.sub_apply, hD, Matrix.add_apply, Matrix.smul_apply, smul_eq_mul, Matrix.one_apply, hAdef, hB]
    cases lik <;> by_cases hij : i = j <;> simp [hij] <;> ring
  have hMeq : ∀ y, (r y).mean = B.transpose.mulVec (A⁻¹.mulVec y) := by
    intro y
    rw [(predict_ok (hr y).1).1]
    rfl
  have main := (conditioning (hs.gaussian lik) (fun a => by rw [eo]; exact hs.mean_sum true _) (fun k => by rw [et]; exact hs.mean_sum lik _) (A := A) (B := B) (D := D) hu
    (fun a b => by
      rw [eo, eo, hs.cov_sum, ← b1]
      simp [hAdef, Matrix.one_apply])
    (fun a k => by
      rw [eo, et, hs.cov_sum, ← C85_block, if_neg (fun h => hne a k h.2.2), add_zero]
      rfl)
    (fun k l => by
      rw [et, et, hs.cov_sum, ← b2]
      cases lik <;> simp [hD, Matrix.one_apply])).2 hC
  refine main.trans ?_
  refine lintegral_congr fun y => ?_
  rw [hSeq, hMeq]

/-- C110 (partial: `Exact`). The same at each new input, whatever the options, with the mean and the variance that are returned for it. -/
theorem C110_marginal_partial (hs : Sampled P cfg (Fin.append X Y) g noise f e) (hg : Exact g) (hn : 0 < noise) {ppf : ℝ → ℝ} (qs : List ℝ) (full lik : Bool)
    (r : (Fin n → ℝ) → Prediction m) (hr : ∀ y, predict cfg ppf X y g noise Y qs full lik = .ok (r y)) (i : Fin m)
    {C : Set ((Fin n → ℝ) × ℝ)} (hC : MeasurableSet C) :
    P {ω | (observed f e ω, unseen f e lik ω i) ∈ C} =
      ∫⁻ y, gaussianReal ((r y).mean i) (Real.toNNReal (CovArr.var (r y).covariance i)) {z | (y, z) ∈ C} ∂(P.map (observed f e)) := by
  choose r' hr' using fun y => (predict_ok (hr y)).2.2 true
  have hcov : ∀ y, (r' y).covariance = .matrix (fun i j => rawCov cfg X Y g noise i j + if lik ∧ i = j then noise else 0) := fun y => (predict_ok (hr' y)).2.1
  have hC' : MeasurableSet ((fun p : (Fin n → ℝ) × EuclideanSpace ℝ (Fin m) => (p.1, p.2 i)) ⁻¹' C) := (by fun_prop : Measurable _) hC
  refine (C110_posterior_partial hs hg hn qs lik r' _ (fun y => ⟨hr' y, hcov y⟩) hC').trans ?_
  refine lintegral_congr fun y => ?_
  have hv : CovArr.var (r y).covariance i = rawCov cfg X Y g noise i i + if lik ∧ i = i then noise else 0 := by
    rw [(predict_ok (hr y)).2.1, predictCov]
    cases full
    · simp [CovArr.var, rawVar_eq cfg X Y g (Exact.posLength g hg)]
    · rfl
  have hm : (r y).mean = (r' y).mean := (predict_ok (hr y)).1.trans (predict_ok (hr' y)).1.symm
  have h := (measurePreserving_eval_multivariateGaussian (μ := toLp 2 (r' y).mean) (psd_predictCov (cfg := cfg) (X := X) (Y := Y) hg hn lik) (i := i)).measure_preimage
    (s := {z | (y, z) ∈ C}) (measurable_prodMk_left (x := y) hC).nullMeasurableSet
  rw [hv, hm]
  exact h

/-- C110 (partial: `Exact`). A new observation falls below the returned low quantile with exactly the asked probability, below the high one likewise, and so between the two with
the difference: with the default quantiles, 95 times out of 100. -/
theorem C110_coverage_partial (hs : Sampled P cfg (Fin.append X Y) g noise f e) (hg : Exact g) (hn : 0 < noise) {ppf : ℝ → ℝ} (hp : IsPpf ppf) {q1 q2 : ℝ} (rest : List ℝ)
    (h1 : 0 < q1) (h12 : q1 < q2) (h2 : q2 < 100) (full : Bool) (r : (Fin n → ℝ) → Prediction m)
    (hr : ∀ y, predict cfg ppf X y g noise Y (q1 :: q2 :: rest) full = .ok (r y)) (i : Fin m) :
    P {ω | unseen f e true ω i ≤ (r (observed f e ω)).low i} = ENNReal.ofReal (q1 / 100) ∧
    P {ω | unseen f e true ω i ≤ (r (observed f e ω)).high i} = ENNReal.ofReal (q2 / 100) ∧
    P {ω | (r (observed f e ω)).low i < unseen f e true ω i ∧ unseen f e true ω i ≤ (r (observed f e ω)).high i} = ENNReal.ofReal ((q2 - q1) / 100) := by
  have hpr := hs.joint.isProbabilityMeasure
  have hob : AEMeasurable (observed f e) P := (hs.gaussian true).fst.aemeasurable
  have hpr' : IsProbabilityMeasure (P.map (observed f e)) := Measure.isProbabilityMeasure_map hob
  obtain ⟨c, hc⟩ : ∃ c : ℝ → ℝ, ∀ q y, quantileAt cfg ppf X y Y g noise q i = c q + rawMean cfg X y Y g noise i := ⟨_, fun q y => rfl⟩
  have hmeas : Measurable fun y : Fin n → ℝ => rawMean cfg X y Y g noise i := by
    have : Continuous fun y : Fin n → ℝ => rawMean cfg X y Y g noise := by unfold rawMean; fun_prop
    exact (measurable_pi_apply i).comp this.measurable
  have hlo : ∀ y, (r y).low i = c q1 + rawMean cfg X y Y g noise i := by
    intro y
    rw [← hc, ← Except.ok.inj (hr y)]
  have hhi : ∀ y, (r y).high i = c q2 + rawMean cfg X y Y g noise i := by
    intro y
    rw [← hc, ← Except.ok.inj (hr y)]
  have below : ∀ (q : ℝ) (b : (Fin n → ℝ) → ℝ), Measurable b →
      (∀ y, cdf (gaussianReal ((r y).mean i) (Real.toNNReal (CovArr.var (r y).covariance i))) (b y) = q / 100) →
      P {ω | unseen f e true ω i ≤ b (observed f e ω)} = ENNReal.ofReal (q / 100) := by
    intro q b hb hcdf
    have hC : MeasurableSet {p : (Fin n → ℝ) × ℝ | p.2 ≤ b p.1} := measurableSet_le measurable_snd (hb.comp measurable_fst)
    refine (C110_marginal_partial hs hg hn (q1 :: q2 :: rest) full true r hr i hC).trans ?_
    rw [lintegral_congr (g := fun _ => ENNReal.ofReal (q / 100)), lintegral_const, measure_univ, mul_one]
    intro y
    rw [← hcdf y, ofReal_cdf]
    rfl
  have sound : ∀ y, cdf (gaussianReal ((r y).mean i) (Real.toNNReal (CovArr.var (r y).covariance i))) ((r y).low i) = q1 / 100 ∧
      cdf (gaussianReal ((r y).mean i) (Real.toNNReal (CovArr.var (r y).covariance i))) ((r y).high i) = q2 / 100 := by
    intro y
    obtain ⟨r0, e0, h0⟩ := C96_sound_partial cfg hp X y g hg hn Y rest ⟨h1, h12.trans h2⟩ ⟨h1.trans h12, h2⟩ full
    rw [hr y] at e0
    cases Except.ok.inj e0
    exact (h0 i).2
  have mlo : Measurable fun y => (r y).low i := by simp only [hlo]; fun_prop
  have mhi : Measurable fun y => (r y).high i := by simp only [hhi]; fun_prop
  have p1 := below q1 (fun y => (r y).low i) mlo fun y => (sound y).1
  have p2 := below q2 (fun y => (r y).high i) mhi fun y => (sound y).2
  refine ⟨p1, p2, ?_⟩
  have hle : ∀ y, (r y).low i < (r y).high i := by
    intro y
    obtain ⟨r0, e0, h0⟩ := C96_order_partial cfg hp X y g hg hn Y rest h1 h12 h2 full true
    rw [hr y] at e0
    cases Except.ok.inj e0
    exact (h0 i).1
  have hun : AEMeasurable (fun ω => unseen f e true ω i) P := ((hs.gaussian true).snd.eval i).aemeasurable
  have hsub : {ω | unseen f e true ω i ≤ (r (observed f e ω)).low i} ⊆ {ω | unseen f e true ω i ≤ (r (observed f e ω)).high i} :=
    fun ω hω => le_trans hω (hle _).le
  have hnull : NullMeasurableSet {ω | unseen f e true ω i ≤ (r (observed f e ω)).low i} P := nullMeasurableSet_le hun (mlo.comp_aemeasurable hob)
  have hd := measure_sdiff hsub hnull (measure_ne_top P _)
  rw [p1, p2] at hd
  rw [sub_div, ENNReal.ofReal_sub _ (by positivity), ← hd]
  congr 1
  ext ω
  simp [and_comm]

/-- C110, the violation: with `include_likelihood = False`, where mean and covariance are about the function itself, the quantiles are not. The function's value falls below the
returned low quantile (asked below 50) less often than asked. -/
theorem C110_latent (hs : Sampled P cfg (Fin.append X Y) g noise f e) (hg : Exact g) (hn : 0 < noise) {ppf : ℝ → ℝ} (hp : IsPpf ppf) {q1 q2 : ℝ} (rest : List ℝ)
    (h1 : 0 < q1 ∧ q1 < 50) (full : Bool) (r : (Fin n → ℝ) → Prediction m)
    (hr : ∀ y, predict cfg ppf X y g noise Y (q1 :: q2 :: rest) full false = .ok (r y)) (i : Fin m) :
    P {ω | unseen f e false ω i ≤ (r (observed f e ω)).low i} < ENNReal.ofReal (q1 / 100) := by
  have hpr := hs.joint.isProbabilityMeasure
  have hob : AEMeasurable (observed f e) P := (hs.gaussian true).fst.aemeasurable
  have hpr' : IsProbabilityMeasure (P.map (observed f e)) := Measure.isProbabilityMeasure_map hob
  have hmeas : Measurable fun y : Fin n → ℝ => rawMean cfg X y Y g noise i := by
    have : Continuous fun y : Fin n → ℝ => rawMean cfg X y Y g noise := by unfold rawMean; fun_prop
    exact (measurable_pi_apply i).comp this.measurable
  have hlo : ∀ y, (r y).low i = ppf (q1 / 100) * Real.sqrt (rawVar cfg X Y g noise i + noise) + rawMean cfg X y Y g noise i := by
    intro y
    rw [← Except.ok.inj (hr y)]
    rfl
  have mlo : Measurable fun y => (r y).low i := by simp only [hlo]; fun_prop
  have hC : MeasurableSet {p : (Fin n → ℝ) × ℝ | p.2 ≤ (r p.1).low i} := measurableSet_le measurable_snd (mlo.comp measurable_fst)
  refine (C110_marginal_partial hs hg hn (q1 :: q2 :: rest) full false r hr i hC).trans_lt ?_
  have hlt : ∀ y, gaussianReal ((r y).mean i) (Real.toNNReal (CovArr.var (r y).covariance i)) {z | z ≤ (r y).low i} < ENNReal.ofReal (q1 / 100) := by
    intro y
    have := C96_latent_wrong cfg hp X y g hg hn Y rest h1 full (r y) (hr y) i
    have h2 := (ENNReal.ofReal_lt_ofReal_iff (by linarith [h1.1] : 0 < q1 / 100)).2 this
    rw [ofReal_cdf] at h2
    exact h2
  calc _ < ∫⁻ _, ENNReal.ofReal (q1 / 100) ∂(P.map (observed f e)) := by
        refine lintegral_strict_mono (IsProbabilityMeasure.ne_zero _) (by fun_prop) ?_ (Filter.Eventually.of_forall hlt)
        refine ne_of_lt (lt_of_le_of_lt (lintegral_mono fun y => (hlt y).le) ?_)
        simp
    _ = _ := by simp

theorem psd_blocks {ι κ : Type} [Fintype ι] [Fintype κ] {A : Matrix ι ι ℝ} {D : Matrix κ κ ℝ} (hA : A.PosSemidef) (hD : D.PosSemidef) : (Matrix.fromBlocks A 0 0 D).PosSemidef := by
  refine Matrix.PosSemidef.of_dotProduct_mulVec_nonneg ?_ fun x => ?_
  · exact Matrix.IsHermitian.fromBlocks hA.1 (by simp) hD.1
  · have e : x = Sum.elim (fun i => x (.inl i)) (fun i => x (.inr i)) := by ext i; cases i <;> rfl
    rw [e, Matrix.fromBlocks_mulVec]
    have h1 := hA.dotProduct_mulVec_nonneg (fun i => x (.inl i))
    have h2 := hD.dotProduct_mulVec_nonneg (fun i => x (.inr i))
    simp only [dotProduct, Fintype.sum_sum_type] at *
    simpa [Function.comp_def] using add_nonneg h1 h2

/-- For every kernel with exact lengthscales and all inputs there are such random functions and noise. -/
theorem exists_sampled (cfg : Cfg) {N : ℕ} (Z : Fin N → ℝ) (g : GK ℝ) (hg : Exact g) (noise : ℝ) (hn : 0 ≤ noise) :
    ∃ (Ω : Type) (_ : MeasurableSpace Ω) (P : Measure Ω) (f e : Fin N → Ω → ℝ), Sampled P cfg Z g noise f e := by
  let S : Matrix (Fin N ⊕ Fin N) (Fin N ⊕ Fin N) ℝ := Matrix.fromBlocks (Matrix.of (kerK cfg Z g)) 0 0 (noise • 1)
  have hS : S.PosSemidef := by
    have h1 := C79_positive_partial cfg Z g hg
    have h2 : (noise • (1 : Matrix (Fin N) (Fin N) ℝ)).PosSemidef := Matrix.PosSemidef.one.smul hn
    exact psd_blocks h1 h2
  let E := EuclideanSpace ℝ (Fin N ⊕ Fin N)
  have hm : ∀ k, ∫ x : E, x k ∂(multivariateGaussian 0 S) = 0 := by
    intro k
    have := (EuclideanSpace.proj k : E →L[ℝ] ℝ).integral_comp_comm (IsGaussian.integrable_id (μ := multivariateGaussian (0 : E) S))
    simp only [id_eq, integral_id_multivariateGaussian] at this
    exact this.trans (map_zero _)
  refine ⟨E, inferInstance, multivariateGaussian 0 S, fun i x => x (.inl i), fun i x => x (.inr i), ?_, fun i => hm _, fun i => hm _, ?_, ?_, ?_⟩
  · exact (IsGaussian.hasGaussianLaw_id (μ := multivariateGaussian (0 : E) S)).map_fun ((ContinuousLinearMap.pi fun i : Fin N => (EuclideanSpace.proj (.inl i) : E →L[ℝ] ℝ)).prod
      (ContinuousLinearMap.pi fun i : Fin N => (EuclideanSpace.proj (.inr i) : E →L[ℝ] ℝ)))
  · intro i j
    rw [covariance_eval_multivariateGaussian hS]
    rfl
  · intro i j
    rw [covariance_eval_multivariateGaussian hS]
    simp [S, Matrix.one_apply]
  · intro i j
    rw [covariance_eval_multivariateGaussian hS]
    rfl

/-- A fitted kernel that meets the hypotheses, at two observed and one new input; the default quantiles do. -/
example : ∃ (Ω : Type) (_ : MeasurableSpace Ω) (P : Measure Ω) (f e : Fin (2 + 1) → Ω → ℝ) (g : GK ℝ), Exact g ∧ (0 : ℝ) < 1 / 10 ∧
    Sampled P .default (Fin.append (fun a : Fin 2 => (a : ℝ)) (fun _ : Fin 1 => 5)) g (1 / 10) f e ∧ (∃ ppf, IsPpf ppf) ∧
    ((0 : ℝ) < 2.5 ∧ (2.5 : ℝ) < 50) ∧ (2.5 : ℝ) < 97.5 ∧ (97.5 : ℝ) < 100 := by
  have hx : Exact (.comb .sum [.base .LIN { variance := some 2, offset := some 1 }, .base .PER { lengthscale := some 1 }]) := by
    simp [Exact, ExactL]; norm_num
  obtain ⟨Ω, mΩ, P, f, e, h⟩ := exists_sampled .default (Fin.append (fun a : Fin 2 => (a : ℝ)) (fun _ : Fin 1 => 5)) _ hx (1 / 10) (by norm_num)
  exact ⟨Ω, mΩ, P, f, e, _, hx, by norm_num, h, exists_ppf, by norm_num, by norm_num, by norm_num⟩

end Posterior
end GPyABCD
