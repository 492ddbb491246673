import Verif.Model.PredictPart
import Verif.Spec.PredictPart
import Verif.Props.Posterior

/-!
# Property C111: predictions of parts

C111: `predict` with `kern` a part of the fitted sum tells about that part: the means of the parts add up to the prediction of the whole, and what is returned is the distribution
of the part's function given the data.
-/

namespace GPyABCD
open Kern Params Sops ProbabilityTheory MeasureTheory WithLp

section Parts
variable {Ω : Type} [MeasurableSpace Ω] {P : Measure Ω} {n m : ℕ} {cfg : Cfg} {X : Fin n → ℝ} {Y : Fin m → ℝ} {g : GK ℝ} {noise : ℝ}

theorem kerSum_eq (cfg : Cfg) {N : ℕ} (Z : Fin N → ℝ) : ∀ (parts : List (GK ℝ)) (a b : Fin N), kerSum cfg Z parts a b = ∑ j, kerK cfg Z (parts.get j) a b
  | [], a, b => by simp [kerSum]
  | k :: ks, a, b => by
    refine Eq.trans ?_ (Fin.sum_univ_succ (n := ks.length) fun j => kerK cfg Z ((k :: ks).get j) a b).symm
    rw [kerSum, Arr.add, kerSum_eq cfg Z ks a b]
    rfl

theorem kerSum2_eq (cfg : Cfg) : ∀ (parts : List (GK ℝ)) (a : Fin n) (b : Fin m), kerSum2 cfg X Y parts a b = ∑ j, kerK2 cfg X Y (parts.get j) a b
  | [], a, b => by simp [kerSum2]
  | k :: ks, a, b => by
    refine Eq.trans ?_ (Fin.sum_univ_succ (n := ks.length) fun j => kerK2 cfg X Y ((k :: ks).get j) a b).symm
    rw [kerSum2]
    exact congrArg (kerK2 cfg X Y k a b + ·) (kerSum2_eq cfg ks a b)

theorem exact_get : ∀ {parts : List (GK ℝ)}, ExactL parts → ∀ j, Exact (parts.get j)
  | _ :: _, h, ⟨0, _⟩ => h.1
  | _ :: _, h, ⟨j + 1, hj⟩ => exact_get h.2 ⟨j, Nat.lt_of_succ_lt_succ hj⟩

/-- C111. Without `kern`, and with the fitted kernel given as `kern`, the predictions are those of the fitted model. -/
theorem C111_whole (ppf : ℝ → ℝ) (y : Fin n → ℝ) (qs : List ℝ) (full lik : Bool) :
    predictWith cfg ppf X y g noise Y none qs full lik = predict cfg ppf X y g noise Y qs full lik ∧
      predictWith cfg ppf X y g noise Y (some g) qs full lik = predict cfg ppf X y g noise Y qs full lik := ⟨rfl, rfl⟩

theorem predictWith_ok {ppf : ℝ → ℝ} {y : Fin n → ℝ} {h : GK ℝ} {qs : List ℝ} {full lik : Bool} {r : Prediction m}
    (hr : predictWith cfg ppf X y g noise Y (some h) qs full lik = .ok r) :
    r.mean = rawMeanWith cfg X y Y g h noise ∧ r.covariance = predictCovWith cfg X Y g h noise full lik := by
  unfold predictWith at hr
  split at hr
  · rw [← Except.ok.inj hr]
    exact ⟨rfl, rfl⟩
  · cases hr

/-- C111. If the fitted kernel is a sum, the means predicted with its parts add up to the mean predicted with it: for all data, whatever the options. -/
theorem C111_means_add (parts : List (GK ℝ)) (ppf : ℝ → ℝ) (y : Fin n → ℝ) (qs : List ℝ) (full lik : Bool) (r : Prediction m)
    (hr : predict cfg ppf X y (.comb .sum parts) noise Y qs full lik = .ok r) :
    ∃ rs : Fin parts.length → Prediction m, (∀ j, predictWith cfg ppf X y (.comb .sum parts) noise Y (some (parts.get j)) qs full lik = .ok (rs j)) ∧
      ∀ i, r.mean i = ∑ j, (rs j).mean i := by
  have hex : ∀ j, ∃ r', predictWith cfg ppf X y (.comb .sum parts) noise Y (some (parts.get j)) qs full lik = .ok r' := by
    intro j
    unfold predict at hr
    unfold predictWith
    rcases qs with _ | ⟨q1, _ | ⟨q2, qs⟩⟩
    · cases hr
    · cases hr
    · exact ⟨_, rfl⟩
  choose rs hrs using hex
  refine ⟨rs, hrs, fun i => ?_⟩
  rw [(predict_ok hr).1]
  simp only [fun j => (predictWith_ok (hrs j)).1, rawMean, rawMeanWith]
  generalize (Matrix.of (kerK cfg X (.comb .sum parts)) + noise • (1 : Matrix (Fin n) (Fin n) ℝ))⁻¹.mulVec y = v
  simp only [Matrix.mulVec, dotProduct, Matrix.transpose_apply, Matrix.of_apply, kerK2, kerSum2_eq, Finset.sum_mul]
  exact Finset.sum_comm

section Sum
variable {N p : ℕ} {K : Fin p → Fin N → Fin N → ℝ} {F : Fin p → Fin N → Ω → ℝ} {e : Fin N → Ω → ℝ} (hs : SampledParts P K noise F e)
include hs

theorem SampledParts.mem (j i) : MemLp (F j i) 2 P := (hs.joint.fst.eval (j, i)).memLp_two

/-- The sum of the functions has the sum of their covariances. -/
theorem SampledParts.sum {Z : Fin N → ℝ} {g : GK ℝ} (hK : ∀ a b, kerK cfg Z g a b = ∑ j, K j a b) : Sampled P cfg Z g noise (GPyABCD.whole F) e := by
  have hp := hs.joint.isProbabilityMeasure
  refine ⟨?_, ?_, hs.e_mean, ?_, hs.e_cov, ?_⟩
  · let V := Fin p × Fin N → ℝ
    let W := Fin N → ℝ
    have := hs.joint.map_fun ((ContinuousLinearMap.pi fun i : Fin N => ∑ j : Fin p,
      (ContinuousLinearMap.proj (R := ℝ) (φ := fun _ : Fin p × Fin N => ℝ) (j, i)).comp (ContinuousLinearMap.fst ℝ V W)).prod (ContinuousLinearMap.snd ℝ V W))
    refine this.congr (Filter.Eventually.of_forall fun ω => ?_)
    refine Prod.ext (funext fun i => ?_) rfl
    simp [GPyABCD.whole, V, W]
  · intro i
    unfold GPyABCD.whole
    rw [integral_finsetSum _ fun j _ => (hs.mem j i).integrable (by norm_num)]
    simp [hs.f_mean]
  · intro a b
    unfold GPyABCD.whole
    rw [covariance_fun_sum_fun_sum (fun j => hs.mem j a) (fun j => hs.mem j b), hK]
    refine Finset.sum_congr rfl fun j _ => ?_
    rw [Finset.sum_eq_single j (fun k _ hk => hs.indep j k a b (Ne.symm hk)) (by simp), hs.f_cov]
  · intro a b
    unfold GPyABCD.whole
    rw [covariance_fun_sum_left (fun j => hs.mem j a) (hs.joint.snd.eval b).memLp_two]
    simp [hs.fe_cov]

end Sum

variable {parts : List (GK ℝ)} {F : Fin parts.length → Fin (n + m) → Ω → ℝ} {e : Fin (n + m) → Ω → ℝ}

/-- The sum of the functions follows the sum of the kernels. -/
theorem SampledParts.whole (hs : SampledParts P (fun j => kerK cfg (Fin.append X Y) (parts.get j)) noise F e) :
    Sampled P cfg (Fin.append X Y) (.comb .sum parts) noise (whole F) e :=
  hs.sum fun a b => by rw [kerK, kerSum_eq]

/-- Each of them follows its part. -/
theorem SampledParts.one (hs : SampledParts P (fun j => kerK cfg (Fin.append X Y) (parts.get j)) noise F e) (j : Fin parts.length) :
    Sampled P cfg (Fin.append X Y) (parts.get j) noise (F j) e := by
  refine ⟨?_, hs.f_mean j, hs.e_mean, hs.f_cov j, hs.e_cov, hs.fe_cov j⟩
  let V := Fin parts.length × Fin (n + m) → ℝ
  let W := Fin (n + m) → ℝ
  exact hs.joint.map_fun ((ContinuousLinearMap.pi fun i : Fin (n + m) =>
    (ContinuousLinearMap.proj (R := ℝ) (φ := fun _ : Fin parts.length × Fin (n + m) => ℝ) (j, i)).comp (ContinuousLinearMap.fst ℝ V W)).prod (ContinuousLinearMap.snd ℝ V W))

theorem SampledParts.gaussian (hs : SampledParts P (fun j => kerK cfg (Fin.append X Y) (parts.get j)) noise F e) (j : Fin parts.length) (lik : Bool) :
    HasGaussianLaw (fun ω => ((fun a => observed (GPyABCD.whole F) e ω a), (fun i => unseen (F j) e lik ω i))) P := by
  let V := Fin parts.length × Fin (n + m) → ℝ
  let W := Fin (n + m) → ℝ
  let pr (j : Fin parts.length) (i : Fin (n + m)) : V × W →L[ℝ] ℝ :=
    (ContinuousLinearMap.proj (R := ℝ) (φ := fun _ : Fin parts.length × Fin (n + m) => ℝ) (j, i)).comp (ContinuousLinearMap.fst ℝ V W)
  let pe (i : Fin (n + m)) : V × W →L[ℝ] ℝ := (ContinuousLinearMap.proj (R := ℝ) (φ := fun _ : Fin (n + m) => ℝ) i).comp (ContinuousLinearMap.snd ℝ V W)
  have := hs.joint.map_fun ((ContinuousLinearMap.pi fun a : Fin n => (∑ k, pr k (Fin.castAdd m a)) + pe (Fin.castAdd m a)).prod
    (ContinuousLinearMap.pi fun i : Fin m => pr j (Fin.natAdd n i) + if lik then pe (Fin.natAdd n i) else 0))
  refine this.congr (Filter.Eventually.of_forall fun ω => ?_)
  refine Prod.ext (funext fun i => ?_) (funext fun i => ?_)
  · simp [observed, GPyABCD.whole, pr, pe]
  · cases lik <;> simp [unseen, pr, pe]

/-- The arguments of `conditioning`. -/
theorem SampledParts.conditional (hs : SampledParts P (fun j => kerK cfg (Fin.append X Y) (parts.get j)) noise F e) (hg : Exact (.comb .sum parts)) (hn : 0 < noise) (j : Fin parts.length) (lik : Bool) :
    (Matrix.of fun a b => rawCovWith cfg X Y (.comb .sum parts) (parts.get j) noise a b + if lik ∧ a = b then noise else 0).PosSemidef ∧
    ∀ {C : Set ((Fin n → ℝ) × EuclideanSpace ℝ (Fin m))}, MeasurableSet C →
      P {ω | (observed (GPyABCD.whole F) e ω, toLp 2 (unseen (F j) e lik ω)) ∈ C} =
        ∫⁻ y, multivariateGaussian (toLp 2 (rawMeanWith cfg X y Y (.comb .sum parts) (parts.get j) noise))
          (Matrix.of fun a b => rawCovWith cfg X Y (.comb .sum parts) (parts.get j) noise a b + if lik ∧ a = b then noise else 0) {z | (y, z) ∈ C}
          ∂(P.map (observed (GPyABCD.whole F) e)) := by
  have hp := hs.joint.isProbabilityMeasure
  have hw := hs.whole
  have h1 := hs.one j
  obtain ⟨-, hu⟩ := C79_regression_partial cfg X _ hg hn
  obtain ⟨b1, -⟩ := C85_diagonal_blocks cfg X Y (.comb .sum parts)
  obtain ⟨-, b2⟩ := C85_diagonal_blocks cfg X Y (parts.get j)
  set A := Matrix.of (kerK cfg X (.comb .sum parts)) + noise • (1 : Matrix (Fin n) (Fin n) ℝ) with hAdef
  set B : Matrix (Fin n) (Fin m) ℝ := Matrix.of (kerK2 cfg X Y (parts.get j)) with hB
  set D : Matrix (Fin m) (Fin m) ℝ := Matrix.of (kerK cfg Y (parts.get j)) + (if lik then noise else 0) • 1 with hD
  have hne : ∀ (a : Fin n) (k : Fin m), Fin.castAdd m a ≠ Fin.natAdd n k := by
    intro a k hak
    have := congrArg Fin.val hak
    simp at this
    omega
  have eo : ∀ a, (fun ω => observed (GPyABCD.whole F) e ω a) = fun ω => GPyABCD.whole F (Fin.castAdd m a) ω + noiseAt e true (Fin.castAdd m a) ω := fun a => rfl
  have et : ∀ i, (fun ω => unseen (F j) e lik ω i) = fun ω => F j (Fin.natAdd n i) ω + noiseAt e lik (Fin.natAdd n i) ω := fun i => rfl
  have hSeq : (Matrix.of fun a b => rawCovWith cfg X Y (.comb .sum parts) (parts.get j) noise a b + if lik ∧ a = b then noise else 0) = D - B.transpose * A⁻¹ * B := by
    ext a b
    simp only [rawCovWith, explainedWith, Matrix.of_apply, Matrix.sub_apply, hD, Matrix.add_apply, Matrix.smul_apply, smul_eq_mul, Matrix.one_apply, hAdef, hB]
    cases lik <;> by_cases hij : a = b <;> simp [hij] <;> ring
  rw [hSeq]
  exact conditioning (hs.gaussian j lik) (fun a => by rw [eo]; exact hw.mean_sum true _) (fun k => by rw [et]; exact h1.mean_sum lik _) (A := A) (B := B) (D := D) hu
    (fun a b => by
      rw [eo, eo, hw.cov_sum, ← b1]
      simp [hAdef, Matrix.one_apply])
    (fun a k => by
      rw [eo, et]
      have hmem : ∀ c i, MemLp (noiseAt e c i) 2 P := fun c i => hw.noise_mem c i
      have e1 : cov[GPyABCD.whole F (Fin.castAdd m a), F j (Fin.natAdd n k); P] = kerK2 cfg X Y (parts.get j) a k := by
        unfold GPyABCD.whole
        rw [covariance_fun_sum_left (fun l => hs.mem l _) (hs.mem j _),
          Finset.sum_eq_single j (fun l _ hl => hs.indep l j _ _ hl) (by simp), hs.f_cov, C85_block]
      have := covariance_add_left (hw.f_mem (Fin.castAdd m a)) (hmem true (Fin.castAdd m a)) ((h1.f_mem (Fin.natAdd n k)).add (hmem lik (Fin.natAdd n k)))
      rw [covariance_add_right (hw.f_mem _) (h1.f_mem _) (hmem lik _), covariance_add_right (hmem true _) (h1.f_mem _) (hmem lik _), e1, hw.cov_f_noise,
        h1.cov_noise_f, hw.cov_noise, if_neg (fun h => hne a k h.2.2), add_zero, add_zero, add_zero] at this
      exact this)
    (fun k l => by
      rw [et, et, h1.cov_sum, ← b2]
      cases lik <;> simp [hD, Matrix.one_apply])

/-- C111 (partial: `Exact`). If the fitted kernel is a sum, `predict` with `kern` one of its parts returns the distribution of that part's function at the new inputs given
the observations of the whole, plus noise unless `include_likelihood = False`. -/
theorem C111_posterior_partial (hs : SampledParts P (fun j => kerK cfg (Fin.append X Y) (parts.get j)) noise F e) (hg : Exact (.comb .sum parts)) (hn : 0 < noise) {ppf : ℝ → ℝ} (qs : List ℝ)
    (lik : Bool) (j : Fin parts.length) (r : (Fin n → ℝ) → Prediction m) (S : (Fin n → ℝ) → Fin m → Fin m → ℝ)
    (hr : ∀ y, predictWith cfg ppf X y (.comb .sum parts) noise Y (some (parts.get j)) qs true lik = .ok (r y) ∧ (r y).covariance = .matrix (S y))
    {C : Set ((Fin n → ℝ) × EuclideanSpace ℝ (Fin m))} (hC : MeasurableSet C) :
    P {ω | (observed (whole F) e ω, toLp 2 (unseen (F j) e lik ω)) ∈ C} =
      ∫⁻ y, multivariateGaussian (toLp 2 (r y).mean) (Matrix.of (S y)) {z | (y, z) ∈ C} ∂(P.map (observed (whole F) e)) := by
  refine ((hs.conditional hg hn j lik).2 hC).trans (lintegral_congr fun y => ?_)
  rw [(predictWith_ok (hr y).1).1, show S y = _ from CovArr.matrix.inj ((hr y).2.symm.trans (predictWith_ok (hr y).1).2)]

/-- C111 (partial: `Exact`). With the default `include_likelihood`, whatever the other options, a new value of the part's function observed with noise is below each returned
quantile with the asked probability. -/
theorem C111_coverage_partial (hs : SampledParts P (fun j => kerK cfg (Fin.append X Y) (parts.get j)) noise F e) (hg : Exact (.comb .sum parts)) (hn : 0 < noise) {ppf : ℝ → ℝ} (hp : IsPpf ppf)
    {q1 q2 : ℝ} (rest : List ℝ) (h1 : 0 < q1 ∧ q1 < 100) (h2 : 0 < q2 ∧ q2 < 100) (full : Bool) (j : Fin parts.length) (r : (Fin n → ℝ) → Prediction m)
    (hr : ∀ y, predictWith cfg ppf X y (.comb .sum parts) noise Y (some (parts.get j)) (q1 :: q2 :: rest) full = .ok (r y)) (i : Fin m) :
    P {ω | unseen (F j) e true ω i ≤ (r (observed (whole F) e ω)).low i} = ENNReal.ofReal (q1 / 100) ∧
    P {ω | unseen (F j) e true ω i ≤ (r (observed (whole F) e ω)).high i} = ENNReal.ofReal (q2 / 100) := by
  have hpr := hs.joint.isProbabilityMeasure
  have hob : AEMeasurable (observed (GPyABCD.whole F) e) P := (hs.gaussian j true).fst.aemeasurable
  have hpr' : IsProbabilityMeasure (P.map (observed (GPyABCD.whole F) e)) := Measure.isProbabilityMeasure_map hob
  obtain ⟨hS, hcond⟩ := hs.conditional hg hn j true
  have hv0 : 0 ≤ rawCovWith cfg X Y (.comb .sum parts) (parts.get j) noise i i := by
    have h := (hs.conditional hg hn j false).1.diag_nonneg (i := i)
    simpa using h
  have hv : rawVarWith cfg X Y (.comb .sum parts) (parts.get j) noise i = rawCovWith cfg X Y (.comb .sum parts) (parts.get j) noise i i := by
    rw [rawVarWith, rawCovWith, C79_diagonal cfg Y _ (Exact.posLength _ (exact_get hg j))]
  have hmeas : Measurable fun y : Fin n → ℝ => rawMeanWith cfg X y Y (.comb .sum parts) (parts.get j) noise i := by
    have : Continuous fun y : Fin n → ℝ => rawMeanWith cfg X y Y (.comb .sum parts) (parts.get j) noise := by unfold rawMeanWith; fun_prop
    exact (measurable_pi_apply i).comp this.measurable
  have below : ∀ q, 0 < q → q < 100 →
      P {ω | unseen (F j) e true ω i ≤ quantileAtWith cfg ppf X (observed (GPyABCD.whole F) e ω) Y (.comb .sum parts) (parts.get j) noise q i} = ENNReal.ofReal (q / 100) := by
    intro q hq hq'
    have hC : MeasurableSet {p : (Fin n → ℝ) × EuclideanSpace ℝ (Fin m) | p.2 i ≤ quantileAtWith cfg ppf X p.1 Y (.comb .sum parts) (parts.get j) noise q i} := by
      refine measurableSet_le (by fun_prop) ?_
      unfold quantileAtWith
      exact (hmeas.comp measurable_fst).const_add _
    refine (hcond hC).trans ?_
    rw [lintegral_congr (g := fun _ => ENNReal.ofReal (q / 100)), lintegral_const, measure_univ, mul_one]
    intro y
    have h := (measurePreserving_eval_multivariateGaussian (μ := toLp 2 (rawMeanWith cfg X y Y (.comb .sum parts) (parts.get j) noise)) hS (i := i)).measure_preimage
      (s := Set.Iic (quantileAtWith cfg ppf X y Y (.comb .sum parts) (parts.get j) noise q i)) measurableSet_Iic.nullMeasurableSet
    refine h.trans ?_
    rw [← ofReal_cdf, quantileAtWith, hv]
    simp only [Matrix.of_apply, and_self, if_true]
    rw [cdf_scaled (by linarith), hp _ (by linarith) (by linarith)]
  have p1 := below q1 h1.1 h1.2
  have p2 := below q2 h2.1 h2.2
  have hlo : ∀ y, (r y).low i = quantileAtWith cfg ppf X y Y (.comb .sum parts) (parts.get j) noise q1 i := by
    intro y
    rw [← Except.ok.inj (hr y)]
    rfl
  have hhi : ∀ y, (r y).high i = quantileAtWith cfg ppf X y Y (.comb .sum parts) (parts.get j) noise q2 i := by
    intro y
    rw [← Except.ok.inj (hr y)]
    rfl
  simp only [hlo, hhi]
  exact ⟨p1, p2⟩

/-- There are such functions for all covariance matrices. -/
theorem exists_parts {N p : ℕ} (K : Fin p → Fin N → Fin N → ℝ) (hK : ∀ j, (Matrix.of (K j)).PosSemidef) (noise : ℝ) (hn : 0 ≤ noise) :
    ∃ (Ω : Type) (_ : MeasurableSpace Ω) (P : Measure Ω) (F : Fin p → Fin N → Ω → ℝ) (e : Fin N → Ω → ℝ), SampledParts P K noise F e := by
  let T : Matrix (Fin p × Fin N) (Fin p × Fin N) ℝ := Matrix.of fun q q' => if q.1 = q'.1 then K q.1 q.2 q'.2 else 0
  have hT : T.PosSemidef := by
    refine Matrix.PosSemidef.of_dotProduct_mulVec_nonneg ?_ fun x => ?_
    · ext ⟨j, a⟩ ⟨k, b⟩
      simp only [Matrix.conjTranspose_apply, star_trivial, T, Matrix.of_apply]
      by_cases hjk : j = k
      · subst hjk
        simp only [if_true]
        simpa using (hK j).1.apply a b
      · rw [if_neg hjk, if_neg (Ne.symm hjk)]
    · have h : star x ⬝ᵥ T.mulVec x = ∑ j, star (fun a => x (j, a)) ⬝ᵥ (Matrix.of (K j)).mulVec (fun a => x (j, a)) := by
        simp only [dotProduct, Matrix.mulVec, T, Matrix.of_apply, Fintype.sum_prod_type, Pi.star_apply, star_trivial]
        refine Finset.sum_congr rfl fun j _ => Finset.sum_congr rfl fun a _ => ?_
        rw [Finset.sum_eq_single j (fun k _ hk => by simp [Ne.symm hk]) (by simp)]
        simp
      rw [h]
      exact Finset.sum_nonneg fun j _ => (hK j).dotProduct_mulVec_nonneg _
  let S : Matrix ((Fin p × Fin N) ⊕ Fin N) ((Fin p × Fin N) ⊕ Fin N) ℝ := Matrix.fromBlocks T 0 0 (noise • 1)
  have hS : S.PosSemidef := psd_blocks hT (Matrix.PosSemidef.one.smul hn)
  let E := EuclideanSpace ℝ ((Fin p × Fin N) ⊕ Fin N)
  have hm : ∀ k, ∫ x : E, x k ∂(multivariateGaussian 0 S) = 0 := by
    intro k
    have := (EuclideanSpace.proj k : E →L[ℝ] ℝ).integral_comp_comm (IsGaussian.integrable_id (μ := multivariateGaussian (0 : E) S))
    simp only [id_eq, integral_id_multivariateGaussian] at this
    exact this.trans (map_zero _)
  refine ⟨E, inferInstance, multivariateGaussian 0 S, fun j i x => x (.inl (j, i)), fun i x => x (.inr i), ?_, fun j i => hm _, fun i => hm _, ?_, ?_, ?_, ?_⟩
  · exact (IsGaussian.hasGaussianLaw_id (μ := multivariateGaussian (0 : E) S)).map_fun
      ((ContinuousLinearMap.pi fun q : Fin p × Fin N => (EuclideanSpace.proj (.inl q) : E →L[ℝ] ℝ)).prod
      (ContinuousLinearMap.pi fun i : Fin N => (EuclideanSpace.proj (.inr i) : E →L[ℝ] ℝ)))
  · intro j a b
    rw [covariance_eval_multivariateGaussian hS]
    simp [S, T]
  · intro j k a b hjk
    rw [covariance_eval_multivariateGaussian hS]
    simp [S, T, hjk]
  · intro i j
    rw [covariance_eval_multivariateGaussian hS]
    simp [S, Matrix.one_apply]
  · intro j a b
    rw [covariance_eval_multivariateGaussian hS]
    rfl

/-- A sum of two kernels, at two observed inputs and a new one, that meets the hypotheses. -/
example : ∃ (Ω : Type) (_ : MeasurableSpace Ω) (P : Measure Ω) (parts : List (GK ℝ)) (F : Fin parts.length → Fin (2 + 1) → Ω → ℝ) (e : Fin (2 + 1) → Ω → ℝ),
    parts.length = 2 ∧ Exact (.comb .sum parts) ∧
    SampledParts P (fun j => kerK .default (Fin.append (fun a : Fin 2 => (a : ℝ)) (fun _ : Fin 1 => 5)) (parts.get j)) (1 / 10) F e := by
  have hx : Exact (.comb .sum [.base .LIN { variance := some 2, offset := some 1 }, .base .PER { lengthscale := some 1 }]) := by
    simp [Exact, ExactL]; norm_num
  obtain ⟨Ω, mΩ, P, F, e, h⟩ := exists_parts _ (fun j => C79_positive_partial .default (Fin.append (fun a : Fin 2 => (a : ℝ)) (fun _ : Fin 1 => 5)) _ (exact_get hx j)) (1 / 10) (by norm_num)
  exact ⟨Ω, mΩ, P, _, F, e, rfl, hx, h⟩

end Parts
end GPyABCD
