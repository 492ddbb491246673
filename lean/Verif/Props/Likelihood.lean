import Verif.Model.Likelihood
import Verif.Model.Misc
import Verif.Lemmas.LikGrad
import Verif.Lemmas.Gibbs
import Verif.Props.Posterior

/-!
# Property C113: scores and gradients are those of the likelihood of the data

C113: what the scores of a search are computed from is the density of the data under the model that is described and that predictions are made with (`Sampled`, as in C110); the
gradients the optimiser is given are its derivatives; and on average over the data of a true kernel no other kernel has a better one.
-/

namespace GPyABCD
open Kern Params Sops ProbabilityTheory MeasureTheory

section Likelihood
variable {Ω : Type} [MeasurableSpace Ω] {P : Measure Ω} {cfg : Cfg} {n : ℕ} {X : Fin n → ℝ} {g : GK ℝ} {noise : ℝ} {f e : Fin n → Ω → ℝ}

/-! ## Preparations -/

theorem covY_posDef (hg : Exact g) (hn : 0 < noise) : (covY cfg X g noise).PosDef := (C79_regression_partial cfg X g hg hn).1

theorem logLik_eq (y : Fin n → ℝ) : logLik cfg X y g noise = logDensity (covY cfg X g noise) y := by
  rw [logLik, logDensity, Fintype.card_fin]
  simp only [dotProduct, mul_comm]
  ring

theorem Sampled.data_gaussian (h : Sampled P cfg X g noise f e) : HasGaussianLaw (fun ω i => f i ω + e i ω) P := by
  let V := Fin n → ℝ
  have := h.joint.map_fun (ContinuousLinearMap.fst ℝ V V + ContinuousLinearMap.snd ℝ V V)
  exact this.congr (Filter.Eventually.of_forall fun ω => rfl)

theorem Sampled.data_mean (h : Sampled P cfg X g noise f e) (i : Fin n) : ∫ ω, (f i ω + e i ω) ∂P = 0 := by
  have hp := h.joint.isProbabilityMeasure
  rw [integral_add ((h.joint.fst.eval i).memLp_two.integrable (by norm_num)) ((h.joint.snd.eval i).memLp_two.integrable (by norm_num)), h.f_mean, h.e_mean, add_zero]

theorem Sampled.data_cov (h : Sampled P cfg X g noise f e) (i j : Fin n) : cov[fun ω => f i ω + e i ω, fun ω => f j ω + e j ω; P] = covY cfg X g noise i j := by
  have hp := h.joint.isProbabilityMeasure
  have hf := fun i => (h.joint.fst.eval i).memLp_two
  have he := fun i => (h.joint.snd.eval i).memLp_two
  have := covariance_add_left (hf i) (he i) ((hf j).add (he j))
  rw [covariance_add_right (hf i) (hf j) (he j), covariance_add_right (he i) (hf j) (he j), h.f_cov, h.fe_cov, covariance_comm (e i), h.fe_cov, h.e_cov] at this
  refine this.trans ?_
  simp [covY, Matrix.one_apply]

/-! ## The theorems -/

/-- C113 (partial: over the reals, periodic lengthscales in the exact regime). The log-likelihood is the logarithm of the density of the data under the model. -/
theorem C113_density_partial (hs : Sampled P cfg X g noise f e) (hg : Exact g) (hn : 0 < noise) {C : Set (Fin n → ℝ)} (hC : MeasurableSet C) :
    P {ω | (fun i => f i ω + e i ω) ∈ C} = ∫⁻ y in C, ENNReal.ofReal (Real.exp (logLik cfg X y g noise)) := by
  have hl := law_of_cov hs.data_gaussian hs.data_mean hs.data_cov
  have h2 := mvg_density (covY_posDef (cfg := cfg) (X := X) hg hn)
  rw [← hl, AEMeasurable.map_map_of_aemeasurable (by fun_prop) (hs.data_gaussian.toLp_pi 2).aemeasurable] at h2
  have h3 := congrArg (fun μ : Measure (Fin n → ℝ) => μ C) h2
  simp only [withDensity_apply _ hC] at h3
  simp only [logLik_eq]
  rw [← h3]
  exact (Measure.map_apply_of_aemeasurable hs.data_gaussian.aemeasurable hC).symm

private theorem dLdK_symm (hg : Exact g) (hn : 0 < noise) (y : Fin n → ℝ) : SymmArr (dLdK cfg X y g noise) := fun i j => by
  have := (covY_posDef (cfg := cfg) (X := X) hg hn).inv.1.apply i j
  simp only [star_trivial] at this
  rw [dLdK, dLdK, this]
  ring

/-- The log-likelihood as a function of the covariance matrix of the kernel. -/
private theorem logLik_fderiv (hg : Exact g) (hn : 0 < noise) (y : Fin n → ℝ) :
    ∃ (L : (Fin n → Fin n → ℝ) → ℝ) (L' : (Fin n → Fin n → ℝ) →L[ℝ] ℝ), (∀ g', L (kerK cfg X g') = logLik cfg X y g' noise) ∧
      HasFDerivAt L L' (kerK cfg X g) ∧ ∀ A, L' A = lossOf (dLdK cfg X y g noise) A := by
  let N : Fin n → Fin n → ℝ := fun i j => noise * (1 : Matrix (Fin n) (Fin n) ℝ) i j
  have hN : ∀ K : Fin n → Fin n → ℝ, Matrix.of (fun i j => K i j + N i j) = Matrix.of K + noise • 1 := fun K => by ext i j; simp [N]
  obtain ⟨L', h1, h2⟩ := hasFDerivAt_logDensity (s := fun i j => kerK cfg X g i j + N i j) (hN _) (covY_posDef (cfg := cfg) (X := X) hg hn) y
  refine ⟨fun K => logDensity (Matrix.of fun i j => K i j + N i j) y, L', fun g' => ?_, ?_, fun A => ?_⟩
  · simp only [logLik_eq, covY, hN]
  · have h3 : HasFDerivAt (fun K : Fin n → Fin n → ℝ => fun i j => K i j + N i j) (ContinuousLinearMap.id ℝ (Fin n → Fin n → ℝ)) (kerK cfg X g) :=
      (hasFDerivAt_id (𝕜 := ℝ) (kerK cfg X g)).add_const N
    exact HasFDerivAt.comp (kerK cfg X g) h1 h3
  · rw [h2, lossOf]
    refine Finset.sum_congr rfl fun i _ => Finset.sum_congr rfl fun j _ => ?_
    rw [dLdK, covY]
    ring

/-- C113 (partial: regular parameters as in C79, which leaves out the lengthscale of periodic kernels where the formula is approximate). For every linked parameter of every base
kernel at any depth, the gradient that is written when fitting is the derivative of the log-likelihood of the data. -/
theorem C113_gradient_partial (y : Fin n → ℝ) (C : Place) (b : Base) (p : PD ℝ) (q : Par) (t : ℝ) (hq : q.get p = some t) (hb : q ∈ parsOf cfg b) (hr : Regular b p q)
    (hg : Exact (C.fill (.base b p))) (hn : 0 < noise) :
    ∃ gs d, C.get (kerGrad cfg X (dLdK cfg X y (C.fill (.base b p)) noise) (C.fill (.base b p))) = some (.base b gs) ∧ q.get gs = some d ∧
      HasDerivAt (fun t => logLik cfg X y (C.fill (.base b (q.put p t))) noise) d t := by
  obtain ⟨L, L', h1, h2, h3⟩ := logLik_fderiv (cfg := cfg) (X := X) hg hn y
  obtain ⟨gs, d, h4, h5, h6⟩ := C79_objective_partial cfg X (dLdK_symm hg hn y) C b p q t hq hb hr L L' h2 h3
  exact ⟨gs, d, h4, h5, by simpa only [h1] using h6⟩

private theorem changeSig_diff (rev : Bool) {dL : Arr n} (hs : SymmArr dL) (c : CC) (p : PD ℝ) (q : Par) (t : ℝ) (hq : q.get p = some t)
    (hc : q ∈ [Par.location, .slope, .width]) (hw : q = .width → c = .CW) (hp : (∀ s ∈ p.slope, 0 < s) ∧ ∀ w ∈ p.width, 0 < w) :
    ∃ d, HasDerivAt (fun t => msum dL (changeSig X c (q.put p t) rev)) d t := by
  have hwid : 0 < p.width.getD 1 := by
    cases h : p.width with
    | none => norm_num
    | some w => exact hp.2 w (by simp [h])
  have hslo : 0 < p.slope.getD 0.5 := by
    cases h : p.slope with
    | none => norm_num
    | some w => exact hp.1 w (by simp [h])
  simp only [List.mem_cons, List.not_mem_nil, or_false] at hc
  rcases hc with rfl | rfl | rfl
  · simp only [Par.get] at hq
    cases c
    · exact ⟨_, by simpa only [changeSig, changePhi, Par.put, Option.getD_some, linLoss_eq, Option.getD_none] using C52_location 1 t (p.slope.getD 0.5) rev false hs X none⟩
    · exact ⟨_, by simpa only [changeSig, changePhi, Par.put, Option.getD_some, linLoss_eq, Option.getD_none] using
        C52_window_location 1 t (p.slope.getD 0.5) (p.width.getD 1) rev false hs X none⟩
  · simp only [Par.get] at hq
    rw [hq, Option.getD_some] at hslo
    cases c
    · obtain ⟨d, h1, h2⟩ := C52_slope 1 (p.location.getD 0) hslo.ne' rev hs X none
      exact ⟨d, by simpa only [changeSig, changePhi, Par.put, Option.getD_some, linLoss_eq, Option.getD_none] using h2⟩
    · obtain ⟨d, h1, h2⟩ := C52_window_slope 1 (p.location.getD 0) hslo hwid rev hs X none
      exact ⟨d, by simpa only [changeSig, changePhi, Par.put, Option.getD_some, linLoss_eq, Option.getD_none] using h2⟩
  · simp only [Par.get] at hq
    rw [hq, Option.getD_some] at hwid
    obtain rfl := hw rfl
    exact ⟨_, by simpa only [changeSig, changePhi, Par.put, Option.getD_some, linLoss_eq, Option.getD_none] using
      C52_window_width 1 (p.location.getD 0) hslo hwid rev false hs X none⟩

private theorem changeSig_entry (rev : Bool) (c : CC) (p : PD ℝ) (q : Par) (t : ℝ) (hq : q.get p = some t)
    (hc : q ∈ [Par.location, .slope, .width]) (hw : q = .width → c = .CW) (hp : (∀ s ∈ p.slope, 0 < s) ∧ ∀ w ∈ p.width, 0 < w) (i j : Fin n) :
    ∃ d, HasDerivAt (fun t => changeSig X c (q.put p t) rev i j) d t :=
  entries_of (K := fun t => changeSig X c (q.put p t) rev) (fun t a b => by simp only [changeSig, matK, basisK]; ring)
    (fun dL hs => changeSig_diff rev hs c p q t hq hc hw hp) i j

/-- C113, for the own parameters of change kernels (location, slope, width) at any depth: what is written is the derivative of the log-likelihood exactly where the first
branch's share does not change, as in `C79_change_iff` (`C56_wrong`: not always). -/
theorem C113_change_iff (y : Fin n → ℝ) (C : Place) (c : CC) (p : PD ℝ) (l r : GK ℝ) (q : Par) (t : ℝ) (hq : q.get p = some t)
    (hc : q ∈ [Par.location, .slope, .width]) (hw : q = .width → c = .CW) (hp : (∀ s ∈ p.slope, 0 < s) ∧ ∀ w ∈ p.width, 0 < w)
    (hg : Exact (C.fill (.change c p l r))) (hn : 0 < noise) :
    ∃ gs d l' r', C.get (kerGrad cfg X (dLdK cfg X y (C.fill (.change c p l r)) noise) (C.fill (.change c p l r))) = some (.change c gs l' r') ∧ q.get gs = some d ∧
      (HasDerivAt (fun t => logLik cfg X y (C.fill (.change c (q.put p t) l r)) noise) d t ↔
        HasDerivAt (fun t => lossOf (dLdK cfg X y (C.fill (.change c p l r)) noise) (fun i j => C.weight cfg X i j * kerK cfg X l i j *
          (changePhi c (q.put p t) true (X i) * changePhi c (q.put p t) true (X j)))) 0 t) := by
  obtain ⟨L, L', h1, h2, h3⟩ := logLik_fderiv (cfg := cfg) (X := X) hg hn y
  obtain ⟨gs, d, l', r', h4, h5, h6⟩ := C79_change_iff cfg X (dLdK_symm hg hn y) C c p l r q t hq hc hw hp
  refine ⟨gs, d, l', r', h4, h5, Iff.trans ?_ h6⟩
  choose A hA using changeSig_entry (X := X) true c p q t hq hc hw hp
  choose B hB using changeSig_entry (X := X) false c p q t hq hc hw hp
  let D : Fin n → Fin n → ℝ := fun i j => C.weight cfg X i j * (kerK cfg X l i j * A i j + kerK cfg X r i j * B i j)
  have hD : ∀ i j, HasDerivAt (fun t => kerK cfg X (C.fill (.change c (q.put p t) l r)) i j) (D i j) t := fun i j => by
    have := ((((hA i j).const_mul (kerK cfg X l i j)).add ((hB i j).const_mul (kerK cfg X r i j))).const_mul (C.weight cfg X i j)).add_const (C.rest cfg X i j)
    refine this.congr_of_eventuallyEq (Filter.Eventually.of_forall fun t => ?_)
    simp only [kerK_fill, kerK, Arr.mul, Arr.add, Pi.add_apply]
    try ring
  have hK : HasDerivAt (fun t => kerK cfg X (C.fill (.change c (q.put p t) l r))) D t := hasDerivAt_pi.2 fun i => hasDerivAt_pi.2 fun j => hD i j
  have hL : HasDerivAt (fun t => logLik cfg X y (C.fill (.change c (q.put p t) l r)) noise) (L' D) t := by
    have h7 : HasFDerivAt L L' (kerK cfg X (C.fill (.change c (q.put p t) l r))) := by rw [put_get p q t hq]; exact h2
    simpa only [Function.comp_def, h1] using h7.comp_hasDerivAt t hK
  have hl : HasDerivAt (fun t => lossOf (dLdK cfg X y (C.fill (.change c p l r)) noise) (kerK cfg X (C.fill (.change c (q.put p t) l r)))) (L' D) t := by
    rw [h3]
    exact HasDerivAt.fun_sum fun i _ => HasDerivAt.fun_sum fun j _ => (hD i j).const_mul _
  exact ⟨fun h => by rw [h.unique hL]; exact hl, fun h => by rw [h.unique hl]; exact hL⟩

/-- C113: such a gradient can be wrong. One observation, of zero at zero; a change point at zero between two constants; all variances one. -/
theorem C113_change_wrong : ∃ gs d l' r', kerGrad cfg (fun _ : Fin 1 => 0) (dLdK cfg (fun _ => 0) (fun _ => 0)
      (.change .CP { location := some 0 } (.base .C { variance := some 1 }) (.base .C { variance := some 1 })) 1)
      (.change .CP { location := some 0 } (.base .C { variance := some 1 }) (.base .C { variance := some 1 })) = .change .CP gs l' r' ∧ gs.location = some d ∧
    ¬HasDerivAt (fun t => logLik cfg (fun _ : Fin 1 => 0) (fun _ => 0)
      (.change .CP { location := some t } (.base .C { variance := some 1 }) (.base .C { variance := some 1 })) 1) d 0 := by
  obtain ⟨gs, d, l', r', h1, h2, h3⟩ := C113_change_iff (cfg := cfg) (X := fun _ : Fin 1 => 0) (noise := 1) (fun _ => 0) .here .CP { location := some 0 }
    (.base .C { variance := some 1 }) (.base .C { variance := some 1 }) .location 0 rfl (by simp) (by simp) (by simp) (by simp [Place.fill, Exact]) one_pos
  refine ⟨gs, d, l', r', Option.some.inj h1, h2, fun h => ?_⟩
  have h4 := h3.1 h
  have h5 : HasDerivAt (fun t => phiS t 0.5 true 0) 1 0 := by
    refine (hasDerivAt_phiS_loc (s := 0.5) true 0 0).congr_deriv ?_
    norm_num [sigmoidD]
  have h6 := (h5.mul h5).const_mul (dLdK cfg (fun _ : Fin 1 => 0) (fun _ => 0)
      (.change .CP { location := some 0 } (.base .C { variance := some 1 }) (.base .C { variance := some 1 })) 1 0 0)
  have h7 := h4.unique (h6.congr_of_eventuallyEq (Filter.Eventually.of_forall fun t => by
    simp [lossOf, Place.weight, changePhi, Par.put, kerK, baseK, Place.fill, matK, bias, varOf]))
  have h8 : (covY cfg (fun _ : Fin 1 => 0) (.change .CP { location := some 0 } (.base .C { variance := some 1 }) (.base .C { variance := some 1 })) 1) 0 0 ≠ 0 := by
    have := (covY_posDef (cfg := cfg) (X := fun _ : Fin 1 => 0) (g := .change .CP { location := some 0 } (.base .C { variance := some 1 }) (.base .C { variance := some 1 }))
      (by simp [Exact]) one_pos).diag_pos (i := 0)
    exact this.ne'
  have h9 : phiS 0 0.5 true 0 = 1 / 2 := by norm_num [phiS, sigmoid]
  rw [h9, dLdK] at h7
  norm_num [Matrix.mulVec, dotProduct, h8] at h7

/-- C113: and so is the gradient of the noise. -/
theorem C113_noise_partial (y : Fin n → ℝ) (hg : Exact g) (hn : 0 < noise) : HasDerivAt (fun s => logLik cfg X y g s) (noiseGrad cfg X y g noise) noise := by
  let K : ℝ → Fin n → Fin n → ℝ := fun s i j => kerK cfg X g i j + s * (1 : Matrix (Fin n) (Fin n) ℝ) i j
  have hN : ∀ s, Matrix.of (K s) = covY cfg X g s := fun s => by ext i j; simp [K, covY]
  obtain ⟨L', h1, h2⟩ := hasFDerivAt_logDensity (s := K noise) (hN noise) (covY_posDef (cfg := cfg) (X := X) hg hn) y
  have hK : HasDerivAt K (fun i j => (1 : Matrix (Fin n) (Fin n) ℝ) i j) noise :=
    hasDerivAt_pi.2 fun i => hasDerivAt_pi.2 fun j => by
      have := ((hasDerivAt_id noise).mul_const ((1 : Matrix (Fin n) (Fin n) ℝ) i j)).const_add (kerK cfg X g i j)
      rw [one_mul] at this
      exact this
  have h3 := h1.comp_hasDerivAt noise hK
  have e1 : L' (fun i j => (1 : Matrix (Fin n) (Fin n) ℝ) i j) = noiseGrad cfg X y g noise := by
    rw [h2, noiseGrad]
    refine Finset.sum_congr rfl fun i _ => ?_
    rw [Finset.sum_eq_single i (fun j _ hj => by rw [Matrix.one_apply_ne (Ne.symm hj), mul_zero]) (by simp), Matrix.one_apply_eq, dLdK]
    ring
  rw [e1] at h3
  refine h3.congr_of_eventuallyEq (Filter.Eventually.of_forall fun s => ?_)
  simp only [Function.comp, hN, logLik_eq]

/-- C113 (partial: over the reals, periodic lengthscales in the exact regime). If the data come from the kernel `g` with the given noise, then no other kernel and noise have a higher
log-likelihood on average, and the average is lower for all that do not have the same covariances of the data. -/
theorem C113_truth_partial (hs : Sampled P cfg X g noise f e) (hg : Exact g) (hn : 0 < noise) {g' : GK ℝ} {noise' : ℝ} (hg' : Exact g') (hn' : 0 < noise') :
    Integrable (fun ω => logLik cfg X (fun i => f i ω + e i ω) g' noise') P ∧
    ∫ ω, logLik cfg X (fun i => f i ω + e i ω) g' noise' ∂P ≤ ∫ ω, logLik cfg X (fun i => f i ω + e i ω) g noise ∂P ∧
    ((∃ i j, kerK cfg X g' i j + (if i = j then noise' else 0) ≠ kerK cfg X g i j + if i = j then noise else 0) →
      ∫ ω, logLik cfg X (fun i => f i ω + e i ω) g' noise' ∂P < ∫ ω, logLik cfg X (fun i => f i ω + e i ω) g noise ∂P) := by
  simp only [logLik_eq]
  obtain ⟨h1, h2, h3⟩ := gibbs (covY_posDef (cfg := cfg) (X := X) hg hn) (covY_posDef (cfg := cfg) (X := X) hg' hn') hs.data_gaussian hs.data_mean hs.data_cov
  refine ⟨h1, h2, fun ⟨i, j, hij⟩ => lt_of_le_of_ne h2 fun he => hij ?_⟩
  have := congrFun (congrFun (h3 he) i) j
  simpa [covY, Matrix.one_apply] using this

/-- C113. The same for the scores: on average `BIC` and `AIC` rank the kernel that the data come from before every other with at least as many parameters. -/
theorem C113_scores_partial (hs : Sampled P cfg X g noise f e) (hg : Exact g) (hn : 0 < noise) {g' : GK ℝ} {noise' : ℝ} (hg' : Exact g') (hn' : 0 < noise') {k k' : ℕ} (hk : k ≤ k') :
    ∫ ω, Score.bic (logLik cfg X (fun i => f i ω + e i ω) g noise) n k ∂P ≤ ∫ ω, Score.bic (logLik cfg X (fun i => f i ω + e i ω) g' noise') n k' ∂P ∧
    ∫ ω, Score.aic (logLik cfg X (fun i => f i ω + e i ω) g noise) n k ∂P ≤ ∫ ω, Score.aic (logLik cfg X (fun i => f i ω + e i ω) g' noise') n k' ∂P := by
  have hp := hs.joint.isProbabilityMeasure
  obtain ⟨h1, h2, -⟩ := C113_truth_partial hs hg hn hg' hn'
  obtain ⟨h3, -, -⟩ := C113_truth_partial hs hg hn hg hn
  have hk' : (k : ℝ) ≤ k' := by exact_mod_cast hk
  unfold Score.bic Score.aic
  constructor
  · rw [integral_add (h3.const_mul _) (integrable_const _), integral_add (h1.const_mul _) (integrable_const _), integral_const_mul,
      integral_const_mul _ fun ω => logLik cfg X (fun i => f i ω + e i ω) g' noise']
    have : (k : ℝ) * Real.log n ≤ k' * Real.log n := mul_le_mul_of_nonneg_right hk' (Real.log_natCast_nonneg n)
    simp only [integral_const, probReal_univ, smul_eq_mul, one_mul]
    linarith
  · have h1' := h1.neg
    have h3' := h3.neg
    simp only [Pi.neg_def] at h1' h3'
    rw [integral_const_mul, integral_const_mul, integral_add h3' (integrable_const _), integral_add h1' (integrable_const _), integral_neg, integral_neg]
    simp only [integral_const, probReal_univ, smul_eq_mul, one_mul]
    linarith

/-! ## An example: the data of `CP(C, LIN) + PER` at three inputs, against `LIN`; the period, and the location of the change -/

private noncomputable def exG : GK ℝ := .comb .sum [.change .CP { location := some 0 } (.base .C { variance := some 1 }) (.base .LIN { variance := some 2, offset := some 3 }),
  .base .PER { variance := some 2, period := some 3, lengthscale := some 1 }]

private noncomputable def exH : GK ℝ := .base .LIN { variance := some 2, offset := some 3 }

example : ∃ (Ω : Type) (_ : MeasurableSpace Ω) (P : Measure Ω) (f e : Fin 3 → Ω → ℝ), Exact exG ∧ Exact exH ∧ Sampled P .default (fun i : Fin 3 => (i : ℝ)) exG 1 f e ∧
    (∃ i j, kerK .default (fun i : Fin 3 => (i : ℝ)) exH i j + (if i = j then (1 : ℝ) else 0) ≠ kerK .default (fun i : Fin 3 => (i : ℝ)) exG i j + if i = j then (1 : ℝ) else 0) := by
  have hx : Exact exG := by
    simp [exG, Exact, ExactL]
    norm_num
  have hy : Exact exH := by simp [exH, Exact]
  obtain ⟨Ω, mΩ, P, f, e, h⟩ := exists_sampled .default (fun i : Fin 3 => (i : ℝ)) exG hx 1 zero_le_one
  refine ⟨Ω, mΩ, P, f, e, hx, hy, h, 0, 0, ?_⟩
  rw [← C79_diagonal .default _ exH (by simp [exH, PosLength]) 0, ← C79_diagonal .default _ exG (by simp [exG, PosLength, PosLengthL]) 0]
  norm_num [exH, exG, kerDiag, diagSum, baseKdiag, linearOffsetKdiag, perKdiag, changeKdiag, changePhi, phiS, sigmoid, varOf, Cfg.default]

example : ∃ C : Place, C.fill (.base .PER { variance := some 2, period := some 3, lengthscale := some 1 }) = exG ∧ Par.period ∈ parsOf .default .PER ∧
    Regular .PER { variance := some 2, period := some 3, lengthscale := some 1 } .period :=
  ⟨.part .sum [.change .CP { location := some 0 } (.base .C { variance := some 1 }) (.base .LIN { variance := some 2, offset := some 3 })] .here [], rfl, by decide, by simp [Regular]⟩

example : ∃ C : Place, C.fill (.change .CP { location := some 0 } (.base .C { variance := some 1 }) (.base .LIN { variance := some 2, offset := some 3 })) = exG :=
  ⟨.part .sum [] .here [.base .PER { variance := some 2, period := some 3, lengthscale := some 1 }], rfl⟩

end Likelihood
end GPyABCD
