import Verif.Lemmas.Units

/-!
# Property C115: order, origin and units of the data do not matter
-/

namespace GPyABCD
open Kern Params Sops KE Units

/-! ## Order -/

/-- C115. The order in which the data are given does not matter: neither to the log-likelihood, from which the scores are computed, nor to anything
that is predicted. -/
theorem C115_order (cfg : Cfg) (ppf : ℝ → ℝ) {n m : ℕ} (X y : Fin n → ℝ) (σ : Equiv.Perm (Fin n)) (g : GK ℝ) (noise : ℝ) (Y : Fin m → ℝ) (q : List ℝ)
    (fc il : Bool) :
    logLik cfg (X ∘ σ) (y ∘ σ) g noise = logLik cfg X y g noise ∧
      predict cfg ppf (X ∘ σ) (y ∘ σ) g noise Y q fc il = predict cfg ppf X y g noise Y q fc il := by
  have hinv : (covY cfg (X ∘ σ) g noise)⁻¹ = ((covY cfg X g noise)⁻¹).submatrix σ σ := by rw [covY_perm, Matrix.inv_submatrix_equiv]
  have hmul : (covY cfg (X ∘ σ) g noise)⁻¹.mulVec (y ∘ σ) = (covY cfg X g noise)⁻¹.mulVec y ∘ σ := by
    rw [hinv, Matrix.submatrix_mulVec_equiv]
    simp [Function.comp_assoc]
  have h2 : ∀ i j, kerK2 cfg (X ∘ σ) Y g i j = kerK2 cfg X Y g (σ i) j := fun i j => by
    have := kerK2_perm cfg X Y σ id g i j
    simpa using this
  have hmean : rawMean cfg (X ∘ σ) (y ∘ σ) Y g noise = rawMean cfg X y Y g noise := by
    funext j
    have e1 : rawMean cfg (X ∘ σ) (y ∘ σ) Y g noise j = ∑ i, kerK2 cfg (X ∘ σ) Y g i j * (covY cfg (X ∘ σ) g noise)⁻¹.mulVec (y ∘ σ) i := rfl
    have e2 : rawMean cfg X y Y g noise j = ∑ i, kerK2 cfg X Y g i j * (covY cfg X g noise)⁻¹.mulVec y i := rfl
    rw [e1, e2, hmul]
    simp only [h2, Function.comp]
    exact Equiv.sum_comp σ fun i => kerK2 cfg X Y g i j * (covY cfg X g noise)⁻¹.mulVec y i
  have hexp : explained cfg (X ∘ σ) Y g noise = explained cfg X Y g noise := by
    have e1 : explained cfg (X ∘ σ) Y g noise = (Matrix.of (kerK2 cfg (X ∘ σ) Y g)).transpose * (covY cfg (X ∘ σ) g noise)⁻¹ * Matrix.of (kerK2 cfg (X ∘ σ) Y g) := rfl
    have e2 : explained cfg X Y g noise = (Matrix.of (kerK2 cfg X Y g)).transpose * (covY cfg X g noise)⁻¹ * Matrix.of (kerK2 cfg X Y g) := rfl
    have e3 : Matrix.of (kerK2 cfg (X ∘ σ) Y g) = (Matrix.of (kerK2 cfg X Y g)).submatrix σ id := by ext i j; exact h2 i j
    rw [e1, e2, hinv, e3, Matrix.transpose_submatrix, Matrix.submatrix_mul_equiv, Matrix.submatrix_mul_equiv, Matrix.submatrix_id_id]
  constructor
  · rw [logLik, logLik, hmul, covY_perm, Matrix.det_submatrix_equiv_self]
    congr 2
    exact Equiv.sum_comp σ fun i => (covY cfg X g noise)⁻¹.mulVec y i * y i
  · have hvar : rawVar cfg (X ∘ σ) Y g noise = rawVar cfg X Y g noise := by unfold rawVar; rw [hexp]
    have hcov : rawCov cfg (X ∘ σ) Y g noise = rawCov cfg X Y g noise := by unfold rawCov; rw [hexp]
    have hq : quantileAt cfg ppf (X ∘ σ) (y ∘ σ) Y g noise = quantileAt cfg ppf X y Y g noise := by unfold quantileAt; rw [hvar, hmean]
    simp only [predict, predictCov, hq, hmean, hvar, hcov]

/-- C115. Predictions at several inputs are those at each of them: what is predicted at some of the inputs, in another order, is what is predicted there
among all of them. -/
theorem C115_new_inputs (cfg : Cfg) (ppf : ℝ → ℝ) {n m m' : ℕ} (X y : Fin n → ℝ) (g : GK ℝ) (noise : ℝ) (Y : Fin m → ℝ) (τ : Fin m' → Fin m)
    (hτ : Function.Injective τ) (q : List ℝ) (fc il : Bool) :
    predict cfg ppf X y g noise (Y ∘ τ) q fc il = (predict cfg ppf X y g noise Y q fc il).map (Prediction.pick τ) := by
  have h2 : ∀ i j, kerK2 cfg X (Y ∘ τ) g i j = kerK2 cfg X Y g i (τ j) := fun i j => by
    have := kerK2_perm cfg X Y id τ g i j
    simpa using this
  have hmean : rawMean cfg X y (Y ∘ τ) g noise = rawMean cfg X y Y g noise ∘ τ := by
    funext j
    simp only [rawMean, Matrix.mulVec, dotProduct, Matrix.transpose_apply, Matrix.of_apply, h2, Function.comp]
  have hexp : ∀ i j, explained cfg X (Y ∘ τ) g noise i j = explained cfg X Y g noise (τ i) (τ j) := fun i j => by
    simp only [explained, Matrix.mul_apply, Matrix.transpose_apply, Matrix.of_apply, h2]
  have hvar : rawVar cfg X (Y ∘ τ) g noise = rawVar cfg X Y g noise ∘ τ := by
    funext i; simp only [rawVar, hexp, kerDiag_perm, Function.comp]
  have hcov : ∀ i j, rawCov cfg X (Y ∘ τ) g noise i j = rawCov cfg X Y g noise (τ i) (τ j) := fun i j => by
    simp only [rawCov, hexp, kerK_perm cfg Y τ hτ]
  have hq : ∀ r, quantileAt cfg ppf X y (Y ∘ τ) g noise r = quantileAt cfg ppf X y Y g noise r ∘ τ := fun r => by
    funext i; simp only [quantileAt, hvar, hmean, Function.comp]
  match q with
  | [] => rfl
  | [_] => rfl
  | a :: b :: _ =>
    simp only [predict, List.map_cons, Except.map, Prediction.pick, hq, hmean, predictCov]
    cases fc
    · simp only [Bool.false_eq_true, if_false, hvar]; rfl
    · simp only [if_true, hcov, hτ.eq_iff]

/-! ## Origin and units -/

private theorem inv_smul_matrix {n : ℕ} {e : ℝ} (he : e ≠ 0) (A : Matrix (Fin n) (Fin n) ℝ) : (e • A)⁻¹ = e⁻¹ • A⁻¹ := by
  by_cases h : IsUnit A.det
  · refine Matrix.inv_eq_left_inv ?_
    rw [smul_mul_smul_comm, inv_mul_cancel₀ he, Matrix.nonsing_inv_mul _ h, one_smul]
  · have h' : ¬ IsUnit (e • A).det := by
      rw [Matrix.det_smul]
      intro hu
      exact h (isUnit_of_mul_isUnit_right hu)
    rw [Matrix.nonsing_inv_apply_not_isUnit _ h, Matrix.nonsing_inv_apply_not_isUnit _ h', smul_zero]

private theorem covY_rel {cfg : Cfg} {φ : ℝ → ℝ} {e : ℝ} {g g' : GK ℝ} (h : Rel cfg φ e g g') {n : ℕ} (X : Fin n → ℝ) (noise : ℝ) :
    covY cfg (φ ∘ X) g' (e * noise) = e • covY cfg X g noise := by
  ext i j
  simp only [covY, Matrix.add_apply, Matrix.of_apply, Matrix.smul_apply, h.1, smul_eq_mul]
  ring

private theorem logLik_rel {cfg : Cfg} {φ : ℝ → ℝ} {s : ℝ} (hs : 0 < s) {g g' : GK ℝ} (h : Rel cfg φ (s ^ 2) g g') {n : ℕ} (X y : Fin n → ℝ) (noise : ℝ)
    (hd : (covY cfg X g noise).det ≠ 0) :
    logLik cfg (φ ∘ X) (fun i => s * y i) g' (s ^ 2 * noise) = logLik cfg X y g noise - n * Real.log s := by
  have h2 : s ^ 2 ≠ 0 := by positivity
  have e1 : ∀ i, (covY cfg (φ ∘ X) g' (s ^ 2 * noise))⁻¹.mulVec (fun i => s * y i) i * (s * y i) = (covY cfg X g noise)⁻¹.mulVec y i * y i := fun i => by
    rw [covY_rel h, inv_smul_matrix h2, Matrix.smul_mulVec, show (fun i => s * y i) = s • y from rfl, Matrix.mulVec_smul]
    simp only [Pi.smul_apply, smul_eq_mul]
    field_simp
  simp only [logLik, e1]
  rw [covY_rel h, Matrix.det_smul, Real.log_mul (by positivity) hd, Fintype.card_fin, Real.log_pow, Real.log_pow]
  push_cast
  ring

private theorem predict_rel {cfg : Cfg} {φ : ℝ → ℝ} {s : ℝ} (hs : 0 < s) {g g' : GK ℝ} (h : Rel cfg φ (s ^ 2) g g') (ppf : ℝ → ℝ) {n m : ℕ}
    (X y : Fin n → ℝ) (noise : ℝ) (Y : Fin m → ℝ) (q : List ℝ) (fc il : Bool) :
    predict cfg ppf (φ ∘ X) (fun i => s * y i) g' (s ^ 2 * noise) (φ ∘ Y) q fc il = (predict cfg ppf X y g noise Y q fc il).map (Prediction.scale s) := by
  have h2 : s ^ 2 ≠ 0 := by positivity
  have hinv : (covY cfg (φ ∘ X) g' (s ^ 2 * noise))⁻¹ = (s ^ 2)⁻¹ • (covY cfg X g noise)⁻¹ := by rw [covY_rel h, inv_smul_matrix h2]
  have hmean : rawMean cfg (φ ∘ X) (fun i => s * y i) (φ ∘ Y) g' (s ^ 2 * noise) = fun i => s * rawMean cfg X y Y g noise i := by
    funext j
    have e1 : rawMean cfg (φ ∘ X) (fun i => s * y i) (φ ∘ Y) g' (s ^ 2 * noise) j =
      ∑ i, kerK2 cfg (φ ∘ X) (φ ∘ Y) g' i j * (covY cfg (φ ∘ X) g' (s ^ 2 * noise))⁻¹.mulVec (fun i => s * y i) i := rfl
    have e2 : rawMean cfg X y Y g noise j = ∑ i, kerK2 cfg X Y g i j * (covY cfg X g noise)⁻¹.mulVec y i := rfl
    rw [e1, e2, hinv, Finset.mul_sum]
    refine Finset.sum_congr rfl fun i _ => ?_
    rw [h.2.1, Matrix.smul_mulVec, show (fun i => s * y i) = s • y from rfl, Matrix.mulVec_smul]
    simp only [Pi.smul_apply, smul_eq_mul]
    field_simp
  have hexp : ∀ i j, explained cfg (φ ∘ X) (φ ∘ Y) g' (s ^ 2 * noise) i j = s ^ 2 * explained cfg X Y g noise i j := fun i j => by
    have e1 : explained cfg (φ ∘ X) (φ ∘ Y) g' (s ^ 2 * noise) =
      (Matrix.of (kerK2 cfg (φ ∘ X) (φ ∘ Y) g')).transpose * (covY cfg (φ ∘ X) g' (s ^ 2 * noise))⁻¹ * Matrix.of (kerK2 cfg (φ ∘ X) (φ ∘ Y) g') := rfl
    have e2 : explained cfg X Y g noise = (Matrix.of (kerK2 cfg X Y g)).transpose * (covY cfg X g noise)⁻¹ * Matrix.of (kerK2 cfg X Y g) := rfl
    have e3 : Matrix.of (kerK2 cfg (φ ∘ X) (φ ∘ Y) g') = s ^ 2 • Matrix.of (kerK2 cfg X Y g) := by ext i j; exact h.2.1 n m X Y i j
    rw [e1, e2, hinv, e3, Matrix.transpose_smul]
    simp only [Matrix.smul_mul, Matrix.mul_smul, smul_smul, Matrix.smul_apply, smul_eq_mul]
    field_simp
  have hvar : ∀ i, rawVar cfg (φ ∘ X) (φ ∘ Y) g' (s ^ 2 * noise) i = s ^ 2 * rawVar cfg X Y g noise i := fun i => by
    simp only [rawVar, hexp, h.2.2]; ring
  have hcov : ∀ i j, rawCov cfg (φ ∘ X) (φ ∘ Y) g' (s ^ 2 * noise) i j = s ^ 2 * rawCov cfg X Y g noise i j := fun i j => by
    simp only [rawCov, hexp, h.1]; ring
  have hq : ∀ r, quantileAt cfg ppf (φ ∘ X) (fun i => s * y i) (φ ∘ Y) g' (s ^ 2 * noise) r = fun i => s * quantileAt cfg ppf X y Y g noise r i := fun r => by
    funext i
    simp only [quantileAt, hvar, hmean]
    rw [← mul_add, Real.sqrt_mul (by positivity), Real.sqrt_sq hs.le]
    ring
  match q with
  | [] => rfl
  | [_] => rfl
  | a :: b :: _ =>
    simp only [predict, List.map_cons, Except.map, Prediction.scale, hq, hmean, predictCov]
    cases fc
    · simp only [Bool.false_eq_true, if_false, hvar, CovArr.scale]
      congr 3
      funext i
      split_ifs <;> ring
    · simp only [if_true, hcov, CovArr.scale]
      congr 3
      funext i j
      split_ifs <;> ring

/-- Fits of an expression to the data `X`, `y` and to other data `X'`, `y'` that correspond to each other: the log-likelihoods differ by `d`, and predictions at
inputs moved by `φ` are `s` times as large. -/
def Corresponds (cfg : Cfg) (φ : ℝ → ℝ) (s : ℝ) (g g' : GK ℝ) : Prop :=
  (∀ (n : ℕ) (X y : Fin n → ℝ) (noise : ℝ), (covY cfg X g noise).det ≠ 0 →
    logLik cfg (φ ∘ X) (fun i => s * y i) g' (s ^ 2 * noise) = logLik cfg X y g noise - n * Real.log s) ∧
  (∀ (n : ℕ) (X : Fin n → ℝ) (noise : ℝ), (covY cfg X g noise).det ≠ 0 → (covY cfg (φ ∘ X) g' (s ^ 2 * noise)).det ≠ 0) ∧
  ∀ (ppf : ℝ → ℝ) (n m : ℕ) (X y : Fin n → ℝ) (noise : ℝ) (Y : Fin m → ℝ) (q : List ℝ) (fc il : Bool),
    predict cfg ppf (φ ∘ X) (fun i => s * y i) g' (s ^ 2 * noise) (φ ∘ Y) q fc il = (predict cfg ppf X y g noise Y q fc il).map (Prediction.scale s)

private theorem corr_rel {cfg : Cfg} {φ : ℝ → ℝ} {s : ℝ} (hs : 0 < s) {g g' : GK ℝ} (h : Rel cfg φ (s ^ 2) g g') : Corresponds cfg φ s g g' := by
  refine ⟨fun n X y noise hd => logLik_rel hs h X y noise hd, fun n X noise hd => ?_, fun ppf n m X y noise Y q fc il => predict_rel hs h ppf X y noise Y q fc il⟩
  rw [covY_rel h, Matrix.det_smul]
  exact mul_ne_zero (by positivity) hd

/-- C115. Where the inputs are counted from does not matter, if LIN has an offset: to every fit of an expression there is one to the data with moved inputs that
has the same log-likelihood and the same predictions. -/
theorem C115_origin_partial (cfg : Cfg) (hc : cfg.linOffset = true) (k : KE) (hs : ∀ x ∈ bases k, x.isSigmoid = false) (g : GK ℝ) (hg : FittedTo cfg k g) (c : ℝ) :
    ∃ g', FittedTo cfg k g' ∧ Corresponds cfg (· + c) 1 g g' := by
  obtain ⟨g', h1, h2, h3⟩ := shift_ex cfg hc c g (std_toKernel cfg k hs _ hg.1)
  exact ⟨g', ⟨by rw [h1]; exact hg.1, h2 hg.2⟩, corr_rel one_pos (by rwa [one_pow])⟩

/-- C115. The unit of the outputs does not matter: to every fit of an expression there is one to the scaled data whose predictions are scaled likewise, and
whose log-likelihood differs by an amount that does not depend on the expression. -/
theorem C115_outputs (cfg : Cfg) (k : KE) (hs : ∀ x ∈ bases k, x.isSigmoid = false) (g : GK ℝ) (hg : FittedTo cfg k g) {s : ℝ} (h0 : 0 < s) :
    ∃ g', FittedTo cfg k g' ∧ Corresponds cfg id s g g' := by
  have hsc := (nice_toKernel cfg k hs _ hg.1).2
  rw [sc_erase] at hsc
  obtain ⟨g', h1, h2, h3⟩ := scale_ex cfg (by positivity : 0 < s ^ 2) g hsc
  exact ⟨g', ⟨by rw [h1]; exact hg.1, h2 hg.2⟩, corr_rel h0 h3⟩

/-- C115. The unit of the inputs does not matter, if slopes are fitted or there are no change operators. -/
theorem C115_inputs_partial (cfg : Cfg) (k : KE) (hf : cfg.fixSlope = false ∨ noChange k = true)
    (hs : ∀ x ∈ bases k, x.isSigmoid = false) (g : GK ℝ) (hg : FittedTo cfg k g) {s : ℝ}
    (h0 : 0 < s) : ∃ g', FittedTo cfg k g' ∧ Corresponds cfg (s * ·) 1 g g' := by
  have hn := nice_toKernel cfg k hs _ hg.1
  rw [sc_erase, good_erase] at hn
  obtain ⟨g', h1, h2, h3⟩ := norm_one (units_ex cfg h0 g (hf.imp_right fun h => by rw [← nc_erase]; exact nc_toKernel cfg k h _ hg.1) (std_toKernel cfg k hs _ hg.1) hn.1) hn.2
  exact ⟨g', ⟨by rw [h1]; exact hg.1, h2 hg.2⟩, corr_rel one_pos (by rwa [one_pow])⟩

/-- C115. What fitting can arrive at, and so the best of it, stays the same when the inputs are counted from elsewhere. -/
theorem C115_attainable_origin_partial (cfg : Cfg) (hc : cfg.linOffset = true) (k : KE) (hs : ∀ x ∈ bases k, x.isSigmoid = false) {n : ℕ} (X y : Fin n → ℝ) (c : ℝ) :
    attainable cfg k (fun i => X i + c) y = attainable cfg k X y := by
  have key : ∀ (X : Fin n → ℝ) (c : ℝ), attainable cfg k X y ⊆ attainable cfg k (fun i => X i + c) y := by
    rintro X c L ⟨g, noise, hg, hn, hd, rfl⟩
    obtain ⟨g', h1, h2, h3, -⟩ := C115_origin_partial cfg hc k hs g hg c
    have a := h2 n X y noise hd
    have b := h3 n X noise hd
    simp only [one_mul, one_pow, Real.log_one, mul_zero, sub_zero] at a b
    exact ⟨g', noise, h1, hn, b, a.symm⟩
  refine Set.Subset.antisymm ?_ (key X c)
  have := key (fun i => X i + c) (-c)
  simpa using this

/-- C115. Scaling the outputs changes what fitting can arrive at by the same amount for every expression. -/
theorem C115_attainable_outputs (cfg : Cfg) (k : KE) (hs : ∀ x ∈ bases k, x.isSigmoid = false) {n : ℕ} (X y : Fin n → ℝ) {s : ℝ} (h0 : 0 < s) :
    attainable cfg k X (fun i => s * y i) = (fun L => L - n * Real.log s) '' attainable cfg k X y := by
  have key : ∀ (y : Fin n → ℝ) {s : ℝ} (_ : 0 < s) L, L ∈ attainable cfg k X y → L - n * Real.log s ∈ attainable cfg k X (fun i => s * y i) := by
    rintro y s h0 L ⟨g, noise, hg, hn, hd, rfl⟩
    obtain ⟨g', h1, h2, h3, -⟩ := C115_outputs cfg k hs g hg h0
    exact ⟨g', s ^ 2 * noise, h1, by positivity, h3 n X noise hd, (h2 n X y noise hd).symm⟩
  ext L
  constructor
  · intro hL
    have := key _ (inv_pos.2 h0) L hL
    refine ⟨L - n * Real.log s⁻¹, ?_, ?_⟩
    · have e : (fun i => s⁻¹ * (s * y i)) = y := by funext i; field_simp
      rwa [e] at this
    · simp [Real.log_inv]
  · rintro ⟨L, hL, rfl⟩
    exact key y h0 L hL

/-- C115. The same for the unit of the inputs, if slopes are fitted or there are no change operators. -/
theorem C115_attainable_inputs_partial (cfg : Cfg) (k : KE) (hf : cfg.fixSlope = false ∨ noChange k = true)
    (hs : ∀ x ∈ bases k, x.isSigmoid = false) {n : ℕ} (X y : Fin n → ℝ) {s : ℝ}
    (h0 : 0 < s) : attainable cfg k (fun i => s * X i) y = attainable cfg k X y := by
  have key : ∀ (X : Fin n → ℝ) {s : ℝ} (_ : 0 < s), attainable cfg k X y ⊆ attainable cfg k (fun i => s * X i) y := by
    rintro X s h0 L ⟨g, noise, hg, hn, hd, rfl⟩
    obtain ⟨g', h1, h2, h3, -⟩ := C115_inputs_partial cfg k hf hs g hg h0
    have a := h2 n X y noise hd
    have b := h3 n X noise hd
    simp only [one_mul, one_pow, Real.log_one, mul_zero, sub_zero] at a b
    exact ⟨g', noise, h1, hn, b, a.symm⟩
  refine Set.Subset.antisymm ?_ (key X h0)
  have := key (fun i => s * X i) (inv_pos.2 h0)
  have e : (fun i => s⁻¹ * (s * X i)) = X := by funext i; field_simp
  rwa [e] at this

/-! ## Where it does matter -/

private theorem corr_kerK {cfg : Cfg} {φ : ℝ → ℝ} {g g' : GK ℝ} (h : Corresponds cfg φ 1 g g') {m : ℕ} (Y : Fin m → ℝ) (i j : Fin m) :
    kerK cfg (φ ∘ Y) g' i j = kerK cfg Y g i j := by
  have := h.2.2 id 0 m Fin.elim0 Fin.elim0 0 Y [0, 0] true false
  simp only [predict, List.map_cons, Except.map, Except.ok.injEq, Prediction.scale, Prediction.mk.injEq, predictCov, if_true, CovArr.scale,
    CovArr.matrix.injEq] at this
  have := congrFun (congrFun this.2.1 i) j
  simpa [rawCov, explained, Matrix.mul_apply] using this

/-- C115. Without an offset LIN depends on where the inputs are counted from: to a fit of LIN there is none to the data with inputs moved by one. -/
theorem C115_origin_wrong (cfg : Cfg) (hc : cfg.linOffset = false) : let k := KE.comm .sum [(.LIN, 1)] []
    ∃ g, FittedTo cfg k g ∧ ¬ ∃ g', FittedTo cfg k g' ∧ Corresponds cfg (· + 1) 1 g g' := by
  intro k
  have hk : toKernel cfg k = .ok (.base .LIN (linked (basePars cfg .LIN))) := by
    simp [k, toKernel, toKernelL, baseKers, baseKer, baseName, orderBase, reduceK, Counter.elements, bind, Except.bind, pure, Except.pure]
  have hl : linked (basePars cfg .LIN) = { variance := some () } := by simp [basePars, hc, linked, Par.put]
  refine ⟨.base .LIN { variance := some 1 }, ⟨by rw [hk, hl]; rfl, by simp [Adm, AdmPD]⟩, ?_⟩
  rintro ⟨g', ⟨h1, h2⟩, h3⟩
  rw [hk, hl] at h1
  cases g' with
  | base b p =>
    simp only [erase, Except.ok.injEq, GK.base.injEq] at h1
    obtain ⟨rfl, hp⟩ := h1
    obtain ⟨v, hv⟩ := some_of_unit (congrArg PD.variance hp.symm)
    have := corr_kerK h3 (fun _ : Fin 1 => 0) 0 0
    simp [kerK, baseK, hc, matK, linear, varOf, hv] at this
    rw [Adm, AdmPD, hv] at h2
    exact (h2.1 v rfl).ne' this
  | comb => simp [erase] at h1
  | change => simp [erase] at h1

/-- C115. With fixed slopes, as by default, the unit of the inputs does matter: a change from a constant to noise is as wide as the slope says in the unit
the inputs are given in, and to a fit of it there is none to the data with inputs in half that unit. -/
theorem C115_inputs_wrong (cfg : Cfg) (hf : cfg.fixSlope = true) : let k := KE.change .CP (.base .C) (.base .WN)
    ∃ g, FittedTo cfg k g ∧ ¬ ∃ g', FittedTo cfg k g' ∧ Corresponds cfg (2 * ·) 1 g g' := by
  intro k
  have hk : toKernel cfg k = .ok (.change .CP { location := some () } (.base .C { variance := some () }) (.base .WN { variance := some () })) := by
    simp [k, toKernel, baseKer, baseName, basePars, kerPars, hf, linked, Par.put, bind, Except.bind, pure, Except.pure]
  refine ⟨.change .CP { location := some 0 } (.base .C { variance := some 1 }) (.base .WN { variance := some 1 }), ⟨by rw [hk]; rfl, by simp [Adm, AdmPD]⟩, ?_⟩
  rintro ⟨g', ⟨h1, h2⟩, h3⟩
  rw [hk] at h1
  cases g' with
  | base => simp [erase] at h1
  | comb => simp [erase] at h1
  | change c p l r =>
    simp only [erase, Except.ok.injEq, GK.change.injEq] at h1
    obtain ⟨rfl, hp, hl, hr⟩ := h1
    obtain ⟨x, hx⟩ := some_of_unit (congrArg PD.location hp.symm)
    have ht : p.slope = none := by
      have := congrArg PD.slope hp
      simpa [mapPD] using this.symm
    cases l with
    | comb => simp [erase] at hl
    | change => simp [erase] at hl
    | base b q =>
      simp only [erase, GK.base.injEq] at hl
      obtain ⟨rfl, hq⟩ := hl
      obtain ⟨v, hv⟩ := some_of_unit (congrArg PD.variance hq.symm)
      have hpos : ∀ u : ℝ, 0 ≤ u → 1 - sigmoid u = 1 / (2 * (1 + u)) := fun u hu => by
        have : 1 + u ≠ 0 := by positivity
        rw [sigmoid, abs_of_nonneg hu]
        field_simp
        ring
      have hneg : ∀ u : ℝ, u ≤ 0 → 1 - sigmoid u = (1 - 2 * u) / (2 * (1 - u)) := fun u hu => by
        have : 1 - u ≠ 0 := by linarith
        rw [sigmoid, abs_of_nonpos hu, ← sub_eq_add_neg]
        field_simp
        ring
      have key : ∀ z : ℝ, v * (1 - sigmoid ((2 * z - x) / 0.5)) ^ 2 = (1 - sigmoid (z / 0.5)) ^ 2 := fun z => by
        have hw : ∀ X : Fin 2 → ℝ, kerK cfg X r 0 1 = 0 := fun X => by
          cases r with
          | comb => simp [erase] at hr
          | change => simp [erase] at hr
          | base b q =>
            simp only [erase, GK.base.injEq] at hr
            obtain ⟨rfl, -⟩ := hr
            simp [kerK, baseK]
        have := corr_kerK h3 (fun _ : Fin 2 => z) 0 1
        simp only [kerK, Arr.add, Arr.mul, hw, baseK, matK, bias, varOf, hv, Option.getD_some, changeSig, basisK, changePhi, hx, ht, Option.getD_none,
          phiS, Function.comp, if_true, zero_mul, add_zero, one_mul, sub_zero, Fin.zero_eq_one_iff, OfNat.ofNat_ne_one, if_false] at this
        linarith
      have big : ∀ z : ℝ, |x| ≤ z → v * (1 + 2 * z) ^ 2 = (1 + 4 * z - 2 * x) ^ 2 := fun z hz => by
        have hz0 : 0 ≤ z := (abs_nonneg x).trans hz
        have hxz : x ≤ z := (le_abs_self x).trans hz
        have := key z
        rw [hpos _ (by apply div_nonneg <;> linarith), hpos _ (by positivity)] at this
        have a : (1 + 4 * z - 2 * x : ℝ) ≠ 0 := by nlinarith
        have b : (1 + 2 * z : ℝ) ≠ 0 := by positivity
        have e1 : 2 * (1 + (2 * z - x) / 0.5) = 2 * (1 + 4 * z - 2 * x) := by norm_num; ring
        have e2 : 2 * (1 + z / 0.5) = 2 * (1 + 2 * z) := by norm_num; ring
        rw [e1, e2] at this
        field_simp at this
        linarith
      have b0 := big |x| le_rfl
      have b1 := big (|x| + 1) (by linarith)
      have b2 := big (|x| + 2) (by linarith)
      have hv4 : v = 4 := by linarith
      subst hv4
      have hx2 : x = -1 / 2 := by linarith
      have := key (-1)
      rw [hx2, hneg _ (by norm_num), hneg _ (by norm_num)] at this
      norm_num at this

-- fits of LIN * PER + CW(C, WN), with slopes fitted
example : let cfg : Cfg := { includeSE := false, linOffset := true, fixSlope := false }
    let k := KE.comm .sum [] [.comm .prod [(.LIN, 1), (.PER, 1)] [], .change .CW (.base .C) (.base .WN)]
    let g : GK ℝ := .comb .sum [.comb .prod [.base .PER { variance := some 2, period := some 3, lengthscale := some 1 }, .base .LIN { offset := some (-1) }],
      .change .CW { location := some (-2), slope := some 1, width := some 4 } (.base .C { variance := some 1 }) (.base .WN { variance := some 5 })]
    FittedTo cfg k g ∧ ∀ x ∈ bases k, x.isSigmoid = false := by
  refine ⟨⟨by rfl, ?_⟩, by decide⟩
  simp [Adm, AdmL, AdmPD]

-- a log-likelihood that fitting a constant to one point can arrive at
example : (attainable .default (KE.comm .sum [(.C, 1)] []) (fun _ : Fin 1 => (3 : ℝ)) (fun _ => 7)).Nonempty := by
  refine ⟨_, .base .C { variance := some 1 }, 1, ⟨by rfl, by simp [Adm, AdmPD]⟩, one_pos, ?_, rfl⟩
  rw [Matrix.det_fin_one]
  simp [covY, kerK, baseK, matK, bias, varOf]

/-- With the settings as they come, for an expression without change operators. -/
example : let k := KE.comm .sum [(.WN, 1)] [.comm .prod [(.LIN, 1), (.PER, 1)] []]
    let g : GK ℝ := .comb .sum [.base .WN { variance := some 5 },
      .comb .prod [.base .PER { variance := some 2, period := some 3, lengthscale := some 1 }, .base .LIN { offset := some (-1) }]]
    FittedTo .default k g ∧ noChange k = true ∧ ∀ x ∈ bases k, x.isSigmoid = false := by
  refine ⟨⟨by rfl, ?_⟩, by rfl, by decide⟩
  simp [Adm, AdmL, AdmPD]

end GPyABCD
