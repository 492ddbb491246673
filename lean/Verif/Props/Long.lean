import Verif.Props.Unbounded
import Verif.Props.Count
import Verif.Props.Misc
import Verif.Props.Simplify
import Verif.Lemmas.Finite
import Verif.Spec.Long

/-!
# Property C123: long expressions lose
-/

namespace GPyABCD
open Params hiding flat
open Sops KE Kern

theorem sizePD_map (p : PD ℝ) : sizePD (mapPD (fun _ => ()) p) = sizePD p := by simp [sizePD, mapPD, one?]

mutual
theorem sizeK_erase : ∀ g : GK ℝ, sizeK (erase g) = sizeK g
  | .base b p => by rw [erase, sizeK, sizeK, sizePD_map]
  | .comb o ps => by rw [erase, sizeK, sizeK, sizeKL_erase ps]
  | .change c p l r => by rw [erase, sizeK, sizeK, sizePD_map, sizeK_erase l, sizeK_erase r]
theorem sizeKL_erase : ∀ gs : List (GK ℝ), sizeKL (eraseL gs) = sizeKL gs
  | [] => by rw [eraseL]; rfl
  | g :: gs => by rw [eraseL, sizeKL, sizeKL, sizeK_erase g, sizeKL_erase gs]
end

theorem modelK_fitted {cfg : Cfg} {k : KE} (hs : ∀ b ∈ bases k, b.isSigmoid = false) {g : GK ℝ} (hg : FittedTo cfg k g) : modelK g = nPars cfg k + 1 := by
  rw [← C86_count cfg k hs _ hg.1, modelK, modelK, sizeK_erase]

/-- C123, BIC (partial: periodic lengthscales in the exact regime): whatever score `S` is reached, no fit of an expression with as many parameters as this says, with noise of at
least `δ`, is better. -/
theorem C123_bic_partial (cfg : Cfg) (k : KE) (hs : ∀ b ∈ bases k, b.isSigmoid = false) {n : ℕ} (hn : 2 ≤ n) (X y : Fin n → ℝ) {δ : ℝ} (hδ : 0 < δ) (S : ℝ)
    (hk : (S - n * Real.log (2 * Real.pi * δ)) / Real.log n ≤ nPars cfg k + 1) (g : GK ℝ) (hg : FittedTo cfg k g) (he : Exact g) (noise : ℝ) (h : δ ≤ noise) :
    S ≤ Score.bic (logLik cfg X y g noise) n (modelK g) := by
  have h1 := C122_bound_partial cfg X y g he hδ h
  have hl : 0 < Real.log n := Real.log_pos (by exact_mod_cast hn)
  rw [div_le_iff₀ hl] at hk
  rw [Score.bic, modelK_fitted hs hg]
  push_cast
  linarith

/-- C123, AIC (partial: as `C123_bic_partial`). -/
theorem C123_aic_partial (cfg : Cfg) (k : KE) (hs : ∀ b ∈ bases k, b.isSigmoid = false) {n : ℕ} (X y : Fin n → ℝ) {δ : ℝ} (hδ : 0 < δ) (S : ℝ)
    (hk : (S - n * Real.log (2 * Real.pi * δ)) / 2 ≤ nPars cfg k + 1) (g : GK ℝ) (hg : FittedTo cfg k g) (he : Exact g) (noise : ℝ) (h : δ ≤ noise) :
    S ≤ Score.aic (logLik cfg X y g noise) n (modelK g) := by
  have h1 := C122_bound_partial cfg X y g he hδ h
  rw [Score.aic, modelK_fitted hs hg]
  push_cast
  linarith

theorem length_le_sum (f : Base → ℕ) : ∀ bs : List Base, bs.length ≤ (bs.map (fun b => 1 + f b)).sum
  | [] => by simp
  | b :: bs => by
    have := length_le_sum f bs
    simp only [List.length_cons, List.map_cons, List.sum_cons]
    omega

/-- C123 (partial: as `C123_bic_partial`): so of sums of base kernels only those up to some length can do better than a given score, by BIC or AIC. -/
theorem C123_sums_partial (cfg : Cfg) {n : ℕ} (hn : 2 ≤ n) (X y : Fin n → ℝ) {δ : ℝ} (hδ : 0 < δ) (S : ℝ) :
    ∃ N : ℕ, ∀ b : Counter, (∀ x ∈ b.elements, x.isSigmoid = false) → N ≤ b.elements.length → ∀ g, FittedTo cfg (comm .sum b []) g → Exact g → ∀ noise, δ ≤ noise →
      S ≤ Score.bic (logLik cfg X y g noise) n (modelK g) ∧ S ≤ Score.aic (logLik cfg X y g noise) n (modelK g) := by
  obtain ⟨N, hN⟩ := exists_nat_ge (max ((S - n * Real.log (2 * Real.pi * δ)) / Real.log n) ((S - n * Real.log (2 * Real.pi * δ)) / 2))
  refine ⟨N, fun b hb hl g hg he noise h => ?_⟩
  have hs : ∀ x ∈ bases (comm .sum b []), x.isSigmoid = false := by
    intro x hx
    exact hb x (by simpa [bases, basesL] using hx)
  have hp : N ≤ nPars cfg (comm .sum b []) := by
    rw [nPars, nParsL, basePars']
    exact hl.trans (length_le_sum _ _)
  have hp' : (N : ℝ) ≤ nPars cfg (comm .sum b []) := by exact_mod_cast hp
  exact ⟨C123_bic_partial cfg _ hs hn X y hδ S (by linarith [le_max_left ((S - n * Real.log (2 * Real.pi * δ)) / Real.log n) ((S - n * Real.log (2 * Real.pi * δ)) / 2)]) g hg he noise h,
    C123_aic_partial cfg _ hs X y hδ S (by linarith [le_max_right ((S - n * Real.log (2 * Real.pi * δ)) / Real.log n) ((S - n * Real.log (2 * Real.pi * δ)) / 2)]) g hg he noise h⟩

/-- `SE + SE` fitted. -/
example : ∃ g, FittedTo .default (comm .sum [(.SE, 2)] []) g ∧ Exact g ∧ modelK g = 5 ∧ (Counter.elements [(.SE, 2)]).length = 2 :=
  ⟨.comb .sum [.base .SE { variance := some 1, lengthscale := some 2 }, .base .SE { variance := some 3, lengthscale := some 4 }], ⟨by rfl, by simp [Adm, AdmL, AdmPD]⟩,
    by simp [Exact, ExactL], by decide, by decide⟩

theorem length_le_shape {cfg : Cfg} (hc : cfg.linOffset = true) : ∀ bs : List Base, bs.length ≤ bs.count .WN + bs.count .C + (bs.map (shapePars cfg)).sum
  | [] => by simp
  | b :: bs => by
    have := length_le_shape hc bs
    simp only [List.length_cons, List.map_cons, List.sum_cons, List.count_cons]
    cases b <;> simp [shapePars, hc] <;> (try split) <;> omega

mutual
/-- In canonical expressions there are no more base kernels than parameters. -/
theorem length_le_nPars {cfg : Cfg} (hc : cfg.linOffset = true) : ∀ k : KE, wf k = true → allNodes (canonNode cfg) k = true → (bases k).length ≤ nPars cfg k
  | KE.base b, _, _ => by simp [bases, nPars]
  | KE.comm op b cs, hw, h => by
    rw [wf] at hw
    rw [allNodes] at h
    simp only [Bool.and_eq_true, decide_eq_true_eq] at hw h
    have ih := length_le_nParsL hc cs hw.2 h.2
    rw [bases, List.length_append, nPars]
    refine Nat.add_le_add ?_ ih
    cases op with
    | sum => exact length_le_sum _ _
    | prod =>
      have hl := length_le_shape hc b.elements
      rw [Counter.count_elements hw.1.1, Counter.count_elements hw.1.1] at hl
      have hn := h.1
      simp only [canonNode, Bool.and_eq_true, decide_eq_true_eq] at hn
      obtain ⟨n1, n2⟩ := hn
      have n3 : (b.get .WN).toNat + (b.get .C).toNat ≤ 1 := by
        split at n2 <;> simp only [Bool.and_eq_true, decide_eq_true_eq] at n2 <;> omega
      rw [basePars']
      by_cases e : b.elements = []
      · simp [e]
      · rw [if_neg (by simpa using e)]
        omega
  | KE.change c l r, hw, h => by
    rw [wf, Bool.and_eq_true] at hw
    rw [allNodes] at h
    simp only [Bool.and_eq_true] at h
    have h1 := length_le_nPars hc l hw.1 h.1.2
    have h2 := length_le_nPars hc r hw.2 h.2
    rw [bases, List.length_append, nPars]
    omega
theorem length_le_nParsL {cfg : Cfg} (hc : cfg.linOffset = true) : ∀ ks : List KE, wfL ks = true → allNodesL (canonNode cfg) ks = true → (basesL ks).length ≤ nParsL cfg ks
  | [], _, _ => by simp [basesL]
  | k :: ks, hw, h => by
    rw [wfL] at hw
    rw [allNodesL, Bool.and_eq_true] at h
    simp only [Bool.and_eq_true] at hw
    rw [basesL, List.length_append, nParsL]
    exact Nat.add_le_add (length_le_nPars hc k hw.1.2 h.1) (length_le_nParsL hc ks hw.2 h.2)
end

/-- C123 (partial: as `C123_bic_partial`): of all expressions, simplified as searches do, only those up to some length can do better than a given score, by BIC or AIC.
LIN has its offset, as in GPy-ABCD it always does unless the setting is changed; without it powers of LIN have one parameter, `C123_powers`. -/
theorem C123_simplified_partial (cfg : Cfg) (hc : cfg.linOffset = true) {n : ℕ} (hn : 2 ≤ n) (X y : Fin n → ℝ) {δ : ℝ} (hδ : 0 < δ) (S : ℝ) :
    ∃ N : ℕ, ∀ k : KE, wf k = true → (∀ b ∈ bases k, b.isSigmoid = false) → N ≤ (bases (simplify cfg k)).length → ∀ g, FittedTo cfg (simplify cfg k) g → Exact g →
      ∀ noise, δ ≤ noise → S ≤ Score.bic (logLik cfg X y g noise) n (modelK g) ∧ S ≤ Score.aic (logLik cfg X y g noise) n (modelK g) := by
  obtain ⟨N, hN⟩ := exists_nat_ge (max ((S - n * Real.log (2 * Real.pi * δ)) / Real.log n) ((S - n * Real.log (2 * Real.pi * δ)) / 2))
  refine ⟨N, fun k hw hb hl g hg he noise h => ?_⟩
  have hs : ∀ x ∈ bases (simplify cfg k), x.isSigmoid = false := fun x hx => hb x ((bases_simplify cfg k hw).subset hx)
  have hp : (N : ℝ) ≤ nPars cfg (simplify cfg k) := by exact_mod_cast hl.trans (length_le_nPars hc _ (wf_simplify cfg k hw) (C03_canonical cfg k hw))
  have m1 := le_max_left ((S - n * Real.log (2 * Real.pi * δ)) / Real.log n) ((S - n * Real.log (2 * Real.pi * δ)) / 2)
  have m2 := le_max_right ((S - n * Real.log (2 * Real.pi * δ)) / Real.log n) ((S - n * Real.log (2 * Real.pi * δ)) / 2)
  exact ⟨C123_bic_partial cfg _ hs hn X y hδ S (by linarith) g hg he noise h, C123_aic_partial cfg _ hs X y hδ S (by linarith) g hg he noise h⟩

/-- `LIN * SE * SE`, simplified and fitted. -/
example : ∃ g, FittedTo .default (simplify .default (comm .prod [(.LIN, 1), (.SE, 2)] [])) g ∧ Exact g ∧ modelK g = 4 ∧
    (bases (simplify .default (comm .prod [(.LIN, 1), (.SE, 2)] []))).length = 2 := by
  refine ⟨.comb .prod [.base .SE { variance := some 1, lengthscale := some 4 }, .base .LIN { offset := some 0 }], ⟨by rfl, by simp [Adm, AdmL, AdmPD]⟩,
    by simp [Exact, ExactL], by decide, by decide⟩

mutual
/-- Expressions with empty sums or products have no kernel. -/
theorem noEmpty_of_toKernel (cfg : Cfg) : ∀ (k : KE) (s : GK Unit), toKernel cfg k = .ok s → noEmpty k = true
  | KE.base b, _, _ => by simp [noEmpty, allNodes, isEmptyNode]
  | KE.comm op b cs, s, h => by
    cases h2 : toKernelL cfg cs with
    | error e => cases h1 : baseKers cfg (orderBase b.elements) <;> cases op <;> simp [toKernel, h1, h2, bind, Except.bind] at h
    | ok ks =>
      have ih := noEmpty_of_toKernelL cfg cs ks h2
      rw [noEmpty, allNodes, ih, Bool.and_true]
      by_contra hc
      simp only [isEmptyNode, Bool.not_eq_true', Bool.not_eq_false, Bool.and_eq_true, decide_eq_true_eq, List.isEmpty_iff] at hc
      obtain ⟨hb, rfl⟩ := hc
      cases op <;> simp [toKernel, toKernelL, hb, orderBase, baseKers, unlinkTail, reduceK, bind, Except.bind] at h
  | KE.change c l r, s, h => by
    cases h1 : toKernel cfg l with
    | error e => simp [toKernel, h1, bind, Except.bind] at h
    | ok a =>
      cases h2 : toKernel cfg r with
      | error e => simp [toKernel, h1, h2, bind, Except.bind] at h
      | ok b =>
        have i1 := noEmpty_of_toKernel cfg l a h1
        have i2 := noEmpty_of_toKernel cfg r b h2
        rw [noEmpty] at i1 i2
        rw [noEmpty, allNodes, i1, i2]
        rfl
theorem noEmpty_of_toKernelL (cfg : Cfg) : ∀ (ks : List KE) (ss : List (GK Unit)), toKernelL cfg ks = .ok ss → allNodesL (fun n => !n.isEmptyNode) ks = true
  | [], _, _ => by rw [allNodesL]
  | k :: ks, s, h => by
    cases h1 : toKernel cfg k with
    | error e => simp [toKernelL, h1, bind, Except.bind] at h
    | ok a =>
      cases h2 : toKernelL cfg ks with
      | error e => simp [toKernelL, h1, h2, bind, Except.bind] at h
      | ok b =>
        have i1 := noEmpty_of_toKernel cfg k a h1
        rw [noEmpty] at i1
        rw [allNodesL, i1, noEmpty_of_toKernelL cfg ks b h2]
        rfl
end

/-- C123 (partial: as `C123_bic_partial`): so only finitely many expressions can do better than a given score, by BIC or AIC. -/
theorem C123_finite_partial (cfg : Cfg) (hc : cfg.linOffset = true) {n : ℕ} (hn : 2 ≤ n) (X y : Fin n → ℝ) {δ : ℝ} (hδ : 0 < δ) (S : ℝ) :
    {r : KE | Simplified cfg r ∧ ∃ g noise, FittedTo cfg r g ∧ Exact g ∧ δ ≤ noise ∧
      (Score.bic (logLik cfg X y g noise) n (modelK g) < S ∨ Score.aic (logLik cfg X y g noise) n (modelK g) < S)}.Finite := by
  obtain ⟨N, hN⟩ := C123_simplified_partial cfg hc hn X y hδ S
  refine (finite_length N).subset ?_
  rintro _ ⟨⟨k, hw, hb, rfl⟩, g, noise, hg, hx, h, hlt⟩
  refine ⟨wf_simplify cfg k hw, noEmpty_of_toKernel cfg _ _ hg.1, C04_no_wrappers cfg k hw, ?_⟩
  by_contra hl
  have := hN k hw hb (by omega) g hg hx noise h
  rcases hlt with h' | h'
  · exact absurd this.1 (not_le.2 h')
  · exact absurd this.2 (not_le.2 h')

/-- `SE`, simplified and fitted. -/
theorem simplified_se (score : ℝ → ℕ → ℕ → ℝ) (cfg : Cfg) {n : ℕ} (X y : Fin n → ℝ) {δ : ℝ} :
    Simplified cfg (simplify cfg (comm .sum [(.SE, 1)] [])) ∧ (scores score cfg δ X y (simplify cfg (comm .sum [(.SE, 1)] []))).Nonempty := by
  have e : simplify cfg (comm .sum [(.SE, 1)] []) = comm .sum [(.SE, 1)] [] := by
    cases cfg with | mk a b c => cases b <;> rfl
  refine ⟨⟨_, by decide, by decide, rfl⟩, _, .base .SE { variance := some 1, lengthscale := some 2 }, δ, ⟨?_, by simp [Adm, AdmPD]⟩, by simp [Exact], le_rfl, rfl⟩
  rw [e]
  rfl

/-- The set of `C123_finite_partial` is not empty: `SE` has a score, and is in the set for every greater one. -/
example (X y : Fin 2 → ℝ) : ∃ S r, Simplified .default r ∧ ∃ g noise, FittedTo .default r g ∧ Exact g ∧ (1e-8 : ℝ) ≤ noise ∧
    (Score.bic (logLik .default X y g noise) 2 (modelK g) < S ∨ Score.aic (logLik .default X y g noise) 2 (modelK g) < S) := by
  obtain ⟨h1, _, g, noise, a, b, c, _⟩ := simplified_se Score.bic .default X y (δ := 1e-8)
  exact ⟨_, _, h1, g, noise, a, b, c, Or.inl (lt_add_one _)⟩

theorem best_of (score : ℝ → ℕ → ℕ → ℝ) (cfg : Cfg) {n : ℕ} (X y : Fin n → ℝ) {δ : ℝ} (P : KE → Prop) (hP : ∃ r, P r ∧ (scores score cfg δ X y r).Nonempty)
    (bdd : ∀ r, BddBelow (scores score cfg δ X y r)) (fin : ∀ S : ℝ, {r | P r ∧ ∃ s ∈ scores score cfg δ X y r, s < S}.Finite) :
    ∃ r, P r ∧ ∀ r', P r' → ∀ s' ∈ scores score cfg δ X y r', ∀ ε : ℝ, 0 < ε → ∃ s ∈ scores score cfg δ X y r, s < s' + ε := by
  obtain ⟨r0, q1, s0, q2⟩ := hP
  obtain ⟨r, ⟨h1, s1, h2, _⟩, hmin⟩ := Set.exists_min_image _ (fun r => sInf (scores score cfg δ X y r)) (fin (s0 + 1)) ⟨_, q1, s0, q2, lt_add_one _⟩
  refine ⟨r, h1, fun r' hr' s' hs' ε hε => exists_lt_of_csInf_lt ⟨s1, h2⟩ ?_⟩
  by_cases h : s' < s0 + 1
  · have m1 := hmin r' ⟨hr', s', hs', h⟩
    have m2 := csInf_le (bdd r') hs'
    linarith
  · have m1 := hmin _ ⟨q1, s0, q2, lt_add_one _⟩
    have m2 := csInf_le (bdd _) q2
    linarith

theorem bdd_bic (cfg : Cfg) {n : ℕ} (X y : Fin n → ℝ) {δ : ℝ} (hδ : 0 < δ) (r : KE) : BddBelow (scores Score.bic cfg δ X y r) := by
  refine ⟨n * Real.log (2 * Real.pi * δ), ?_⟩
  rintro _ ⟨g, noise, _, he, h, rfl⟩
  have h1 := C122_bound_partial cfg X y g he hδ h
  have h2 : 0 ≤ (modelK g : ℝ) * Real.log n := mul_nonneg (Nat.cast_nonneg _) (Real.log_natCast_nonneg n)
  rw [Score.bic]
  linarith

theorem bdd_aic (cfg : Cfg) {n : ℕ} (X y : Fin n → ℝ) {δ : ℝ} (hδ : 0 < δ) (r : KE) : BddBelow (scores Score.aic cfg δ X y r) := by
  refine ⟨n * Real.log (2 * Real.pi * δ), ?_⟩
  rintro _ ⟨g, noise, _, he, h, rfl⟩
  have h1 := C122_bound_partial cfg X y g he hδ h
  have h2 : (0 : ℝ) ≤ modelK g := Nat.cast_nonneg _
  rw [Score.aic]
  linarith

/-- C123 (partial: as `C123_bic_partial`): so there is a best expression: one whose fits come as close as wanted to the BIC of any fit of any expression, or below it. -/
theorem C123_best_partial (cfg : Cfg) (hc : cfg.linOffset = true) {n : ℕ} (hn : 2 ≤ n) (X y : Fin n → ℝ) {δ : ℝ} (hδ : 0 < δ) :
    ∃ r, Simplified cfg r ∧ ∀ r', Simplified cfg r' → ∀ s' ∈ scores Score.bic cfg δ X y r', ∀ ε : ℝ, 0 < ε → ∃ s ∈ scores Score.bic cfg δ X y r, s < s' + ε := by
  refine best_of Score.bic cfg X y _ ⟨_, simplified_se Score.bic cfg X y⟩ (bdd_bic cfg X y hδ) fun S => (C123_finite_partial cfg hc hn X y hδ S).subset ?_
  rintro r ⟨h1, _, ⟨g, noise, a, b, c, rfl⟩, h⟩
  exact ⟨h1, g, noise, a, b, c, Or.inl h⟩

/-- C123 (partial: as `C123_bic_partial`): and one that is best by AIC. -/
theorem C123_best_aic_partial (cfg : Cfg) (hc : cfg.linOffset = true) {n : ℕ} (hn : 2 ≤ n) (X y : Fin n → ℝ) {δ : ℝ} (hδ : 0 < δ) :
    ∃ r, Simplified cfg r ∧ ∀ r', Simplified cfg r' → ∀ s' ∈ scores Score.aic cfg δ X y r', ∀ ε : ℝ, 0 < ε → ∃ s ∈ scores Score.aic cfg δ X y r, s < s' + ε := by
  refine best_of Score.aic cfg X y _ ⟨_, simplified_se Score.aic cfg X y⟩ (bdd_aic cfg X y hδ) fun S => (C123_finite_partial cfg hc hn X y hδ S).subset ?_
  rintro r ⟨h1, _, ⟨g, noise, a, b, c, rfl⟩, h⟩
  exact ⟨h1, g, noise, a, b, c, Or.inr h⟩

/-- Three data points, the noise that GPy adds. -/
example (y : Fin 3 → ℝ) : ∃ r' s' s'', Simplified .default r' ∧ s' ∈ scores Score.bic .default 1e-8 (fun i : Fin 3 => (i : ℝ)) y r' ∧
    s'' ∈ scores Score.aic .default 1e-8 (fun i : Fin 3 => (i : ℝ)) y r' :=
  have h := simplified_se Score.bic .default (fun i : Fin 3 => (i : ℝ)) y (δ := 1e-8)
  have h' := simplified_se Score.aic .default (fun i : Fin 3 => (i : ℝ)) y (δ := 1e-8)
  ⟨_, _, _, h.1, h.2.some_mem, h'.2.some_mem⟩

/-- C123: without offsets the powers of LIN, which simplification keeps, have two parameters however long. -/
theorem C123_powers (cfg : Cfg) (hc : cfg.linOffset = false) (m : ℕ) :
    simplify cfg (comm .prod [(.LIN, (m : Int) + 1)] []) = comm .prod [(.LIN, (m : Int) + 1)] [] ∧ nPars cfg (comm .prod [(.LIN, (m : Int) + 1)] []) + 1 = 2 := by
  have h0 : (0 : Int) < m + 1 := by omega
  have hb : simplifyBase cfg .prod [(.LIN, (m : Int) + 1)] 0 = [(.LIN, (m : Int) + 1)] := by simp [simplifyBase, simplifyBaseProd, Counter.get, Counter.pos, h0]
  constructor
  · simp [simplify, simplifyL, absorb, absorbHomogeneous, absorbSingletons, Counter.updateList, hb]
  · have e : (Counter.elements [(.LIN, (m : Int) + 1)]) = List.replicate (m + 1) .LIN := by simp [Counter.elements]
    rw [nPars, nParsL, e, basePars']
    simp [shapePars, hc]

/-- The eleventh power. -/
example : ∃ cfg : Cfg, cfg.linOffset = false ∧ (bases (comm .prod [(.LIN, ((10 : ℕ) : Int) + 1)] [])).length = 11 :=
  ⟨{ includeSE := false, linOffset := false, fixSlope := true }, rfl, by decide⟩

/-- C123: AICc does not work so: with as many parameters as data points or more, a model is better than every one with at least two fewer than data points, though its
log-likelihood be lower by the number of data points. -/
theorem C123_aicc_wrong (ll : ℝ) {n k k' : ℕ} (h : k + 1 < n) (h' : n ≤ k') :
    ∃ x x', Score.aicc ll n k = some x ∧ Score.aicc (ll - n) n k' = some x' ∧ x' < x := by
  refine ⟨_, _, aicc_some h, by rw [Score.aicc, if_neg (by omega)], ?_⟩
  have a1 : (k : ℝ) + 1 < n := by exact_mod_cast h
  have a2 : (n : ℝ) ≤ k' := by exact_mod_cast h'
  have a0 : (0 : ℝ) ≤ k := Nat.cast_nonneg k
  have b1 : 0 ≤ ((k : ℝ) ^ 2 + k) / ((n : ℝ) - k - 1) := div_nonneg (by positivity) (by linarith)
  have b2 : ((k' : ℝ) ^ 2 + k') / ((n : ℝ) - k' - 1) < -(n + k') := by
    rw [div_lt_iff_of_neg (by linarith)]
    nlinarith
  linarith

/-- Ten data points, two parameters (`C` and the noise) against eleven (`SE` five times and the noise). -/
example : nPars .default (comm .sum [(.C, 1)] []) + 1 = 2 ∧ nPars .default (comm .sum [(.SE, 5)] []) + 1 = 11 ∧
    ∃ x x', Score.aicc 0 10 2 = some x ∧ Score.aicc (0 - (10 : ℕ)) 10 11 = some x' ∧ x' < x := ⟨by decide, by decide, C123_aicc_wrong 0 (by decide) (by decide)⟩

theorem add_same (cfg : Cfg) {B : Base} (hB : B ∈ [Base.LIN, .SE, .PER]) {a c : ℕ} (ha : 1 ≤ a) (hc : 1 ≤ c) :
    addRes cfg (comm .sum [(B, (a : Int))] []) (comm .sum [(B, (c : Int))] []) = comm .sum [(B, ((a + c : ℕ) : Int))] [] := by
  have h0 : (0 : Int) < a := by omega
  have h1 : (0 : Int) < c := by omega
  have h2 : (0 : Int) < a + c := by omega
  have hb : simplifyBase cfg .sum [(B, (a : Int) + c)] 0 = [(B, (a : Int) + c)] := by
    simp only [List.mem_cons, List.not_mem_nil, or_false] at hB
    rcases hB with rfl | rfl | rfl <;> cases hl : cfg.linOffset <;> simp [simplifyBase, simplifyBaseSum, Counter.get, Counter.pos, Counter.put, hl, h2]
  have hp : (Counter.pos [(B, (a : Int))]) = [(B, (a : Int))] := by rw [Counter.pos, List.filter_cons_of_pos (by simpa using h0)]; rfl
  have hadd : Counter.add [(B, (a : Int))] [(B, (c : Int))] = [(B, (a : Int) + c)] := by
    have : Counter.pos [(B, (a : Int) + c)] = [(B, (a : Int) + c)] := by rw [Counter.pos, List.filter_cons_of_pos (by simpa using h2)]; rfl
    simp only [Counter.add, List.map_cons, List.map_nil, Counter.get, if_true, this]
    simp [Counter.has, Counter.pos]
  rw [addRes, hp, hadd]
  simp [mkC, simplify, simplifyL, absorb, absorbHomogeneous, absorbSingletons, Counter.updateList, hb]

/-- C123: so by AICc no sum of one base kernel repeated, with at least two parameters fewer than data, is best: whatever its fit, one of a longer sum is better. -/
theorem C123_aicc_longer (cfg : Cfg) {B : Base} (hB : B ∈ [Base.LIN, .SE, .PER]) {n : ℕ} (X y : Fin n → ℝ) (hX : Function.Injective X) {a : ℕ} (ha : 1 ≤ a) (g : GK ℝ) (noise : ℝ)
    (hg : FittedTo cfg (comm .sum [(B, (a : Int))] []) g) (h0 : 0 < noise) (hd : (covY cfg X g noise).det ≠ 0) (hk : modelK g + 1 < n) :
    ∃ b : ℕ, a < b ∧ ∃ g', FittedTo cfg (comm .sum [(B, (b : Int))] []) g' ∧ (covY cfg X g' noise).det ≠ 0 ∧
      ∃ x x', Score.aicc (logLik cfg X y g noise) n (modelK g) = some x ∧ Score.aicc (logLik cfg X y g' noise) n (modelK g') = some x' ∧ x' < x := by
  have hb : ∀ m : ℕ, bases (comm .sum [(B, (m : Int))] []) = List.replicate m B := fun m => by simp [bases, basesL, Counter.elements]
  have hsB : B.isSigmoid = false ∧ B ≠ .C := by
    simp only [List.mem_cons, List.not_mem_nil, or_false] at hB
    rcases hB with rfl | rfl | rfl <;> decide
  have hs : ∀ m : ℕ, ∀ x ∈ bases (comm .sum [(B, (m : Int))] []), x.isSigmoid = false := fun m x hx => by
    rw [hb] at hx
    rw [List.eq_of_mem_replicate hx]
    exact hsB.1
  have hop : ∀ m : ℕ, 1 ≤ m → operand (comm .sum [(B, (m : Int))] []) = true := fun m hm => by
    have hm' : 0 < m := hm
    simp [operand, wf, wfL, noEmpty, allNodes, allNodesL, isEmptyNode, noConstProd, noConstProdNode, Counter.WF, Counter.elements, hm', hm'.ne']
  obtain ⟨r, rest, e, hr, -⟩ := C121_add_partial cfg _ _ (hop a ha) (hop n (by omega)) (hs a) (hs n) (.inr (.inl (by simp [hb, hsB.2.symm]))) X y hX
  have er : r = comm .sum [(B, ((a + n : ℕ) : Int))] [] := by
    rw [add, add_same cfg hB ha (by omega)] at e
    exact (List.cons.inj e).1.symm
  subst er
  obtain ⟨g', f1, f2, f3⟩ := hr g noise hg h0 hd 1 one_pos
  refine ⟨a + n, by omega, g', f1, f2, ?_⟩
  have hk' : n ≤ modelK g' := by
    rw [modelK_fitted (hs _) f1, nPars, basePars']
    have := length_le_sum (shapePars cfg) (Counter.elements [(B, ((a + n : ℕ) : Int))])
    have e : (Counter.elements [(B, ((a + n : ℕ) : Int))]).length = a + n := by simp only [Counter.elements, List.flatMap_cons, List.flatMap_nil, List.append_nil, List.length_replicate, Int.toNat_natCast]
    omega
  obtain ⟨x, x', q1, q2, q3⟩ := C123_aicc_wrong (logLik cfg X y g noise) hk hk'
  obtain ⟨z, hz⟩ : ∃ z, Score.aicc (logLik cfg X y g' noise) n (modelK g') = some z := ⟨_, by rw [Score.aicc, if_neg (by omega)]⟩
  refine ⟨x, z, q1, hz, (C63_aicc_likelihood ?_ q2 hz).trans q3⟩
  have := (abs_lt.1 f3).1
  have : (1 : ℝ) ≤ n := by exact_mod_cast (by omega : 1 ≤ n)
  linarith

/-- One `SE` fitted to five data points: three parameters. -/
example : Function.Injective (fun i : Fin 5 => (i : ℝ)) ∧ ∃ g, FittedTo .default (comm .sum [(.SE, ((1 : ℕ) : Int))] []) g ∧ Exact g ∧ modelK g + 1 < 5 ∧
    (covY .default (fun i : Fin 5 => (i : ℝ)) g 1).det ≠ 0 := by
  refine ⟨fun i j h => by simpa [Fin.ext_iff] using h, .base .SE { variance := some 1, lengthscale := some 2 }, ⟨by rfl, by simp [Adm, AdmPD]⟩, by simp [Exact], by decide, ?_⟩
  exact (C79_regression_partial .default _ _ (by simp [Exact]) one_pos).1.det_pos.ne'

end GPyABCD
