import Verif.Lemmas.Components
import Verif.Props.Params

/-!
# Property C87: the components that are told add up to the covariance matrix of the fit
-/

namespace GPyABCD
open Kern Params Sops KE Interp

/-- C87. Multiplying out a fitted stable expression splits the matrix `K(X)` of the fitted kernel: at all inputs, repeated ones too, it is the sum of the
matrices of the components. -/
theorem C87_components (cfg : Cfg) (k : KE) (hk : k.isBase = false) (hw : wf k = true) (he : noEmpty k = true) (hs : ∀ x ∈ bases k, x.isSigmoid = false)
    (h : keq (simplify cfg k) k = true) :
    ∃ s, toKernel cfg k = .ok s ∧ ∀ g : GK ℝ, erase g = s → Adm g → ∃ f, fitParams cfg g k = .ok f ∧
      ∀ (n : ℕ) (X : Fin n → ℝ) (i j : Fin n), kerK cfg X g i j = ((comps f).map (Comp.val id (entry cfg X i j))).sum := by
  obtain ⟨s, h1, h2⟩ := C40_matched (α := ℝ) cfg k hk hw he hs h
  refine ⟨s, h1, fun g hg ha => ?_⟩
  obtain ⟨f, h3, h4, h5⟩ := h2 g hg
  obtain ⟨h6, h7⟩ := C40_fitted (fun _ => True) cfg k hk hw he hs h s h1 g hg (se_true g) f h3
  refine ⟨f, h3, fun n X i j => ?_⟩
  rw [kerK_gval cfg X i j g (by rw [hg]; exact std_toKernel cfg k hs s h1) (posLength_adm g ha), ← eval_carries id _ f g h5, eval_comps f h6]

/-- C87. Each of the matrices is the covariance matrix of something: it is positive semidefinite (partial: where the formula of the periodic kernel is exact, see C53). -/
theorem C87_positive_partial (cfg : Cfg) (k : KE) (hk : k.isBase = false) (hw : wf k = true) (he : noEmpty k = true) (hs : ∀ x ∈ bases k, x.isSigmoid = false)
    (h : keq (simplify cfg k) k = true) (s : GK Unit) (h1 : toKernel cfg k = .ok s) (g : GK ℝ) (hg : erase g = s) (hx : Exact g) :
    ∃ f, fitParams cfg g k = .ok f ∧ ∀ c ∈ comps f, ∀ (n : ℕ) (X : Fin n → ℝ), (Matrix.of (fun i j => c.val id (entry cfg X i j))).PosSemidef := by
  obtain ⟨s', h1', h2⟩ := C40_matched (α := ℝ) cfg k hk hw he hs h
  rw [h1] at h1'
  obtain rfl := Except.ok.inj h1'
  obtain ⟨f, h3, h4, h5⟩ := h2 g hg
  refine ⟨f, h3, fun c hc n X => psd_comp cfg X ?_⟩
  refine comps_fine (V := fun v => 0 ≤ v) (Q := ExactPD) (fun _ _ h => h.1) (fun _ _ h => ⟨by simp [PD.noVar], h.2⟩) f g h5 ?_ c hc
  exact exact_every cfg g (by rw [hg]; exact std_toKernel cfg k hs s h1) hx

/-- C87. The sum-of-products form, from which the text is made, has one term for every component, and its matrix is that of the component (partial: unless noise
multiplied `LIN` or `SE` multiplied `SE` in it, `C41_noise_lin`, `C41_se`; expressions with a node without base terms have no such form, `C42_raises`). -/
theorem C87_form_partial (comb : ℝ → ℝ → ℝ) (cfg : Cfg) (k : KE) (hk : k.isBase = false) (hw : wf k = true) (he : noEmpty k = true)
    (hs : ∀ x ∈ bases k, x.isSigmoid = false) (h : keq (simplify cfg k) k = true) (ho : allNodes ownNode k = true) :
    ∃ s, toKernel cfg k = .ok s ∧ ∀ g : GK ℝ, erase g = s → ∃ f cts, fitParams cfg g k = .ok f ∧ sops comb cfg f = .ok (.comm .sum [] [] none cts) ∧
      ∀ (n : ℕ) (X : Fin n → ℝ) (i j : Fin n),
        List.Forall₂ (fun c t => c.Clean → c.count .SE ≤ 1 → eval id (entry cfg X i j) t = c.val id (entry cfg X i j)) (comps f) cts := by
  obtain ⟨s, h1, h2⟩ := C40_matched (α := ℝ) cfg k hk hw he hs h
  refine ⟨s, h1, fun g hg => ?_⟩
  obtain ⟨f, h3, h4, h5⟩ := h2 g hg
  obtain ⟨h6, h7⟩ := C40_fitted (fun _ => True) cfg k hk hw he hs h s h1 g hg (se_true g) f h3
  have hl := asLeaf_of h4 hk
  have hown : OwnTerms f := own_of f h6 (by rw [h4]; exact ho)
  obtain ⟨k', e1⟩ := C42_partial comb cfg f hl h6 hown
  obtain ⟨cts, rfl, _, _⟩ := C43_shape comb cfg f k' hl h6 e1
  refine ⟨f, cts, h3, e1, fun n X i j => ?_⟩
  obtain ⟨k'', e2, cts', rfl, e3⟩ := sops_ok (φ := id) (shape := entry cfg X i j) (comb := comb) (P := fun _ => True) (fun _ _ _ _ => trivial) cfg f hl h6 hown
  rw [e1] at e2
  cases e2
  refine e3.imp ?_
  rintro c t ⟨n', rfl, h8, _⟩ hc hse
  rw [eval_ke h8.inv, h8.val (entry_laws cfg X i j) hc (Or.inl hse)]

/-- C87. So the matrices of the terms of the form add up to `K(X)` (partial as before). -/
theorem C87_matrix_partial (comb : ℝ → ℝ → ℝ) (cfg : Cfg) (k : KE) (hk : k.isBase = false) (hw : wf k = true) (he : noEmpty k = true)
    (hs : ∀ x ∈ bases k, x.isSigmoid = false) (h : keq (simplify cfg k) k = true) (ho : allNodes ownNode k = true) :
    ∃ s, toKernel cfg k = .ok s ∧ ∀ g : GK ℝ, erase g = s → Adm g → ∃ f k', fitParams cfg g k = .ok f ∧ sops comb cfg f = .ok k' ∧
      ((∀ c ∈ comps f, c.Clean ∧ c.count .SE ≤ 1) → ∀ (n : ℕ) (X : Fin n → ℝ) (i j : Fin n), eval id (entry cfg X i j) k' = kerK cfg X g i j) := by
  obtain ⟨s, h1, h2⟩ := C87_form_partial comb cfg k hk hw he hs h ho
  obtain ⟨s', h1', h2'⟩ := C87_components cfg k hk hw he hs h
  rw [h1] at h1'
  obtain rfl := Except.ok.inj h1'
  refine ⟨s, h1, fun g hg ha => ?_⟩
  obtain ⟨f, cts, h3, h4, h5⟩ := h2 g hg
  obtain ⟨f', h6, h7⟩ := h2' g hg ha
  rw [h3] at h6
  obtain rfl := Except.ok.inj h6
  refine ⟨f, _, h3, h4, fun hc n X i j => ?_⟩
  rw [h7, eval]
  replace h5 := h5 n X i j
  clear h7 h4 h3
  simp only [List.map_nil, List.sum_nil, zero_add]
  generalize comps f = l at h5 hc
  induction h5 with
  | nil => simp [evalSum]
  | cons e _ ih =>
    rw [evalSum, List.map_cons, List.sum_cons, e (hc _ (List.mem_cons_self ..)).1 (hc _ (List.mem_cons_self ..)).2,
      ih fun c hm => hc c (List.mem_cons_of_mem _ hm)]

/-! ## An example: `LIN * (PER + C) + CW(PER + LIN, WN)` -/

noncomputable def cmpK : KE :=
  comm .sum [(.PER, 1)] [comm .prod [(.LIN, 1)] [comm .sum [(.PER, 1), (.C, 1)] []], change .CW (comm .sum [(.PER, 1), (.LIN, 1)] []) (base .WN)]

noncomputable def cmpG : GK ℝ :=
  .comb .sum [.base .PER { variance := some 1, period := some 2, lengthscale := some 1 },
    .comb .prod [.base .LIN { variance := some 4, offset := some 5 },
      .comb .sum [.base .PER { variance := some 9, period := some 2, lengthscale := some 2 }, .base .C { variance := some 11 }]],
    .change .CW { location := some 16, width := some 3 } (.comb .sum [.base .PER { variance := some 18, period := some 7, lengthscale := some 1 },
      .base .LIN { variance := some 17, offset := some 19 }]) (.base .WN { variance := some 20 })]

theorem cmpK_ok : cmpK.isBase = false ∧ wf cmpK = true ∧ noEmpty cmpK = true ∧ (∀ x ∈ bases cmpK, x.isSigmoid = false) ∧
    keq (simplify Cfg.default cmpK) cmpK = true ∧ allNodes ownNode cmpK = true ∧ toKernel Cfg.default cmpK = .ok (erase cmpG) := by
  refine ⟨rfl, by decide, by decide, by decide, by decide, by decide, by rfl⟩

theorem cmpG_ok : Adm cmpG ∧ Exact cmpG := by
  constructor
  · simp [cmpG, Adm, AdmL, AdmPD]
  · simp [cmpG, Exact, ExactL]
    norm_num

-- it meets the conditions of all four theorems, and its matrix is the sum of six
example : ∃ f, fitParams Cfg.default cmpG cmpK = .ok f ∧ (comps f).length = 6 ∧ (∀ c ∈ comps f, c.Clean ∧ c.count .SE ≤ 1) ∧
    ∀ (n : ℕ) (X : Fin n → ℝ) (i j : Fin n), kerK .default X cmpG i j = ((comps f).map (Comp.val id (entry .default X i j))).sum := by
  obtain ⟨h1, h2, h3, h4, h5, h6, h7⟩ := cmpK_ok
  obtain ⟨s, h8, h9⟩ := C87_components Cfg.default cmpK h1 h2 h3 h4 h5
  rw [h7] at h8
  obtain ⟨f, h10, h11⟩ := h9 cmpG (Except.ok.inj h8) cmpG_ok.1
  obtain ⟨f', e1, e2⟩ : ∃ f, fitParams Cfg.default cmpG cmpK = .ok f ∧
      (comps f).map (fun c => (c.count .WN, c.count .LIN, c.count .SE)) = [(0, 0, 0), (0, 1, 0), (0, 1, 0), (0, 1, 0), (0, 0, 0), (1, 0, 0)] := ⟨_, rfl, rfl⟩
  rw [h10] at e1
  obtain rfl := Except.ok.inj e1
  refine ⟨f, h10, by simpa using congrArg List.length e2, fun c hc => ?_, h11⟩
  have := List.mem_map_of_mem (f := fun c : Comp ℝ => (c.count .WN, c.count .LIN, c.count .SE)) hc
  rw [e2] at this
  simp at this
  rw [Comp.Clean]
  omega

end GPyABCD
