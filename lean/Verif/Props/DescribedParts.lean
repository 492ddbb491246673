import Verif.Props.PredictPart
import Verif.Props.Components

/-!
# Property C112: the described components are independent functions

C112: the function that a fitted model stands for is the sum of independent functions, one for each component that is told.
-/

namespace GPyABCD
open Kern Params Sops KE Interp ProbabilityTheory MeasureTheory

/-- C112. Let a stable expression be fitted. Take any independent functions, one for each component (each sentence of the description is about one, `C75_iff`), with the
covariances of the components: their sum follows the fitted kernel. -/
theorem C112_sum (cfg : Cfg) (k : KE) (hk : k.isBase = false) (hw : wf k = true) (he : noEmpty k = true) (hs : ∀ x ∈ bases k, x.isSigmoid = false)
    (h : keq (simplify cfg k) k = true) :
    ∃ s, toKernel cfg k = .ok s ∧ ∀ g : GK ℝ, erase g = s → Adm g → ∃ f, fitParams cfg g k = .ok f ∧
      ∀ {Ω : Type} [MeasurableSpace Ω] {P : Measure Ω} {N : ℕ} (Z : Fin N → ℝ) {noise : ℝ} {F : Fin (comps f).length → Fin N → Ω → ℝ} {e : Fin N → Ω → ℝ},
        SampledParts P (fun c a b => ((comps f).get c).val id (entry cfg Z a b)) noise F e → Sampled P cfg Z g noise (whole F) e := by
  obtain ⟨s, h1, h2⟩ := C87_components cfg k hk hw he hs h
  refine ⟨s, h1, fun g hg ha => ?_⟩
  obtain ⟨f, h3, h4⟩ := h2 g hg ha
  refine ⟨f, h3, fun Z noise F e hF => hF.sum fun a b => ?_⟩
  rw [h4, ← List.sum_ofFn]
  congr 1
  exact (List.ofFn_get _ ▸ (List.map_ofFn ..)).trans rfl

/-- C112. Such functions exist, at any inputs and with any noise (partial: where the formula of the periodic kernel is exact, see C53). -/
theorem C112_exist_partial (cfg : Cfg) (k : KE) (hk : k.isBase = false) (hw : wf k = true) (he : noEmpty k = true) (hs : ∀ x ∈ bases k, x.isSigmoid = false)
    (h : keq (simplify cfg k) k = true) (s : GK Unit) (h1 : toKernel cfg k = .ok s) (g : GK ℝ) (hg : erase g = s) (hx : Exact g) :
    ∃ f, fitParams cfg g k = .ok f ∧ ∀ {N : ℕ} (Z : Fin N → ℝ) (noise : ℝ), 0 ≤ noise →
      ∃ (Ω : Type) (_ : MeasurableSpace Ω) (P : Measure Ω) (F : Fin (comps f).length → Fin N → Ω → ℝ) (e : Fin N → Ω → ℝ),
        SampledParts P (fun c a b => ((comps f).get c).val id (entry cfg Z a b)) noise F e := by
  obtain ⟨f, h2, h3⟩ := C87_positive_partial cfg k hk hw he hs h s h1 g hg hx
  exact ⟨f, h2, fun Z noise hn => exists_parts _ (fun c => h3 _ (List.get_mem ..) _ Z) noise hn⟩

/-- The hypotheses are met: a fitted model with six components, at three inputs. -/
example : ∃ f, fitParams Cfg.default cmpG cmpK = .ok f ∧ (comps f).length = 6 ∧
    ∃ (Ω : Type) (_ : MeasurableSpace Ω) (P : Measure Ω) (F : Fin (comps f).length → Fin 3 → Ω → ℝ) (e : Fin 3 → Ω → ℝ),
      SampledParts P (fun c a b => ((comps f).get c).val id (entry .default (fun a : Fin 3 => (a : ℝ)) a b)) (1 / 10) F e ∧
      Sampled P .default (fun a : Fin 3 => (a : ℝ)) cmpG (1 / 10) (whole F) e := by
  obtain ⟨h1, h2, h3, h4, h5, h6, h7⟩ := cmpK_ok
  obtain ⟨s, h8, h9⟩ := C112_sum Cfg.default cmpK h1 h2 h3 h4 h5
  have h8' := h8
  rw [h7] at h8
  obtain ⟨f, h10, h11⟩ := h9 cmpG (Except.ok.inj h8) cmpG_ok.1
  obtain ⟨f', e1, e2⟩ := C112_exist_partial Cfg.default cmpK h1 h2 h3 h4 h5 s h8' cmpG (Except.ok.inj h8) cmpG_ok.2
  rw [h10] at e1
  obtain rfl := Except.ok.inj e1
  obtain ⟨f', e3, e4⟩ : ∃ f, fitParams Cfg.default cmpG cmpK = .ok f ∧ (comps f).length = 6 := ⟨_, rfl, rfl⟩
  rw [h10] at e3
  obtain rfl := Except.ok.inj e3
  obtain ⟨Ω, i, P, F, e, hF⟩ := e2 (fun a : Fin 3 => (a : ℝ)) (1 / 10) (by norm_num)
  exact ⟨f, h10, e4, Ω, i, P, F, e, hF, h11 _ hF⟩

end GPyABCD
