import Verif.Props.Long
import Verif.Props.Complete

/-!
# Property C123: searches that find the best expression
-/

namespace GPyABCD
open KE Search Params Kern

theorem finite_language (cfg : Cfg) (hc : cfg.linOffset = true) {n : ℕ} (hn : 2 ≤ n) (X y : Fin n → ℝ) {δ : ℝ} (hδ : 0 < δ) (S : ℝ) :
    {T : KE | InLanguage cfg T ∧ ∃ s ∈ scores Score.bic cfg δ X y T, s < S}.Finite := by
  obtain ⟨N, hN⟩ := exists_nat_ge ((S - n * Real.log (2 * Real.pi * δ)) / Real.log n)
  refine (finite_length N).subset ?_
  rintro T ⟨hT, _, ⟨g, noise, hg, he, h, rfl⟩, hlt⟩
  have hnorm := hT.normal
  simp only [KE.normal, Bool.and_eq_true] at hnorm
  obtain ⟨⟨⟨h1, h2⟩, h3⟩, -⟩ := hnorm
  refine ⟨h1, hT.noEmpty, h3, ?_⟩
  by_contra hl
  have hp : (N : ℝ) ≤ nPars cfg T := by exact_mod_cast (not_le.1 hl).le.trans (length_le_nPars hc T h1 h2)
  have hs : ∀ b ∈ bases T, b.isSigmoid = false := by
    intro b hb
    have := hT.bases b hb
    unfold Searched at this
    cases b <;> simp [Base.isSigmoid] at this ⊢
  exact absurd (C123_bic_partial cfg T hs hn X y hδ S (by linarith) g hg he noise h) (not_le.2 hlt)

theorem language_wn (cfg : Cfg) {n : ℕ} (X y : Fin n → ℝ) (δ : ℝ) : InLanguage cfg (comm .sum [(.WN, 1)] []) ∧ (scores Score.bic cfg δ X y (comm .sum [(.WN, 1)] [])).Nonempty := by
  refine ⟨⟨rfl, ?_, by decide, ?_, fun _ => ⟨_, rfl⟩⟩, _, .base .WN { variance := some 1 }, δ, ⟨by rfl, by simp [Adm, AdmPD]⟩, by simp [Exact], le_rfl, rfl⟩
  · cases cfg with | mk a b c => cases b <;> rfl
  · intro b hb
    have : b = .WN := by simpa [bases, basesL, Counter.elements] using hb
    subst this
    simp [Searched]

/-- C123 (partial: periodic lengthscales in the exact regime): of the expressions of the language (C104) one is best by BIC, and searches with the rules of any of the three groups,
from any start kernels, test an expression equal to it, given wide enough beams and as many rounds as its size says. -/
theorem C123_search_partial (cfg : Cfg) (hc : cfg.linOffset = true) {n : ℕ} (hn : 2 ≤ n) (X y : Fin n → ℝ) {δ : ℝ} (hδ : 0 < δ) :
    ∃ T, InLanguage cfg T ∧
      (∀ T', InLanguage cfg T' → ∀ s' ∈ scores Score.bic cfg δ X y T', ∀ ε : ℝ, 0 < ε → ∃ s ∈ scores Score.bic cfg δ X y T, s < s' + ε) ∧
      ∀ (D R ε : Type) (o : Orders), o.OK cfg → ∀ group ∈ [rulesDefault, rulesOriginal, rulesAll], ∀ (le : R → R → Bool) (score : D → R) (fit : Nat → KE → Except ε D),
        (∀ n k, ∃ d, fit n k = .ok d) → ∀ starts : List KE, (∀ k ∈ starts, IsExpr k) → starts ≠ [] →
          ∃ (bs : List Int) (s : St KE D R), bs.length = rounds T ∧ explore (keEnv cfg o group le score fit) false starts (rounds T : Nat) (.list bs) = .ok s ∧
            ∃ m ∈ s.tested.flatten, keq T m.kex = true := by
  obtain ⟨T, h1, h2⟩ := best_of Score.bic cfg X y (InLanguage cfg) ⟨_, language_wn cfg X y δ⟩ (bdd_bic cfg X y hδ) (finite_language cfg hc hn X y hδ)
  exact ⟨T, h1, h2, fun D R ε o ho group hg le score fit hf starts hs hne => C104_found cfg o ho group hg le score fit hf starts hs hne T h1⟩

/-- Orders, fits and start kernels as the theorem wants them. -/
example : (⟨[.WN, .C, .LIN, .PER], [.WN, .LIN, .PER]⟩ : Orders).OK .default ∧ (∀ n k, ∃ d, (fun (n : Nat) (_ : KE) => (.ok n : Except Unit Nat)) n k = .ok d) ∧
    IsExpr (comm .sum [(.WN, 1)] []) := ⟨⟨by decide, by decide⟩, by simp, ⟨by decide, rfl⟩⟩

end GPyABCD
