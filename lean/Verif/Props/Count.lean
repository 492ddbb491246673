import Verif.Lemmas.Count
import Verif.Model.Misc

/-!
# Property C86: the number of parameters that scores count
-/

namespace GPyABCD
open Params hiding flat
open Sops KE

/-- C86. The parameters that a score counts, read off the expression: of its base kernels and change operators and of the noise. In a sum every base kernel
has its variance; the base kernels of a product share one. -/
theorem C86_count (cfg : Cfg) (k : KE) (hs : ∀ b ∈ bases k, b.isSigmoid = false) (s : GK Unit) (h : toKernel cfg k = .ok s) :
    modelK s = nPars cfg k + 1 := by rw [modelK, size_toKernel cfg k hs s h]

/-- `LIN * PER + CW(C, WN)`: variance, offset, period, lengthscale; location, width, two variances; noise. -/
example : ∃ s, toKernel .default (comm .sum [] [comm .prod [(.LIN, 1), (.PER, 1)] [], change .CW (base .C) (base .WN)]) = .ok s ∧ modelK s = 9 :=
  ⟨_, rfl, by decide⟩

/-- C86. Expressions that compare equal have the same number of parameters. -/
theorem C86_equal (cfg : Cfg) (a b : KE) (ha : wf a = true) (hb : wf b = true) (h : keq a b = true) (hsa : ∀ x ∈ bases a, x.isSigmoid = false)
    (hsb : ∀ x ∈ bases b, x.isSigmoid = false) (s t : GK Unit) (h1 : toKernel cfg a = .ok s) (h2 : toKernel cfg b = .ok t) : modelK s = modelK t := by
  rw [C86_count cfg a hsa s h1, C86_count cfg b hsb t h2, nPars_same cfg a b ha hb ((keq_iff a b).1 h)]

/-- C86. Simplification never adds parameters. -/
theorem C86_simplify (cfg : Cfg) (k : KE) (hw : wf k = true) (hs : ∀ b ∈ bases k, b.isSigmoid = false) (s t : GK Unit) (h1 : toKernel cfg k = .ok s)
    (h2 : toKernel cfg (simplify cfg k) = .ok t) : modelK t ≤ modelK s := by
  rw [C86_count cfg k hs s h1, C86_count cfg _ (fun b hb => hs b ((bases_simplify cfg k hw).subset hb)) t h2]
  exact Nat.add_le_add_right (nPars_simplify cfg cfg k hw) 1

/-- `WN * SE + WN` has four parameters, simplified two. -/
example : (toKernel .default (comm .sum [(.WN, 1)] [comm .prod [(.WN, 1), (.SE, 1)] []])).toOption.map modelK = some 4 ∧
    (toKernel .default (simplify .default (comm .sum [(.WN, 1)] [comm .prod [(.WN, 1), (.SE, 1)] []]))).toOption.map modelK = some 2 := by decide

/-- C86. So, at the same likelihood, the simplified expression scores at least as well. -/
theorem C86_score (cfg : Cfg) (k : KE) (hw : wf k = true) (hs : ∀ b ∈ bases k, b.isSigmoid = false) (s t : GK Unit) (h1 : toKernel cfg k = .ok s)
    (h2 : toKernel cfg (simplify cfg k) = .ok t) (ll : ℝ) (n : ℕ) :
    Score.bic ll n (modelK t) ≤ Score.bic ll n (modelK s) ∧ Score.aic ll n (modelK t) ≤ Score.aic ll n (modelK s) := by
  have h : (modelK t : ℝ) ≤ modelK s := by exact_mod_cast C86_simplify cfg k hw hs s t h1 h2
  constructor
  · have hl : 0 ≤ Real.log n := Real.log_natCast_nonneg n
    rw [Score.bic, Score.bic]
    nlinarith
  · rw [Score.aic, Score.aic]
    linarith

end GPyABCD
