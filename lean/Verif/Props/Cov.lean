import Verif.Lemmas.PerNotCov
import Verif.Lemmas.CovDen
import Verif.Props.Numeric

/-! # C70: every expression stands for covariance functions -/

namespace GPyABCD
open scoped Pointwise
open KE Kern

/-- For every expression and all admissible parameter values the covariance is symmetric and positive
semidefinite. Missing from the full statement: periodic kernels with `1 / lengthscale^2` of at least 3.75,
where it is false (`C70_short_lengthscale`). -/
theorem C70_covariance_partial (cfg : Cfg) {V : Set ℝ} (hV : ∀ v ∈ V, 0 ≤ v) (k : KE) :
    ∀ f ∈ den (exactI cfg V) k, IsCov f := by
  refine isCov_den (cfg := cfg) rfl k fun b _ f hf => ?_
  by_cases hb : b = .PER
  · subst hb
    obtain ⟨v, hv, p, l, _, hl, h, rfl⟩ := hf
    exact isCov_per (hV v hv) hl h
  · cases b with
    | PER => exact absurd rfl hb
    | _ => exact isCov_base (cfg := cfg) hV hb f hf

/-- Without periodic kernels there is no restriction. -/
theorem C70_no_periodic (cfg : Cfg) {V : Set ℝ} (hV : ∀ v ∈ V, 0 ≤ v) (k : KE) (hk : .PER ∉ bases k) :
    ∀ f ∈ den (realI cfg V) k, IsCov f :=
  isCov_den (cfg := cfg) rfl k fun b hb => isCov_base hV (fun h => hk (h ▸ hb))

/-- The restriction only concerns the lengthscale. -/
theorem C70_exact_subset (cfg : Cfg) (V : Set ℝ) (b : Base) : (exactI cfg V).F b ⊆ (realI cfg V).F b := by
  cases b with
  | PER => rintro f ⟨v, hv, p, l, hp, hl, _, rfl⟩; exact ⟨v, hv, p, l, hp, hl, rfl⟩
  | _ => exact fun f h => h

/-- For lengthscale 1/2 the approximated Bessel function exceeds the true one, and the purely periodic
kernel is not positive semidefinite (in exact arithmetic). -/
theorem C70_short_lengthscale (cfg : Cfg) : ∃ f ∈ den (realI cfg posV) (mkL cfg .sum [.PER] []), ¬ IsCov f := by
  refine ⟨per 1 1 (1 / 2), ?_, fun h => ?_⟩
  · have : den (realI cfg posV) (mkL cfg .sum [.PER] []) = (realI cfg posV).F .PER := by
      rw [show mkL cfg .sum [.PER] [] = comm .sum [(.PER, 1)] [] by cases cfg; rename_i a b c; cases a <;> cases b <;> cases c <;> rfl]
      simp [den, denL, opFold, Counter.elements]
    rw [this]
    exact ⟨1, by simp [mem_posV], 1, 1 / 2, by norm_num, by norm_num, rfl⟩
  · exact absurd (h.2 24 (fun i => (i : ℕ) / (24 : ℕ)) (fun _ => 1)) (not_le.2 per_not_isCov)

/-- Kernel matrices of fitted kernels are what Gaussian process regression needs: with the noise variance on
the diagonal the quadratic form is positive for every non-zero vector. -/
theorem C70_regression {k : Cov} (h : IsCov k) {noise : ℝ} (hn : 0 < noise) {n : ℕ} (x c : Fin n → ℝ) (hc : c ≠ 0) :
    0 < ∑ i, ∑ j, c i * c j * (k (x i) (x j) + if i = j then noise else 0) := by
  have h1 := h.2 n x c
  obtain ⟨i0, hi⟩ := Function.ne_iff.1 hc
  have h2 : 0 < ∑ i, noise * c i ^ 2 :=
    Finset.sum_pos' (fun i _ => by positivity) ⟨i0, Finset.mem_univ _, by
      have : c i0 ≠ 0 := hi
      positivity⟩
  have e : ∑ i, ∑ j, c i * c j * (k (x i) (x j) + if i = j then noise else 0) =
      ∑ i, ∑ j, c i * c j * k (x i) (x j) + ∑ i, noise * c i ^ 2 := by
    rw [← Finset.sum_add_distrib]
    refine Finset.sum_congr rfl fun i _ => ?_
    simp only [mul_add, Finset.sum_add_distrib]
    congr 1
    simp [mul_ite]
    ring
  rw [e]
  linarith

example : per 1 2 1 * linearOffset 3 1 ∈ den (exactI .default posV) (comm .prod [(.PER, 1), (.LIN, 1)] []) := by
  have : den (exactI .default posV) (comm .prod [(.PER, 1), (.LIN, 1)] []) =
      (exactI .default posV).F .PER * (exactI .default posV).F .LIN := by
    simp [den, denL, opFold, Counter.elements]
  rw [this]
  exact Set.mul_mem_mul ⟨1, by simp [mem_posV], 2, 1, by norm_num, by norm_num, by norm_num, rfl⟩
    ⟨3, by simp [mem_posV], 1, by simp [Cfg.default], rfl⟩

end GPyABCD
