import Verif.Model.Linear
import Verif.Spec.Linear
import Mathlib.Analysis.Calculus.Deriv.Add
import Mathlib.Analysis.Calculus.Deriv.Mul
import Mathlib.Algebra.BigOperators.Fin
import Mathlib.Algebra.BigOperators.Field

/-! # The linear kernel in any number of dimensions (C83) -/

namespace GPyABCD
open Lin

private theorem move_self {n q : ℕ} (X : Fin n → Fin q → ℝ) (i : Fin n) (k : Fin q) : move X i k (X i k) = X := by
  funext i' k'; simp only [move]; split
  · rename_i h; rw [h.1, h.2]
  · rfl

private theorem set_self {q : ℕ} (x : Fin q → ℝ) (k : Fin q) : setAt x k (x k) = x := by
  funext k'; simp only [setAt]; split
  · rename_i h; rw [h]
  · rfl

private theorem deriv_move {n q : ℕ} (X : Fin n → Fin q → ℝ) (i : Fin n) (k : Fin q) (i' : Fin n) (k' : Fin q) (t : ℝ) :
    HasDerivAt (fun t => move X i k t i' k') (if i' = i ∧ k' = k then 1 else 0) t := by
  simp only [move]; split
  · exact hasDerivAt_id t
  · exact hasDerivAt_const t _

private theorem deriv_set {q : ℕ} (x : Fin q → ℝ) (k k' : Fin q) (t : ℝ) : HasDerivAt (fun t => setAt x k t k') (if k' = k then 1 else 0) t := by
  simp only [setAt]; split
  · exact hasDerivAt_id t
  · exact hasDerivAt_const t _

/-- C83: one entry of `K` is the documented covariance, with and without `X2`, one variance or one per dimension. -/
theorem C83_covariance {n m q : ℕ} (v : Var q) (hv : ∀ k, 0 ≤ v.at k) (X : Fin n → Fin q → ℝ) (X2 : Fin m → Fin q → ℝ) :
    (∀ i j, K1 v X i j = cov v.at (X i) (X j)) ∧ (∀ i j, K2 v X X2 i j = cov v.at (X i) (X2 j)) ∧ ∀ i, Kdiag v X i = cov v.at (X i) (X i) := by
  refine ⟨fun i j => ?_, fun i j => ?_, fun i => ?_⟩
  · cases v with
    | one v => simp only [K1, dot, cov, Var.at, Finset.sum_mul]; exact Finset.sum_congr rfl fun k _ => by ring
    | ard v =>
      simp only [K1, dot, cov, Var.at]
      refine Finset.sum_congr rfl fun k _ => ?_
      have := Real.mul_self_sqrt (hv k)
      simp only [Var.at] at this
      calc X i k * √(v k) * (X j k * √(v k)) = (√(v k) * √(v k)) * X i k * X j k := by ring
        _ = _ := by rw [this]
  · cases v with
    | one v => simp only [K2, dot, cov, Var.at, Finset.sum_mul]; exact Finset.sum_congr rfl fun k _ => by ring
    | ard v =>
      simp only [K2, dot, cov, Var.at]
      refine Finset.sum_congr rfl fun k _ => ?_
      have := Real.mul_self_sqrt (hv k)
      simp only [Var.at] at this
      calc X i k * √(v k) * (X2 j k * √(v k)) = (√(v k) * √(v k)) * X i k * X2 j k := by ring
        _ = _ := by rw [this]
  · simp only [Kdiag, cov]; exact Finset.sum_congr rfl fun k _ => by ring

private theorem loss_half {n q : ℕ} (dL : Fin n → Fin n → ℝ) (v : Fin q → ℝ) (X : Fin n → Fin q → ℝ) : loss (half dL) v X X = loss dL v X X := by
  have h : ∑ i, ∑ j, dL j i * cov v (X i) (X j) = ∑ i, ∑ j, dL i j * cov v (X i) (X j) := by
    rw [Finset.sum_comm]
    refine Finset.sum_congr rfl fun i _ => Finset.sum_congr rfl fun j _ => ?_
    rw [show cov v (X j) (X i) = cov v (X i) (X j) from Finset.sum_congr rfl fun k _ => by ring]
  have e : loss (half dL) v X X = (loss dL v X X + ∑ i, ∑ j, dL j i * cov v (X i) (X j)) / 2 := by
    simp only [loss, half, ← Finset.sum_add_distrib, Finset.sum_div]
    exact Finset.sum_congr rfl fun i _ => Finset.sum_congr rfl fun j _ => by ring
  rw [e, h]; simp only [loss]; ring

private theorem deriv_ard {n m q : ℕ} (dL : Fin n → Fin m → ℝ) (v : Fin q → ℝ) (X : Fin n → Fin q → ℝ) (Z : Fin m → Fin q → ℝ) (k : Fin q) (t : ℝ) :
    HasDerivAt (fun t => loss dL (setAt v k t) X Z) (∑ i, (∑ j, dL i j * Z j k) * X i k) t := by
  have h : HasDerivAt (fun t => loss dL (setAt v k t) X Z) (∑ i, ∑ j, dL i j * ∑ k', (if k' = k then (1 : ℝ) else 0) * X i k' * Z j k') t :=
    .fun_sum fun i _ => .fun_sum fun j _ => (HasDerivAt.fun_sum fun k' _ => ((deriv_set v k k' t).mul_const _).mul_const _).const_mul _
  refine h.congr_deriv (Finset.sum_congr rfl fun i _ => ?_)
  rw [Finset.sum_mul]
  refine Finset.sum_congr rfl fun j _ => ?_
  simp only [ite_mul, one_mul, zero_mul, Finset.sum_ite_eq', Finset.mem_univ, if_true]
  ring

private theorem deriv_one {n m q : ℕ} (dL : Fin n → Fin m → ℝ) (X : Fin n → Fin q → ℝ) (Z : Fin m → Fin q → ℝ) (t : ℝ) :
    HasDerivAt (fun t => loss dL (fun _ => t) X Z) (∑ i, ∑ j, dot X Z i j * dL i j) t := by
  have h : HasDerivAt (fun t => loss dL (fun _ => t) X Z) (∑ i, ∑ j, dL i j * ∑ k', (1 : ℝ) * X i k' * Z j k') t :=
    .fun_sum fun i _ => .fun_sum fun j _ => (HasDerivAt.fun_sum fun k' _ => ((hasDerivAt_id t).mul_const _).mul_const _).const_mul _
  refine h.congr_deriv (Finset.sum_congr rfl fun i _ => Finset.sum_congr rfl fun j _ => ?_)
  simp only [dot, one_mul]; ring

/-- C83: the gradient of the variance, or of each variance, for any `dL_dK`, with and without `X2`. -/
theorem C83_variance {n m q : ℕ} (dL : Fin n → Fin n → ℝ) (dL2 : Fin n → Fin m → ℝ) (X : Fin n → Fin q → ℝ) (X2 : Fin m → Fin q → ℝ) :
    (∀ v, ∃ g, grad1 (.one v : Var q) dL X = .one g ∧ HasDerivAt (fun t => loss dL (fun _ => t) X X) g v) ∧
    (∀ v, ∃ g, grad2 (.one v : Var q) dL2 X X2 = .one g ∧ HasDerivAt (fun t => loss dL2 (fun _ => t) X X2) g v) ∧
    (∀ v, ∃ g, grad1 (.ard v) dL X = .ard g ∧ ∀ k, HasDerivAt (fun t => loss dL (setAt v k t) X X) (g k) (v k)) ∧
    ∀ v, ∃ g, grad2 (.ard v) dL2 X X2 = .ard g ∧ ∀ k, HasDerivAt (fun t => loss dL2 (setAt v k t) X X2) (g k) (v k) := by
  refine ⟨fun v => ⟨_, rfl, ?_⟩, fun v => ⟨_, rfl, deriv_one dL2 X X2 v⟩, fun v => ⟨_, rfl, fun k => ?_⟩, fun v => ⟨_, rfl, fun k => deriv_ard dL2 v X X2 k _⟩⟩
  · simpa only [loss_half] using deriv_one (half dL) X X v
  · simpa only [loss_half] using deriv_ard (half dL) v X X k (v k)

/-- C83: the gradient of the variance, or of each variance, through the diagonal. -/
theorem C83_variance_diag {n q : ℕ} (dL : Fin n → ℝ) (X : Fin n → Fin q → ℝ) :
    (∀ v, ∃ g, gradDiag (.one v : Var q) dL X = .one g ∧ HasDerivAt (fun t => lossDiag dL (fun _ => t) X) g v) ∧
    ∀ v, ∃ g, gradDiag (.ard v) dL X = .ard g ∧ ∀ k, HasDerivAt (fun t => lossDiag dL (setAt v k t) X) (g k) (v k) := by
  refine ⟨fun v => ⟨_, rfl, ?_⟩, fun v => ⟨_, rfl, fun k => ?_⟩⟩
  · have h : HasDerivAt (fun t => lossDiag dL (fun _ => t) X) (∑ i, dL i * ∑ k', (1 : ℝ) * X i k' * X i k') v :=
      .fun_sum fun i _ => (HasDerivAt.fun_sum fun k' _ => ((hasDerivAt_id v).mul_const _).mul_const _).const_mul _
    refine h.congr_deriv (Finset.sum_congr rfl fun i _ => ?_)
    rw [Finset.mul_sum]
    exact Finset.sum_congr rfl fun k _ => by ring
  · have h : HasDerivAt (fun t => lossDiag dL (setAt v k t) X) (∑ i, dL i * ∑ k', (if k' = k then (1 : ℝ) else 0) * X i k' * X i k') (v k) :=
      .fun_sum fun i _ => (HasDerivAt.fun_sum fun k' _ => ((deriv_set v k k' _).mul_const _).mul_const _).const_mul _
    refine h.congr_deriv (Finset.sum_congr rfl fun i _ => ?_)
    simp only [ite_mul, one_mul, zero_mul, Finset.sum_ite_eq', Finset.mem_univ, if_true]
    ring

private theorem pick {n q : ℕ} (i : Fin n) (k : Fin q) (f : Fin n → Fin q → ℝ) :
    ∑ i', ∑ k', (if i' = i ∧ k' = k then f i' k' else 0) = f i k := by
  rw [Finset.sum_eq_single i (fun b _ hb => by simp [hb]) (by simp), Finset.sum_eq_single k (fun b _ hb => by simp [hb]) (by simp)]
  simp

private theorem deriv_left {n m q : ℕ} (dL : Fin n → Fin m → ℝ) (v : Fin q → ℝ) (X : Fin n → Fin q → ℝ) (Z : Fin m → Fin q → ℝ) (i : Fin n) (k : Fin q) (t : ℝ) :
    HasDerivAt (fun t => loss dL v (move X i k t) Z) ((∑ j, dL i j * Z j k) * v k) t := by
  have h : HasDerivAt (fun t => loss dL v (move X i k t) Z) (∑ i', ∑ j, dL i' j * ∑ k', v k' * (if i' = i ∧ k' = k then (1 : ℝ) else 0) * Z j k') t :=
    .fun_sum fun i' _ => .fun_sum fun j _ => (HasDerivAt.fun_sum fun k' _ => ((deriv_move X i k i' k' t).const_mul _).mul_const _).const_mul _
  refine h.congr_deriv ?_
  rw [← pick i k (fun i k => (∑ j, dL i j * Z j k) * v k)]
  refine Finset.sum_congr rfl fun i' _ => ?_
  simp only [Finset.mul_sum]
  rw [Finset.sum_comm]
  refine Finset.sum_congr rfl fun k' _ => ?_
  split
  · rw [Finset.sum_mul]; exact Finset.sum_congr rfl fun j _ => by ring
  · simp

/-- C83: `gradients_X` with a given `X2` is the derivative with respect to every input, for any `dL_dK`. -/
theorem C83_inputs {n m q : ℕ} (v : Var q) (dL : Fin n → Fin m → ℝ) (X : Fin n → Fin q → ℝ) (X2 : Fin m → Fin q → ℝ) (i : Fin n) (k : Fin q) :
    HasDerivAt (fun t => loss dL v.at (move X i k t) X2) (gradientsX2 v dL X X2 i k) (X i k) := deriv_left dL v.at X X2 i k _

/-- C83: `gradients_X` without `X2` is the derivative with respect to every input, which then moves on both sides, for any `dL_dK`. -/
theorem C83_inputs_both {n q : ℕ} (v : Var q) (dL : Fin n → Fin n → ℝ) (X : Fin n → Fin q → ℝ) (i : Fin n) (k : Fin q) :
    HasDerivAt (fun t => loss dL v.at (move X i k t) (move X i k t)) (gradientsX1 v dL X i k) (X i k) := by
  have h : HasDerivAt (fun t => loss (half dL) v.at (move X i k t) (move X i k t))
      (∑ i', ∑ j, half dL i' j * ∑ k', (v.at k' * (if i' = i ∧ k' = k then (1 : ℝ) else 0) * X j k' + v.at k' * X i' k' * (if j = i ∧ k' = k then (1 : ℝ) else 0))) (X i k) := by
    refine .fun_sum fun i' _ => .fun_sum fun j _ => (HasDerivAt.fun_sum fun k' _ => ?_).const_mul _
    have := ((deriv_move X i k i' k' (X i k)).const_mul (v.at k')).fun_mul (deriv_move X i k j k' (X i k))
    simpa only [move_self] using this
  simp only [loss_half] at h
  refine h.congr_deriv ?_
  have e1 : ∑ i', ∑ j, half dL i' j * ∑ k', v.at k' * (if i' = i ∧ k' = k then (1 : ℝ) else 0) * X j k' = (∑ j, half dL i j * X j k) * v.at k := by
    have h1 : HasDerivAt (fun t => loss (half dL) v.at (move X i k t) X) (∑ i', ∑ j, half dL i' j * ∑ k', v.at k' * (if i' = i ∧ k' = k then (1 : ℝ) else 0) * X j k') 0 :=
      .fun_sum fun i' _ => .fun_sum fun j _ => (HasDerivAt.fun_sum fun k' _ => ((deriv_move X i k i' k' 0).const_mul _).mul_const _).const_mul _
    exact h1.unique (deriv_left _ _ _ _ _ _ _)
  have e2 : ∑ i', ∑ j, half dL i' j * ∑ k', v.at k' * X i' k' * (if j = i ∧ k' = k then (1 : ℝ) else 0) =
      ∑ i', ∑ j, half dL i' j * ∑ k', v.at k' * (if i' = i ∧ k' = k then (1 : ℝ) else 0) * X j k' := by
    rw [Finset.sum_comm]
    refine Finset.sum_congr rfl fun a _ => Finset.sum_congr rfl fun b _ => ?_
    rw [show half dL b a = half dL a b by simp only [half]; ring]
    congr 1
    exact Finset.sum_congr rfl fun k' _ => by ring
  simp only [Finset.sum_add_distrib, mul_add, e2, e1, gradientsX1]
  ring

/-- C83: `gradients_X_diag` is the derivative of the diagonal with respect to every input. -/
theorem C83_inputs_diag {n q : ℕ} (v : Var q) (dL : Fin n → ℝ) (X : Fin n → Fin q → ℝ) (i : Fin n) (k : Fin q) :
    HasDerivAt (fun t => lossDiag dL v.at (move X i k t)) (gradientsXDiag v dL X i k) (X i k) := by
  have h : HasDerivAt (fun t => lossDiag dL v.at (move X i k t))
      (∑ i', dL i' * ∑ k', (v.at k' * (if i' = i ∧ k' = k then (1 : ℝ) else 0) * X i' k' + v.at k' * X i' k' * (if i' = i ∧ k' = k then (1 : ℝ) else 0))) (X i k) := by
    refine .fun_sum fun i' _ => (HasDerivAt.fun_sum fun k' _ => ?_).const_mul _
    have := ((deriv_move X i k i' k' (X i k)).const_mul (v.at k')).fun_mul (deriv_move X i k i' k' (X i k))
    simpa only [move_self] using this
  refine h.congr_deriv ?_
  rw [← pick i k (fun i k => gradientsXDiag v dL X i k)]
  refine Finset.sum_congr rfl fun i' _ => ?_
  rw [Finset.mul_sum]
  refine Finset.sum_congr rfl fun k' _ => ?_
  simp only [gradientsXDiag]
  split
  · ring
  · simp

private theorem deriv_cov {q : ℕ} (v x y : Fin q → ℝ) (k : Fin q) (t : ℝ) : HasDerivAt (fun t => cov v (setAt x k t) y) (v k * y k) t := by
  have h : HasDerivAt (fun t => cov v (setAt x k t) y) (∑ k', v k' * (if k' = k then (1 : ℝ) else 0) * y k') t :=
    .fun_sum fun k' _ => ((deriv_set x k k' t).const_mul _).mul_const _
  refine h.congr_deriv ?_
  simp

/-- C83, second derivatives (partial: the full statement is the second one, with respect to both inputs, which fails, see `C83_xx_wrong`): the zeros
`gradients_XX` returns are the second derivatives with respect to the first input alone. -/
theorem C83_xx_partial {n m q : ℕ} (v : Var q) (dL : Fin n → Fin m → ℝ) (X : Fin n → Fin q → ℝ) (X2 : Fin m → Fin q → ℝ) (i : Fin n) (j : Fin m) (k l : Fin q) :
    ∃ d, (∀ s, HasDerivAt (fun t => cov v.at (setAt (setAt (X i) l s) k t) (X2 j)) (d s) (X i k)) ∧ HasDerivAt d (gradientsXX v dL X X2 i j k l) (X i l) :=
  ⟨fun _ => v.at k * X2 j k, fun _ => deriv_cov v.at _ _ k _, hasDerivAt_const _ _⟩

/-- `gradients_XX` claims the derivative with respect to both inputs: that is the variance, never zero for positive variances. -/
theorem C83_xx_wrong {n m q : ℕ} (v : Var q) (hv : ∀ k, 0 < v.at k) (dL : Fin n → Fin m → ℝ) (X : Fin n → Fin q → ℝ) (X2 : Fin m → Fin q → ℝ) (i : Fin n) (j : Fin m) (k : Fin q) :
    deriv (fun s => deriv (fun t => cov v.at (setAt (X i) k t) (setAt (X2 j) k s)) (X i k)) (X2 j k) = v.at k ∧
    deriv (fun s => deriv (fun t => cov v.at (setAt (X i) k t) (setAt (X2 j) k s)) (X i k)) (X2 j k) ≠ gradientsXX v dL X X2 i j k k := by
  have : (fun s => deriv (fun t => cov v.at (setAt (X i) k t) (setAt (X2 j) k s)) (X i k)) = fun s => v.at k * s := by
    funext s; rw [(deriv_cov v.at _ _ k _).deriv]; simp [setAt]
  have e : deriv (fun s => v.at k * s) (X2 j k) = v.at k := by simp
  rw [this, e]
  exact ⟨rfl, (hv k).ne'⟩

/-- `gradients_XX_diag`: the second derivative of the diagonal is twice the variance, not zero. -/
theorem C83_xx_diag_wrong {n q : ℕ} (v : Var q) (hv : ∀ k, 0 < v.at k) (dL : Fin n → ℝ) (X : Fin n → Fin q → ℝ) (i : Fin n) (k : Fin q) :
    deriv (fun s => deriv (fun t => cov v.at (setAt (X i) k t) (setAt (X i) k t)) s) (X i k) = 2 * v.at k ∧
    deriv (fun s => deriv (fun t => cov v.at (setAt (X i) k t) (setAt (X i) k t)) s) (X i k) ≠ gradientsXXDiag v dL X i k k := by
  have h : ∀ s, HasDerivAt (fun t => cov v.at (setAt (X i) k t) (setAt (X i) k t)) (2 * v.at k * s) s := by
    intro s
    have h : HasDerivAt (fun t => cov v.at (setAt (X i) k t) (setAt (X i) k t))
        (∑ k', (v.at k' * (if k' = k then (1 : ℝ) else 0) * setAt (X i) k s k' + v.at k' * setAt (X i) k s k' * (if k' = k then (1 : ℝ) else 0))) s :=
      .fun_sum fun k' _ => ((deriv_set (X i) k k' s).const_mul (v.at k')).fun_mul (deriv_set (X i) k k' s)
    refine h.congr_deriv ?_
    rw [Finset.sum_eq_single k (fun b _ hb => by simp [hb]) (by simp)]
    simp [setAt]; ring
  have e : (fun s => deriv (fun t => cov v.at (setAt (X i) k t) (setAt (X i) k t)) s) = fun s => 2 * v.at k * s := funext fun s => (h s).deriv
  have e2 : deriv (fun s => 2 * v.at k * s) (X i k) = 2 * v.at k := by simp
  rw [e, e2]
  exact ⟨rfl, by have := hv k; simp only [gradientsXXDiag]; positivity⟩

-- variances 2 and 3, two points of two dimensions, an asymmetric dL_dK: the derivative by the first coordinate of the second point is 14
example : (∀ k, 0 < (Var.ard ![2, 3] : Var 2).at k) ∧
    gradientsX1 (.ard ![2, 3]) ![![0, 1], ![2, 1]] ![![1, 0], ![2, 1]] 1 0 = 14 ∧ grad1 (.ard ![2, 3]) ![![0, 1], ![2, 1]] ![![1, 0], ![2, 1]] = .ard ![10, 1] := by
  refine ⟨fun k => by fin_cases k <;> norm_num [Var.at], ?_, ?_⟩
  · norm_num [gradientsX1, half, Var.at, Fin.sum_univ_two]
  · simp only [grad1, Var.ard.injEq]
    funext k; fin_cases k <;> norm_num [half, Fin.sum_univ_two]

end GPyABCD
