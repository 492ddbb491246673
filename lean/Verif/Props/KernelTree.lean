import Verif.Lemmas.KernelTree
import Verif.Lemmas.GradNames
import Verif.Props.Cov
import Mathlib.Analysis.Matrix.Order
import Mathlib.Analysis.Calculus.Deriv.Comp
import Mathlib.Analysis.Calculus.FDeriv.Pi
import Mathlib.Analysis.Calculus.Deriv.Prod

/-!
# Property C79: gradients and diagonals of whole kernels
-/

namespace GPyABCD
open Kern Params Sops

/-- The loss that `dL_dK` stands for. -/
def lossOf {n : ℕ} (dL K : Fin n → Fin n → ℝ) : ℝ := ∑ i, ∑ j, dL i j * K i j

/-- C79 (partial: regular parameters, which leaves out the lengthscale of periodic kernels where the formula is approximate, `C53_lengthscale_gradient_partial`).
For every kernel, however deep, and every linked parameter of every base kernel in it, what `update_gradients_full` writes is the derivative of
`sum(dL_dK * K(X))` with respect to that parameter. -/
theorem C79_base_partial (cfg : Cfg) {n : ℕ} (X : Fin n → ℝ) {dL : Fin n → Fin n → ℝ} (hs : SymmArr dL) (C : Place) (b : Base) (p : PD ℝ) (q : Par) (t : ℝ)
    (hq : q.get p = some t) (hb : q ∈ parsOf cfg b) (hr : Regular b p q) :
    ∃ gs g, C.get (kerGrad cfg X dL (C.fill (.base b p))) = some (.base b gs) ∧ q.get gs = some g ∧
      HasDerivAt (fun t => lossOf dL (kerK cfg X (C.fill (.base b (q.put p t))))) g t := by
  obtain ⟨g, h1, h2⟩ := baseGrad_ok cfg X (hand_symm cfg X C hs) b p q t hq hb hr
  refine ⟨_, g, by rw [kerGrad_fill, kerGrad], h1, ?_⟩
  refine (h2.add_const (msum dL (C.rest cfg X))).congr_of_eventuallyEq (Filter.Eventually.of_forall fun t => ?_)
  have := msum_fill cfg X C dL (.base b (q.put p t))
  rw [kerK] at this
  exact this

/-- C79, for the objective itself: if `dL_dK` is the derivative of an objective `L` (any function of the covariance matrix, such as a likelihood) at the
current covariance matrix, then what is written is the derivative of the objective with respect to the parameter. -/
theorem C79_objective_partial (cfg : Cfg) {n : ℕ} (X : Fin n → ℝ) {dL : Fin n → Fin n → ℝ} (hs : SymmArr dL) (C : Place) (b : Base) (p : PD ℝ) (q : Par) (t : ℝ)
    (hq : q.get p = some t) (hb : q ∈ parsOf cfg b) (hr : Regular b p q) (L : (Fin n → Fin n → ℝ) → ℝ) (L' : (Fin n → Fin n → ℝ) →L[ℝ] ℝ)
    (hL : HasFDerivAt L L' (kerK cfg X (C.fill (.base b p)))) (hd : ∀ A, L' A = lossOf dL A) :
    ∃ gs g, C.get (kerGrad cfg X dL (C.fill (.base b p))) = some (.base b gs) ∧ q.get gs = some g ∧
      HasDerivAt (fun t => L (kerK cfg X (C.fill (.base b (q.put p t))))) g t := by
  obtain ⟨gs, g, h1, h2, h3⟩ := C79_base_partial cfg X hs C b p q t hq hb hr
  refine ⟨gs, g, h1, h2, ?_⟩
  have he := fun i j => entries_of (K := fun t => kerK cfg X (C.fill (.base b (q.put p t)))) (t := t) (fun t => kerK_symm cfg X _)
    (fun dL' hs' => by
      obtain ⟨_, g', _, _, h⟩ := C79_base_partial cfg X hs' C b p q t hq hb hr
      exact ⟨g', h⟩) i j
  choose D hD using he
  have hK : HasDerivAt (fun t => kerK cfg X (C.fill (.base b (q.put p t)))) D t := hasDerivAt_pi.2 fun i => hasDerivAt_pi.2 fun j => hD i j
  have e : g = L' D := by
    rw [hd]
    exact h3.unique (hasDerivAt_msum (K := fun t => kerK cfg X (C.fill (.base b (q.put p t)))) hD)
  rw [e]
  rw [← put_get p q t hq] at hL
  exact hL.comp_hasDerivAt t hK

/-- C79, for the own parameters of a change kernel anywhere in a kernel: what is written is the derivative of the second branch's share of the loss
alone, so it is the derivative of the loss exactly where the first branch's share does not change (see `C56_wrong`, where it does). -/
theorem C79_change_iff (cfg : Cfg) {n : ℕ} (X : Fin n → ℝ) {dL : Fin n → Fin n → ℝ} (hs : SymmArr dL) (C : Place) (c : CC) (p : PD ℝ) (l r : GK ℝ) (q : Par) (t : ℝ)
    (hq : q.get p = some t) (hc : q ∈ [Par.location, .slope, .width]) (hw : q = .width → c = .CW) (hp : (∀ s ∈ p.slope, 0 < s) ∧ ∀ w ∈ p.width, 0 < w) :
    ∃ gs g l' r', C.get (kerGrad cfg X dL (C.fill (.change c p l r))) = some (.change c gs l' r') ∧ q.get gs = some g ∧
      (HasDerivAt (fun t => lossOf dL (kerK cfg X (C.fill (.change c (q.put p t) l r)))) g t ↔
        HasDerivAt (fun t => lossOf dL (fun i j => C.weight cfg X i j * kerK cfg X l i j *
          (changePhi c (q.put p t) true (X i) * changePhi c (q.put p t) true (X j)))) 0 t) := by
  have hs2 : SymmArr ((C.hand cfg X dL).mul (kerK cfg X r)) := fun i j => by
    simp only [Arr.mul, hand_symm cfg X C hs i j, kerK_symm cfg X r i j]
  obtain ⟨g, h1, h2⟩ := changeGrad_ok X hs2 cfg c p q t hq hc hw hp
  refine ⟨_, g, _, _, by rw [kerGrad_fill, kerGrad], h1, ?_⟩
  have e : ∀ t, lossOf dL (kerK cfg X (C.fill (.change c (q.put p t) l r))) =
      lossOf dL (fun i j => C.weight cfg X i j * kerK cfg X l i j * (changePhi c (q.put p t) true (X i) * changePhi c (q.put p t) true (X j))) +
        msum ((C.hand cfg X dL).mul (kerK cfg X r)) (changeSig X c (q.put p t) false) + msum dL (C.rest cfg X) := by
    intro t
    simp only [lossOf, msum, kerK_fill, kerK, ← Finset.sum_add_distrib, Arr.mul, Arr.add, Place.hand, changeSig, matK, basisK]
    exact Finset.sum_congr rfl fun i _ => Finset.sum_congr rfl fun j _ => by ring
  constructor
  · intro h
    have := (h.sub h2).sub_const (msum dL (C.rest cfg X))
    rw [sub_self] at this
    refine this.congr_of_eventuallyEq (Filter.Eventually.of_forall fun t => ?_)
    simp only [Pi.sub_apply, e]
    ring
  · intro h
    have := (h.add h2).add_const (msum dL (C.rest cfg X))
    rw [zero_add] at this
    exact this.congr_of_eventuallyEq (Filter.Eventually.of_forall fun t => e t)

mutual
/-- Every periodic kernel in it has a positive lengthscale. -/
def PosLength : GK ℝ → Prop
  | .base b p => b = .PER → ∀ l ∈ p.lengthscale, 0 < l
  | .comb _ parts => PosLengthL parts
  | .change _ _ l r => PosLength l ∧ PosLength r
/-- Over a list. -/
def PosLengthL : List (GK ℝ) → Prop
  | [] => True
  | k :: ks => PosLength k ∧ PosLengthL ks
end

mutual
/-- C79. `Kdiag(X)` is the diagonal of `K(X)`, for every kernel. -/
theorem C79_diagonal (cfg : Cfg) {n : ℕ} (X : Fin n → ℝ) : ∀ k : GK ℝ, PosLength k → ∀ i, kerDiag cfg X k i = kerK cfg X k i i
  | .base b p, h, i => by
    cases b <;> simp only [kerDiag, kerK, baseKdiag, baseK]
    case WN => simp
    case C => rfl
    case LIN =>
      split_ifs
      · exact C51_diagonal _ _ X i
      · simp only [linearKdiag, matK, linear]; ring
    case SE => simp [matK, rbf]
    case PER =>
      refine (C53_diagonal _ _ ?_ X i).symm
      cases hp : p.lengthscale with
      | none => norm_num
      | some l => exact h rfl l (by simp [hp])
    all_goals simp only [matK, basisK]; ring
  | .comb .sum parts, h, i => by rw [kerDiag, kerK]; exact diagSum_ok cfg X parts h i
  | .comb .prod parts, h, i => by rw [kerDiag, kerK]; exact diagProd_ok cfg X parts h i
  | .change c p l r, h, i => by
    simp only [kerDiag, kerK, changeKdiag, Arr.add, Arr.mul, changeSig, matK, basisK, C79_diagonal cfg X l h.1 i, C79_diagonal cfg X r h.2 i]
    ring
private theorem diagSum_ok (cfg : Cfg) {n : ℕ} (X : Fin n → ℝ) : ∀ ks : List (GK ℝ), PosLengthL ks → ∀ i, diagSum cfg X ks i = kerSum cfg X ks i i
  | [], _, _ => by simp only [diagSum, kerSum]
  | k :: ks, h, i => by simp only [diagSum, kerSum, Arr.add, C79_diagonal cfg X k h.1 i, diagSum_ok cfg X ks h.2 i]
private theorem diagProd_ok (cfg : Cfg) {n : ℕ} (X : Fin n → ℝ) : ∀ ks : List (GK ℝ), PosLengthL ks → ∀ i, diagProd cfg X ks i = kerProd cfg X ks i i
  | [], _, _ => by simp only [diagProd, kerProd]
  | k :: ks, h, i => by simp only [diagProd, kerProd, Arr.mul, C79_diagonal cfg X k h.1 i, diagProd_ok cfg X ks h.2 i]
end

/-! ## Positive semidefinite matrices -/

mutual
/-- Variances are not negative, and periodic kernels have lengthscales where the formula is exact. -/
def Exact : GK ℝ → Prop
  | .base b p => (∀ v ∈ p.variance, 0 ≤ v) ∧ (b = .PER → ∀ l ∈ p.lengthscale, 0 < l ∧ (l > 10000 ∨ 1 / l ^ 2 < 3.75))
  | .comb _ parts => ExactL parts
  | .change _ _ l r => Exact l ∧ Exact r
/-- Over a list. -/
def ExactL : List (GK ℝ) → Prop
  | [] => True
  | k :: ks => Exact k ∧ ExactL ks
end

theorem psd_of {k : Cov} (h : IsCov k) {n : ℕ} (X : Fin n → ℝ) : (Matrix.of (matK k X X)).PosSemidef := by
  refine Matrix.PosSemidef.of_dotProduct_mulVec_nonneg ?_ fun c => ?_
  · ext i j
    simpa [matK] using h.1 (X j) (X i)
  · have := h.2 n X c
    simp only [dotProduct, Matrix.mulVec, Matrix.of_apply, star_trivial, matK, Finset.mul_sum]
    refine this.trans (le_of_eq (Finset.sum_congr rfl fun i _ => Finset.sum_congr rfl fun j _ => by ring))

theorem psd_base (cfg : Cfg) {n : ℕ} (X : Fin n → ℝ) (b : Base) (p : PD ℝ) (h : Exact (.base b p)) : (Matrix.of (baseK cfg X b p)).PosSemidef := by
  have hv : 0 ≤ varOf p := by
    rw [varOf]
    cases hp : p.variance with
    | none => norm_num
    | some v => exact h.1 v (by simp [hp])
  cases b <;> simp only [baseK]
  case WN =>
    have : Matrix.of (fun i j : Fin n => if i = j then varOf p else 0) = Matrix.diagonal (fun _ => varOf p) := by
      ext i j; simp [Matrix.diagonal_apply]
    rw [this]
    exact Matrix.PosSemidef.diagonal (fun _ => hv)
  case C => exact psd_of (isCov_bias hv) X
  case LIN =>
    split_ifs
    · exact psd_of (isCov_linearOffset hv _) X
    · have := isCov_linearOffset hv 0
      have e : linearOffset (varOf p) 0 = linear (varOf p) := by funext x y; simp [linearOffset, linear]
      rw [e] at this
      exact psd_of this X
  case SE => exact psd_of (isCov_rbf hv _) X
  case PER =>
    cases hp : p.lengthscale with
    | none => exact psd_of (isCov_per hv (by norm_num) (by norm_num)) X
    | some l =>
      obtain ⟨h1, h2⟩ := h.2 rfl l (by simp [hp])
      exact psd_of (isCov_per hv h1 h2) X
  all_goals exact psd_of (isCov_basisK hv _) X

mutual
/-- C79. The covariance matrix of every kernel, at all points (repeated ones too), is positive semidefinite; with Gaussian noise it is positive definite
(`C79_regression_partial`). -/
theorem C79_positive_partial (cfg : Cfg) {n : ℕ} (X : Fin n → ℝ) : ∀ k : GK ℝ, Exact k → (Matrix.of (kerK cfg X k)).PosSemidef
  | .base b p, h => by rw [kerK]; exact psd_base cfg X b p h
  | .comb .sum parts, h => by rw [kerK]; exact psd_sum cfg X parts h
  | .comb .prod parts, h => by rw [kerK]; exact psd_prod cfg X parts h
  | .change c p l r, h => by
    rw [kerK]
    exact (Matrix.PosSemidef.hadamard (C79_positive_partial cfg X l h.1) (psd_of (isCov_basisK zero_le_one _) X)).add
      (Matrix.PosSemidef.hadamard (C79_positive_partial cfg X r h.2) (psd_of (isCov_basisK zero_le_one _) X))
private theorem psd_sum (cfg : Cfg) {n : ℕ} (X : Fin n → ℝ) : ∀ ks : List (GK ℝ), ExactL ks → (Matrix.of (kerSum cfg X ks)).PosSemidef
  | [], _ => by rw [kerSum]; exact Matrix.PosSemidef.zero
  | k :: ks, h => by rw [kerSum]; exact (C79_positive_partial cfg X k h.1).add (psd_sum cfg X ks h.2)
private theorem psd_prod (cfg : Cfg) {n : ℕ} (X : Fin n → ℝ) : ∀ ks : List (GK ℝ), ExactL ks → (Matrix.of (kerProd cfg X ks)).PosSemidef
  | [], _ => by rw [kerProd]; exact psd_of (isCov_bias zero_le_one) X
  | k :: ks, h => by rw [kerProd]; exact Matrix.PosSemidef.hadamard (C79_positive_partial cfg X k h.1) (psd_prod cfg X ks h.2)
end

/-- C79. Regression with noise never meets a singular matrix. -/
theorem C79_regression_partial (cfg : Cfg) {n : ℕ} (X : Fin n → ℝ) (k : GK ℝ) (h : Exact k) {noise : ℝ} (hn : 0 < noise) :
    (Matrix.of (kerK cfg X k) + noise • (1 : Matrix (Fin n) (Fin n) ℝ)).PosDef ∧
      IsUnit (Matrix.of (kerK cfg X k) + noise • (1 : Matrix (Fin n) (Fin n) ℝ)) := by
  have := Matrix.PosDef.posSemidef_add (C79_positive_partial cfg X k h) (Matrix.PosDef.one.smul hn)
  exact ⟨this, this.isUnit⟩

/-- C79: the gradients line up with the parameters. One gradient is kept for every parameter the model shows, under the same name and in the same order,
and none for what the optimiser cannot change, such as the variances that products take away from all base kernels but one. -/
theorem C79_lined_up (cfg : Cfg) {n : ℕ} (X : Fin n → ℝ) (dL : Fin n → Fin n → ℝ) (g : GK ℝ) :
    (paramList cfg (kerGrad cfg X dL g)).map Prod.fst = (paramList cfg g).map Prod.fst := by
  have h := under_names (regression ++ gname cfg g) (flat_kerGrad cfg X dL g)
  simpa [paramList, gname_kerGrad, under, List.map_map, Function.comp_def] using h

-- `PER * LIN`: four parameters, as only one variance is left
example : (paramList .default (.comb .prod [.base .PER { variance := some (2 : ℝ), period := some 3, lengthscale := some 1 },
    .base .LIN { offset := some 4 }])).map (fun e => String.ofList e.1) =
    ["GP_regression.mul.pure_std_periodic.variance", "GP_regression.mul.pure_std_periodic.period", "GP_regression.mul.pure_std_periodic.lengthscale",
      "GP_regression.mul.linear_with_offset.offset"] := by rfl

/-! ## An example: the period in `LIN + WN * CW(C, PER * LIN)` -/

private def exPer : PD ℝ := { variance := some 2, period := some 3, lengthscale := some 1 }

private def exPlace : Place :=
  .part .sum [.base .LIN { variance := some 1, offset := some 5 }]
    (.part .prod [.base .WN { variance := some 3 }]
      (.second .CW { location := some 1, width := some 2 } (.base .C { variance := some 7 })
        (.part .prod [] .here [.base .LIN { offset := some 4 }])) []) []

example : Par.period.get exPer = some 3 ∧ Par.period ∈ parsOf .default .PER ∧ Regular .PER exPer .period ∧ Regular .PER exPer .lengthscale ∧
    PosLength (exPlace.fill (.base .PER exPer)) ∧ Exact (exPlace.fill (.base .PER exPer)) ∧ SymmArr (fun _ _ : Fin 3 => (1 : ℝ)) := by
  refine ⟨rfl, by decide, ?_, ⟨fun h => (by cases h), fun _ => ?_⟩, ?_, ?_, fun _ _ => rfl⟩
  · simp [Regular, exPer]
  · norm_num [exPer]
  · simp [exPlace, Place.fill, PosLength, PosLengthL, exPer]
  · norm_num [exPlace, Place.fill, Exact, ExactL, exPer]
    simp

-- the location of the window
example : Par.location.get { location := some 1, width := some (2 : ℝ) } = some 1 ∧
    ((∀ s ∈ ({ location := some 1, width := some 2 } : PD ℝ).slope, (0 : ℝ) < s) ∧ ∀ w ∈ ({ location := some 1, width := some 2 } : PD ℝ).width, (0 : ℝ) < w) :=
  ⟨rfl, by simp, by simp⟩

end GPyABCD
