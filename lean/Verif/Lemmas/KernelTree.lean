import Verif.Spec.KernelTree
import Verif.Lemmas.Gradients
import Verif.Props.Numeric
import Verif.Props.Periodic

/-! # Gradients through whole kernels -/

namespace GPyABCD
namespace Kern
open Params Sops Finset

theorem kerSum_append (cfg : Cfg) {n : ℕ} (X : Fin n → ℝ) (xs ys : List (GK ℝ)) (i j : Fin n) :
    kerSum cfg X (xs ++ ys) i j = kerSum cfg X xs i j + kerSum cfg X ys i j := by
  induction xs with
  | nil => simp [kerSum]
  | cons x xs ih => simp only [List.cons_append, kerSum, Arr.add, ih]; ring

theorem kerProd_eq (cfg : Cfg) {n : ℕ} (X : Fin n → ℝ) (xs : List (GK ℝ)) (i j : Fin n) :
    kerProd cfg X xs i j = (xs.map (fun k => kerK cfg X k i j)).prod := by
  induction xs with
  | nil => simp [kerProd]
  | cons x xs ih => simp only [kerProd, Arr.mul, ih, List.map_cons, List.prod_cons]

/-- The entries outside. -/
noncomputable def Place.rest (cfg : Cfg) {n : ℕ} (X : Fin n → ℝ) : Place → Fin n → Fin n → ℝ
  | .here => fun _ _ => 0
  | .part .sum xs C ys => fun i j => kerSum cfg X xs i j + kerSum cfg X ys i j + C.rest cfg X i j
  | .part .prod xs C ys => fun i j => ((xs ++ ys).map (fun k => kerK cfg X k i j)).prod * C.rest cfg X i j
  | .first c p C r => fun i j => changePhi c p true (X i) * changePhi c p true (X j) * C.rest cfg X i j + kerK cfg X r i j * changeSig X c p false i j
  | .second c p l C => fun i j => changePhi c p false (X i) * changePhi c p false (X j) * C.rest cfg X i j + kerK cfg X l i j * changeSig X c p true i j

theorem kerK_fill (cfg : Cfg) {n : ℕ} (X : Fin n → ℝ) (C : Place) (k : GK ℝ) (i j : Fin n) :
    kerK cfg X (C.fill k) i j = C.weight cfg X i j * kerK cfg X k i j + C.rest cfg X i j := by
  induction C with
  | here => simp [Place.fill, Place.weight, Place.rest]
  | part op xs C ys ih =>
    cases op
    · simp only [Place.fill, kerK, kerSum_append, kerSum, Arr.add, ih, Place.weight, Place.rest]; ring
    · simp only [Place.fill, kerK, kerProd_eq, List.map_append, List.map_cons, List.prod_append, List.prod_cons, ih, Place.weight, Place.rest]; ring
  | first c p C r ih => simp only [Place.fill, kerK, Arr.add, Arr.mul, ih, Place.weight, Place.rest, changeSig, matK, basisK]; ring
  | second c p l C ih => simp only [Place.fill, kerK, Arr.add, Arr.mul, ih, Place.weight, Place.rest, changeSig, matK, basisK]; ring

/-! ## What is handed down -/

/-- `dL_dK` as it arrives in a place. -/
noncomputable def Place.hand (cfg : Cfg) {n : ℕ} (X : Fin n → ℝ) (C : Place) (dL : Arr n) : Arr n := dL.mul (C.weight cfg X)

theorem gradSum_get (cfg : Cfg) {n : ℕ} (X : Fin n → ℝ) (dL : Arr n) (xs : List (GK ℝ)) (k : GK ℝ) (ys : List (GK ℝ)) :
    (gradSum cfg X dL (xs ++ k :: ys))[xs.length]? = some (kerGrad cfg X dL k) := by
  induction xs with
  | nil => simp [gradSum]
  | cons x xs ih => simpa [gradSum] using ih

theorem gradProd_get (cfg : Cfg) {n : ℕ} (X : Fin n → ℝ) (dL : Arr n) (xs : List (GK ℝ)) (k : GK ℝ) (ys : List (GK ℝ)) :
    (gradProd cfg X dL (xs ++ k :: ys))[xs.length]? =
      some (kerGrad cfg X (dL.mul (fun i j => ((xs ++ ys).map (fun k => kerK cfg X k i j)).prod)) k) := by
  induction xs generalizing dL with
  | nil =>
    simp only [List.nil_append, gradProd, List.length_nil, List.getElem?_cons_zero]
    congr 3; funext i j; rw [kerProd_eq]
  | cons x xs ih =>
    simp only [List.cons_append, gradProd, List.length_cons, List.getElem?_cons_succ, ih]
    congr 2; funext i j; simp only [Arr.mul, List.map_cons, List.prod_cons]; ring

theorem kerGrad_fill (cfg : Cfg) {n : ℕ} (X : Fin n → ℝ) (C : Place) (k : GK ℝ) (dL : Arr n) :
    C.get (kerGrad cfg X dL (C.fill k)) = some (kerGrad cfg X (C.hand cfg X dL) k) := by
  induction C generalizing dL with
  | here => simp only [Place.fill, Place.get, Place.hand, Place.weight]; congr 2; funext i j; simp [Arr.mul]
  | part op xs C ys ih =>
    cases op
    · simp only [Place.fill, kerGrad, Place.get, gradSum_get, Option.bind_some, ih]; rfl
    · simp only [Place.fill, kerGrad, Place.get, gradProd_get, Option.bind_some, ih]
      congr 2; funext i j; simp only [Place.hand, Arr.mul, Place.weight]; ring
  | first c p C r ih =>
    simp only [Place.fill, kerGrad, Place.get, ih]
    congr 2; funext i j; simp only [Place.hand, Arr.mul, Place.weight, changeSig, matK, basisK]; ring
  | second c p l C ih =>
    simp only [Place.fill, kerGrad, Place.get, ih]
    congr 2; funext i j; simp only [Place.hand, Arr.mul, Place.weight, changeSig, matK, basisK]; ring

/-! ## Symmetry -/

theorem baseK_symm (cfg : Cfg) {n : ℕ} (X : Fin n → ℝ) (b : Base) (p : PD ℝ) : SymmArr (baseK cfg X b p) := by
  intro i j
  cases b <;> simp only [baseK, matK]
  case WN => simp only [eq_comm]
  case C => rfl
  case LIN => split_ifs <;> simp only [matK, linear, linearOffset] <;> ring
  case SE => simp only [rbf]; congr 4; ring
  case PER => exact C53_symmetric _ _ _ _ _
  all_goals simp only [basisK]; ring

mutual
theorem kerK_symm (cfg : Cfg) {n : ℕ} (X : Fin n → ℝ) : ∀ k, SymmArr (kerK cfg X k)
  | .base b p => by rw [kerK]; exact baseK_symm cfg X b p
  | .comb .sum parts => by rw [kerK]; exact kerSum_symm cfg X parts
  | .comb .prod parts => by rw [kerK]; exact kerProd_symm cfg X parts
  | .change c p l r => by
    intro i j
    simp only [kerK, Arr.add, Arr.mul, kerK_symm cfg X l i j, kerK_symm cfg X r i j, changeSig, matK, basisK]
    ring
theorem kerSum_symm (cfg : Cfg) {n : ℕ} (X : Fin n → ℝ) : ∀ ks, SymmArr (kerSum cfg X ks)
  | [] => fun _ _ => by simp only [kerSum]
  | k :: ks => fun i j => by simp only [kerSum, Arr.add, kerK_symm cfg X k i j, kerSum_symm cfg X ks i j]
theorem kerProd_symm (cfg : Cfg) {n : ℕ} (X : Fin n → ℝ) : ∀ ks, SymmArr (kerProd cfg X ks)
  | [] => fun _ _ => by simp only [kerProd]
  | k :: ks => fun i j => by simp only [kerProd, Arr.mul, kerK_symm cfg X k i j, kerProd_symm cfg X ks i j]
end

theorem weight_symm (cfg : Cfg) {n : ℕ} (X : Fin n → ℝ) (C : Place) : SymmArr (C.weight cfg X) := by
  induction C with
  | here => intro i j; rfl
  | part op xs C ys ih =>
    cases op
    · exact ih
    · intro i j
      simp only [Place.weight, ih i j]
      congr 3
      funext k
      exact kerK_symm cfg X k i j
  | first c p C r ih => intro i j; simp only [Place.weight, ih i j]; ring
  | second c p l C ih => intro i j; simp only [Place.weight, ih i j]; ring

theorem hand_symm (cfg : Cfg) {n : ℕ} (X : Fin n → ℝ) (C : Place) {dL : Arr n} (hs : SymmArr dL) : SymmArr (C.hand cfg X dL) := by
  intro i j
  simp only [Place.hand, Arr.mul, hs i j, weight_symm cfg X C i j]

theorem msum_fill (cfg : Cfg) {n : ℕ} (X : Fin n → ℝ) (C : Place) (dL : Arr n) (k : GK ℝ) :
    msum dL (kerK cfg X (C.fill k)) = msum (C.hand cfg X dL) (kerK cfg X k) + msum dL (C.rest cfg X) := by
  simp only [msum, kerK_fill, Place.hand, Arr.mul, ← sum_add_distrib]
  exact sum_congr rfl fun i _ => sum_congr rfl fun j _ => by ring

/-! ## Base kernels -/

theorem put_get {α : Type} (p : PD α) (q : Par) (t : α) (h : q.get p = some t) : q.put p t = p := by
  cases q <;> simp only [Par.get] at h <;> simp only [Par.put, ← h]

theorem hasDerivAt_msum {n : ℕ} {dL : Arr n} {K : ℝ → Arr n} {t : ℝ} {K' : Arr n} (h : ∀ i j, HasDerivAt (fun t => K t i j) (K' i j) t) :
    HasDerivAt (fun t => msum dL (K t)) (msum dL K') t := by
  unfold msum
  exact HasDerivAt.fun_sum fun i _ => HasDerivAt.fun_sum fun j _ => (h i j).const_mul _

theorem hasDerivAt_rbf_length {v l : ℝ} (hl : 0 < l) (x y : ℝ) :
    HasDerivAt (fun l => rbf v l x y) (rbf v l x y * ((x - y) / l) ^ 2 / l) l := by
  have h1 := hasDerivAt_arg_slope hl.ne' (x - y)
  have h2 : HasDerivAt (fun l => -((x - y) / l) ^ 2 / 2) (-(2 * ((x - y) / l) * (-((x - y) / l) / l)) / 2) l := by
    have := ((h1.pow 2).neg).div_const 2
    refine (this.congr_deriv ?_)
    norm_num
  refine ((h2.exp).const_mul v).congr_deriv ?_
  simp only [rbf]
  ring

/-- `linLoss` is `msum` of the matrix. -/
theorem linLoss_eq {n : ℕ} (dL : Arr n) (k : Cov) (X : Fin n → ℝ) : linLoss dL k X X = msum dL (matK k X X) := rfl

theorem msum_const_var {n : ℕ} (dL A : Arr n) (t : ℝ) : HasDerivAt (fun t => msum dL (fun i j => t * A i j)) (msum dL A) t := by
  refine hasDerivAt_msum (K := fun t i j => t * A i j) fun i j => ?_
  simpa using (hasDerivAt_id t).mul_const (A i j)

theorem baseGrad_ok (cfg : Cfg) {n : ℕ} (X : Fin n → ℝ) {dL : Arr n} (hs : SymmArr dL) (b : Base) (p : PD ℝ) (q : Par) (t : ℝ)
    (hq : q.get p = some t) (hb : q ∈ parsOf cfg b) (hr : Regular b p q) :
    ∃ g, q.get (baseGrad cfg X dL b p) = some g ∧ HasDerivAt (fun t => msum dL (baseK cfg X b (q.put p t))) g t := by
  cases b
  case WN =>
    simp only [parsOf, basePars, List.mem_singleton] at hb
    subst hb
    simp only [Par.get] at hq
    refine ⟨∑ i, dL i i, by simp [Par.get, baseGrad, baseGrad', onLinked, hq], ?_⟩
    have := msum_const_var dL (fun i j => if i = j then 1 else 0) t
    have e : msum dL (fun i j => if i = j then 1 else 0) = ∑ i, dL i i := by simp [msum]
    rw [e] at this
    refine this.congr_of_eventuallyEq (Filter.Eventually.of_forall fun t => ?_)
    simp only [baseK, varOf, Par.put, Option.getD_some]
    congr 1; funext i j; split_ifs <;> simp
  case C =>
    simp only [parsOf, basePars, List.mem_singleton] at hb
    subst hb
    simp only [Par.get] at hq
    refine ⟨∑ i, ∑ j, dL i j, by simp [Par.get, baseGrad, baseGrad', onLinked, hq], ?_⟩
    have := msum_const_var dL (fun _ _ => 1) t
    have e : msum dL (fun _ _ => 1) = ∑ i, ∑ j, dL i j := by simp [msum]
    rw [e] at this
    refine this.congr_of_eventuallyEq (Filter.Eventually.of_forall fun t => ?_)
    simp only [baseK, varOf, Par.put, Option.getD_some, mul_one]
    rfl
  case LIN =>
    by_cases hc : cfg.linOffset = true
    · simp only [parsOf, basePars, hc, if_true, List.mem_cons, List.not_mem_nil, or_false] at hb
      rcases hb with rfl | rfl
      · simp only [Par.get] at hq
        refine ⟨_, by simp only [Par.get, baseGrad, baseGrad', onLinked, hq, hc, if_true, Option.bind_some]; rfl, ?_⟩
        simpa only [baseK, varOf, Par.put, Option.getD_some, hc, if_true, linLoss_eq] using C51_variance t (p.offset.getD 0) dL X X
      · simp only [Par.get] at hq
        refine ⟨_, by simp only [Par.get, baseGrad, baseGrad', onLinked, hq, hc, if_true, Option.bind_some, Option.getD_some]; rfl, ?_⟩
        simpa only [baseK, varOf, Par.put, Option.getD_some, hc, if_true, linLoss_eq, hq] using C51_offset_partial (varOf p) t hs X X
    · simp only [parsOf, basePars, hc, List.mem_singleton, if_false, Bool.false_eq_true] at hb
      subst hb
      simp only [Par.get] at hq
      refine ⟨_, by simp only [Par.get, baseGrad, baseGrad', onLinked, hq, hc, Option.bind_some]; rfl, ?_⟩
      simpa only [baseK, varOf, Par.put, Option.getD_some, hc, linLoss_eq, Bool.false_eq_true, if_false] using (C51_linear t dL dL X X).1
  case SE =>
    simp only [parsOf, basePars, List.mem_cons, List.not_mem_nil, or_false] at hb
    rcases hb with rfl | rfl
    · simp only [Par.get] at hq
      refine ⟨_, by simp only [Par.get, baseGrad, baseGrad', onLinked, hq, Option.bind_some]; rfl, ?_⟩
      refine (msum_const_var dL (matK (rbf 1 (p.lengthscale.getD 1)) X X) t).congr_of_eventuallyEq (Filter.Eventually.of_forall fun t => ?_)
      simp only [baseK, varOf, Par.put, Option.getD_some, matK, rbf, one_mul]
      rfl
    · simp only [Par.get] at hq
      have hl : 0 < t := hr.1 rfl t (by simp [hq])
      refine ⟨_, by simp only [Par.get, baseGrad, baseGrad', onLinked, hq, Option.bind_some]; rfl, ?_⟩
      simp only [baseK, varOf, Par.put, Option.getD_some]
      exact hasDerivAt_msum (K := fun l => matK (rbf (varOf p) l) X X) fun i j => hasDerivAt_rbf_length hl (X i) (X j)
  case PER =>
    simp only [parsOf, basePars, List.mem_cons, List.not_mem_nil, or_false] at hb
    rcases hb with rfl | rfl | rfl
    · simp only [Par.get] at hq
      refine ⟨_, by simp only [Par.get, baseGrad, baseGrad', onLinked, hq, Option.bind_some]; rfl, ?_⟩
      simpa only [baseK, varOf, Par.put, Option.getD_some, linLoss_eq, hq] using C53_variance_gradient t (p.period.getD 1) (p.lengthscale.getD 1) dL X X
    · simp only [Par.get] at hq
      have hl : 0 < t := hr t (by simp [hq])
      refine ⟨_, by simp only [Par.get, baseGrad, baseGrad', onLinked, hq, Option.bind_some]; rfl, ?_⟩
      simpa only [baseK, varOf, Par.put, Option.getD_some, linLoss_eq, hq] using C53_period_gradient (varOf p) hl.ne' (p.lengthscale.getD 1) dL X X
    · simp only [Par.get] at hq
      obtain ⟨h1, h2, h3⟩ := hr.2 rfl t (by simp [hq])
      refine ⟨_, by simp only [Par.get, baseGrad, baseGrad', onLinked, hq, Option.bind_some]; rfl, ?_⟩
      simpa only [baseK, varOf, Par.put, Option.getD_some, linLoss_eq, hq] using C53_lengthscale_gradient (varOf p) (p.period.getD 1) h1 h2 h3 dL X X
  case S =>
    simp only [parsOf, List.mem_cons, List.not_mem_nil, or_false] at hb
    rcases hb with rfl | rfl | rfl
    · simp only [Par.get] at hq
      refine ⟨_, by simp only [Par.get, baseGrad, baseGrad', onLinked, hq, Option.bind_some]; rfl, ?_⟩
      refine (msum_const_var dL (matK (basisK 1 (sigPhi .S p)) X X) t).congr_of_eventuallyEq (Filter.Eventually.of_forall fun t => ?_)
      simp only [baseK, varOf, Par.put, Option.getD_some, sigPhi]
      congr 1; funext i j; simp only [matK, basisK]; ring
    · simp only [Par.get] at hq
      refine ⟨_, by simp only [Par.get, baseGrad, baseGrad', onLinked, hq, Option.bind_some]; rfl, ?_⟩
      simpa only [baseK, varOf, Par.put, Option.getD_some, linLoss_eq, hq, sigPhi, reversed, Option.getD_none] using
        C52_location (varOf p) t (p.slope.getD 0.2) false p.slope.isNone hs X none
    · simp only [Par.get] at hq
      have h0 : 0 < t := hr.1 t (by simp [hq])
      obtain ⟨g, h1, h2⟩ := C52_slope (varOf p) (p.location.getD 0) h0.ne' false hs X none
      refine ⟨g, ?_, ?_⟩
      · simp only [Par.get, baseGrad, baseGrad', onLinked, hq, Option.bind_some, Option.getD_some, Option.isNone_some, reversed]
        exact h1
      · simpa only [baseK, varOf, Par.put, Option.getD_some, linLoss_eq, hq, sigPhi, reversed, Option.getD_none] using h2
  case Sr =>
    simp only [parsOf, List.mem_cons, List.not_mem_nil, or_false] at hb
    rcases hb with rfl | rfl | rfl
    · simp only [Par.get] at hq
      refine ⟨_, by simp only [Par.get, baseGrad, baseGrad', onLinked, hq, Option.bind_some]; rfl, ?_⟩
      refine (msum_const_var dL (matK (basisK 1 (sigPhi .Sr p)) X X) t).congr_of_eventuallyEq (Filter.Eventually.of_forall fun t => ?_)
      simp only [baseK, varOf, Par.put, Option.getD_some, sigPhi]
      congr 1; funext i j; simp only [matK, basisK]; ring
    · simp only [Par.get] at hq
      refine ⟨_, by simp only [Par.get, baseGrad, baseGrad', onLinked, hq, Option.bind_some]; rfl, ?_⟩
      simpa only [baseK, varOf, Par.put, Option.getD_some, linLoss_eq, hq, sigPhi, reversed, Option.getD_none] using
        C52_location (varOf p) t (p.slope.getD 0.2) true p.slope.isNone hs X none
    · simp only [Par.get] at hq
      have h0 : 0 < t := hr.1 t (by simp [hq])
      obtain ⟨g, h1, h2⟩ := C52_slope (varOf p) (p.location.getD 0) h0.ne' true hs X none
      refine ⟨g, ?_, ?_⟩
      · simp only [Par.get, baseGrad, baseGrad', onLinked, hq, Option.bind_some, Option.getD_some, Option.isNone_some, reversed]
        exact h1
      · simpa only [baseK, varOf, Par.put, Option.getD_some, linLoss_eq, hq, sigPhi, reversed, Option.getD_none] using h2
  case SI =>
    simp only [parsOf, List.mem_cons, List.not_mem_nil, or_false] at hb
    have hw : (∀ w ∈ p.width, 0 < w) → 0 < p.width.getD 1 := by
      intro h
      cases hp : p.width with
      | none => norm_num
      | some w => exact h w (by simp [hp])
    have hsl : (∀ w ∈ p.slope, 0 < w) → 0 < p.slope.getD 0.2 := by
      intro h
      cases hp : p.slope with
      | none => norm_num
      | some w => exact h w (by simp [hp])
    rcases hb with rfl | rfl | rfl | rfl
    · simp only [Par.get] at hq
      refine ⟨_, by simp only [Par.get, baseGrad, baseGrad', onLinked, hq, Option.bind_some]; rfl, ?_⟩
      refine (msum_const_var dL (matK (basisK 1 (sigPhi .SI p)) X X) t).congr_of_eventuallyEq (Filter.Eventually.of_forall fun t => ?_)
      simp only [baseK, varOf, Par.put, Option.getD_some, sigPhi]
      congr 1; funext i j; simp only [matK, basisK]; ring
    · simp only [Par.get] at hq
      refine ⟨_, by simp only [Par.get, baseGrad, baseGrad', onLinked, hq, Option.bind_some]; rfl, ?_⟩
      simpa only [baseK, varOf, Par.put, Option.getD_some, linLoss_eq, hq, sigPhi, reversed, Option.getD_none] using
        C52_window_location (varOf p) t (p.slope.getD 0.2) (p.width.getD 1) false p.slope.isNone hs X none
    · simp only [Par.get] at hq
      have h0 : 0 < t := hr.1 t (by simp [hq])
      obtain ⟨g, h1, h2⟩ := C52_window_slope (varOf p) (p.location.getD 0) h0 (hw hr.2) false hs X none
      refine ⟨g, ?_, ?_⟩
      · simp only [Par.get, baseGrad, baseGrad', onLinked, hq, Option.bind_some, Option.getD_some, Option.isNone_some, reversed]
        exact h1
      · simpa only [baseK, varOf, Par.put, Option.getD_some, linLoss_eq, hq, sigPhi, reversed, Option.getD_none] using h2
    · simp only [Par.get] at hq
      have h0 : 0 < t := hr.2 t (by simp [hq])
      refine ⟨_, by simp only [Par.get, baseGrad, baseGrad', onLinked, hq, Option.bind_some]; rfl, ?_⟩
      simpa only [baseK, varOf, Par.put, Option.getD_some, linLoss_eq, hq, sigPhi, reversed, Option.getD_none] using
        C52_window_width (varOf p) (p.location.getD 0) (hsl hr.1) h0 false p.slope.isNone hs X none
  case SIr =>
    simp only [parsOf, List.mem_cons, List.not_mem_nil, or_false] at hb
    have hw : (∀ w ∈ p.width, 0 < w) → 0 < p.width.getD 1 := by
      intro h
      cases hp : p.width with
      | none => norm_num
      | some w => exact h w (by simp [hp])
    have hsl : (∀ w ∈ p.slope, 0 < w) → 0 < p.slope.getD 0.2 := by
      intro h
      cases hp : p.slope with
      | none => norm_num
      | some w => exact h w (by simp [hp])
    rcases hb with rfl | rfl | rfl | rfl
    · simp only [Par.get] at hq
      refine ⟨_, by simp only [Par.get, baseGrad, baseGrad', onLinked, hq, Option.bind_some]; rfl, ?_⟩
      refine (msum_const_var dL (matK (basisK 1 (sigPhi .SIr p)) X X) t).congr_of_eventuallyEq (Filter.Eventually.of_forall fun t => ?_)
      simp only [baseK, varOf, Par.put, Option.getD_some, sigPhi]
      congr 1; funext i j; simp only [matK, basisK]; ring
    · simp only [Par.get] at hq
      refine ⟨_, by simp only [Par.get, baseGrad, baseGrad', onLinked, hq, Option.bind_some]; rfl, ?_⟩
      simpa only [baseK, varOf, Par.put, Option.getD_some, linLoss_eq, hq, sigPhi, reversed, Option.getD_none] using
        C52_window_location (varOf p) t (p.slope.getD 0.2) (p.width.getD 1) true p.slope.isNone hs X none
    · simp only [Par.get] at hq
      have h0 : 0 < t := hr.1 t (by simp [hq])
      obtain ⟨g, h1, h2⟩ := C52_window_slope (varOf p) (p.location.getD 0) h0 (hw hr.2) true hs X none
      refine ⟨g, ?_, ?_⟩
      · simp only [Par.get, baseGrad, baseGrad', onLinked, hq, Option.bind_some, Option.getD_some, Option.isNone_some, reversed]
        exact h1
      · simpa only [baseK, varOf, Par.put, Option.getD_some, linLoss_eq, hq, sigPhi, reversed, Option.getD_none] using h2
    · simp only [Par.get] at hq
      have h0 : 0 < t := hr.2 t (by simp [hq])
      refine ⟨_, by simp only [Par.get, baseGrad, baseGrad', onLinked, hq, Option.bind_some]; rfl, ?_⟩
      simpa only [baseK, varOf, Par.put, Option.getD_some, linLoss_eq, hq, sigPhi, reversed, Option.getD_none] using
        C52_window_width (varOf p) (p.location.getD 0) (hsl hr.1) h0 true p.slope.isNone hs X none

/-! ## Change kernels -/

theorem changeGrad_ok {n : ℕ} (X : Fin n → ℝ) {dL2 : Arr n} (hs : SymmArr dL2) (cfg : Cfg) (c : CC) (p : PD ℝ) (q : Par) (t : ℝ) (hq : q.get p = some t)
    (hc : q ∈ [Par.location, .slope, .width]) (hw : q = .width → c = .CW) (hp : (∀ s ∈ p.slope, 0 < s) ∧ ∀ w ∈ p.width, 0 < w) :
    ∃ g, q.get (changeGrad X dL2 c p) = some g ∧ HasDerivAt (fun t => msum dL2 (changeSig X c (q.put p t) false)) g t := by
  have hwid : 0 < p.width.getD 1 := by
    cases h : p.width with
    | none => norm_num
    | some w => exact hp.2 w (by simp [h])
  have hslo : 0 < p.slope.getD 0.5 := by
    cases h : p.slope with
    | none => norm_num
    | some w => exact hp.1 w (by simp [h])
  simp only [List.mem_cons, List.not_mem_nil, or_false] at hc
  rcases hc with rfl | rfl | rfl
  · simp only [Par.get] at hq
    cases c
    · refine ⟨_, by simp only [Par.get, changeGrad, onLinked, hq, Option.bind_some, Option.getD_some]; rfl, ?_⟩
      simpa only [changeSig, changePhi, Par.put, Option.getD_some, linLoss_eq, Option.getD_none] using C52_location 1 t (p.slope.getD 0.5) false false hs X none
    · refine ⟨_, by simp only [Par.get, changeGrad, onLinked, hq, Option.bind_some, Option.getD_some]; rfl, ?_⟩
      simpa only [changeSig, changePhi, Par.put, Option.getD_some, linLoss_eq, Option.getD_none] using
        C52_window_location 1 t (p.slope.getD 0.5) (p.width.getD 1) false false hs X none
  · simp only [Par.get] at hq
    rw [hq, Option.getD_some] at hslo
    cases c
    · obtain ⟨g, h1, h2⟩ := C52_slope 1 (p.location.getD 0) hslo.ne' false hs X none
      refine ⟨g, ?_, ?_⟩
      · simp only [Par.get, changeGrad, onLinked, hq, Option.bind_some, Option.getD_some]
        exact h1
      · simpa only [changeSig, changePhi, Par.put, Option.getD_some, linLoss_eq, Option.getD_none] using h2
    · obtain ⟨g, h1, h2⟩ := C52_window_slope 1 (p.location.getD 0) hslo hwid false hs X none
      refine ⟨g, ?_, ?_⟩
      · simp only [Par.get, changeGrad, onLinked, hq, Option.bind_some, Option.getD_some]
        exact h1
      · simpa only [changeSig, changePhi, Par.put, Option.getD_some, linLoss_eq, Option.getD_none] using h2
  · simp only [Par.get] at hq
    rw [hq, Option.getD_some] at hwid
    obtain rfl := hw rfl
    refine ⟨_, by simp only [Par.get, changeGrad, onLinked, hq, Option.bind_some, Option.getD_some]; rfl, ?_⟩
    simpa only [changeSig, changePhi, Par.put, Option.getD_some, linLoss_eq, Option.getD_none] using
      C52_window_width 1 (p.location.getD 0) hslo hwid false false hs X none

/-- Entries of a symmetric family are differentiable where the symmetric losses are. -/
theorem entries_of {n : ℕ} {K : ℝ → Arr n} (hK : ∀ t, SymmArr (K t)) {t : ℝ} (h : ∀ dL : Arr n, SymmArr dL → ∃ g, HasDerivAt (fun t => msum dL (K t)) g t) (i j : Fin n) :
    ∃ d, HasDerivAt (fun t => K t i j) d t := by
  classical
  let dL : Arr n := fun a b => ((if a = i ∧ b = j then 1 else 0) + (if b = i ∧ a = j then 1 else 0)) / 2
  obtain ⟨g, hg⟩ := h dL (fun a b => by simp only [dL]; rw [add_comm])
  refine ⟨g, hg.congr_of_eventuallyEq (Filter.Eventually.of_forall fun t => ?_)⟩
  have e1 : msum dL (K t) = (msum (fun a b => if a = i ∧ b = j then 1 else 0) (K t) + msum (fun a b => if b = i ∧ a = j then 1 else 0) (K t)) / 2 := by
    simp only [msum, dL, ← sum_add_distrib, sum_div]
    exact sum_congr rfl fun a _ => sum_congr rfl fun b _ => by ring
  have e2 : ∀ (x y : Fin n), msum (fun a b => if a = x ∧ b = y then 1 else 0) (K t) = K t x y := by
    intro x y
    simp only [msum, ite_and, ite_mul, one_mul, zero_mul]
    simp
  have e3 : msum (fun a b => if b = i ∧ a = j then 1 else 0) (K t) = K t j i := by
    rw [← e2 j i]
    congr 1; funext a b; simp only [and_comm]
  simp only
  rw [e1, e2, e3, hK t j i]
  ring

end Kern
end GPyABCD
