import Verif.Model.Gradients
import Verif.Spec.Numeric
import Verif.Lemmas.Sigmoid
import Mathlib.Analysis.Calculus.Deriv.Pow

/-! # Derivatives of linear losses -/

namespace GPyABCD
namespace Kern
open Finset

theorem msum_symm {n : ℕ} {dL : Fin n → Fin n → ℝ} (h : SymmArr dL) (A : Fin n → Fin n → ℝ) :
    msum dL A = msum dL (fun i j => A j i) := by
  unfold msum
  rw [sum_comm]
  exact sum_congr rfl fun i _ => sum_congr rfl fun j _ => by rw [h i j]

theorem msum_add {n m : ℕ} (dL A B : Fin n → Fin m → ℝ) :
    msum dL (fun i j => A i j + B i j) = msum dL A + msum dL B := by
  simp only [msum, mul_add, sum_add_distrib]

theorem msum_neg {n m : ℕ} (dL A : Fin n → Fin m → ℝ) : msum dL (fun i j => - A i j) = - msum dL A := by
  simp [msum]

theorem msum_mul {n m : ℕ} (a : ℝ) (dL A : Fin n → Fin m → ℝ) : msum dL (fun i j => a * A i j) = a * msum dL A := by
  simp only [msum, mul_sum]
  exact sum_congr rfl fun i _ => sum_congr rfl fun j _ => by ring

/-- Entrywise derivatives give the derivative of the loss. -/
theorem hasDerivAt_linLoss {n m : ℕ} {dL : Fin n → Fin m → ℝ} {X : Fin n → ℝ} {X2 : Fin m → ℝ} {k : ℝ → Cov} {t : ℝ}
    {k' : Fin n → Fin m → ℝ} (h : ∀ i j, HasDerivAt (fun t => k t (X i) (X2 j)) (k' i j) t) :
    HasDerivAt (fun t => linLoss dL (k t) X X2) (msum dL k') t := by
  unfold linLoss msum
  exact HasDerivAt.fun_sum fun i _ => HasDerivAt.fun_sum fun j _ => (h i j).const_mul _

/-- Derivative of the loss of a basis function kernel. -/
theorem hasDerivAt_basis {n m : ℕ} {dL : Fin n → Fin m → ℝ} {X : Fin n → ℝ} {X2 : Fin m → ℝ} {v : ℝ} {phi : ℝ → ℝ → ℝ}
    {d : ℝ → ℝ} {t : ℝ} (h : ∀ x, HasDerivAt (fun t => phi t x) (d x) t) :
    HasDerivAt (fun t => linLoss dL (basisK v (phi t)) X X2)
      (msum dL (fun i j => v * (d (X i) * phi t (X2 j) + phi t (X i) * d (X2 j)))) t :=
  hasDerivAt_linLoss (k := fun t => basisK v (phi t)) fun i j => ((h (X i)).mul (h (X2 j))).const_mul v

/-- Derivative for a symmetric loss on one set of points, as the code computes it. -/
theorem hasDerivAt_basis_symm {n : ℕ} {dL : Fin n → Fin n → ℝ} (hs : SymmArr dL) {X : Fin n → ℝ} {v : ℝ}
    {phi : ℝ → ℝ → ℝ} {d : ℝ → ℝ} {t : ℝ} (h : ∀ x, HasDerivAt (fun t => phi t x) (d x) t) :
    HasDerivAt (fun t => linLoss dL (basisK v (phi t)) X X)
      (v * 2 * msum dL (dotT (fun i => phi t (X i)) (fun i => d (X i)))) t := by
  refine (hasDerivAt_basis h).congr_deriv ?_
  rw [msum_mul, msum_add, msum_symm hs (fun i j => d (X i) * phi t (X j))]
  have : msum dL (fun i j => d (X j) * phi t (X i)) = msum dL (dotT (fun i => phi t (X i)) (fun i => d (X i))) := by
    unfold dotT msum
    exact sum_congr rfl fun i _ => sum_congr rfl fun j _ => by ring
  rw [this]
  change v * (_ + msum dL (dotT (fun i => phi t (X i)) (fun i => d (X i)))) = _
  ring

/-! ## Derivatives of the basis functions -/

theorem hasDerivAt_phiS_loc {s : ℝ} (rev : Bool) (l x : ℝ) :
    HasDerivAt (fun l => phiS l s rev x) ((if rev then -1 else 1) * (sigmoidD ((x - l) / s) / (-s))) l := by
  have h1 : HasDerivAt (fun l => (x - l) / s) (-1 / s) l := by
    simpa using ((hasDerivAt_id l).const_sub x).div_const s
  have h2 := (hasDerivAt_sigmoid ((x - l) / s)).comp l h1
  cases rev
  · refine h2.congr_deriv ?_
    simp [div_neg, neg_div]; ring
  · refine (h2.const_sub 1).congr_deriv ?_
    simp [div_neg, neg_div]; ring

theorem hasDerivAt_arg_slope {s : ℝ} (hs : s ≠ 0) (a : ℝ) : HasDerivAt (fun s => a / s) (-(a / s) / s) s := by
  have := (hasDerivAt_inv hs).const_mul a
  refine (this.congr_deriv ?_)
  field_simp

theorem hasDerivAt_phiS_slope {s : ℝ} (hs : s ≠ 0) (rev : Bool) (l x : ℝ) :
    HasDerivAt (fun s => phiS l s rev x)
      ((if rev then -1 else 1) * (sigmoidD ((x - l) / s) * (-((x - l) / s) / s))) s := by
  have h2 := (hasDerivAt_sigmoid ((x - l) / s)).comp s (hasDerivAt_arg_slope hs (x - l))
  cases rev
  · refine h2.congr_deriv ?_
    simp
  · refine (h2.const_sub 1).congr_deriv ?_
    simp

/-- One over the height of a window. -/
theorem hasDerivAt_invH_slope {s w : ℝ} (hs : 0 < s) (hw : 0 < w) :
    HasDerivAt (fun s => 1 / core (w / (2 * s))) (invCoreD (w / (2 * s)) * (-(w / (2 * s)) / s)) s := by
  have h1 : HasDerivAt (fun s => w / (2 * s)) (-(w / (2 * s)) / s) s := by
    have := hasDerivAt_arg_slope hs.ne' (w / 2)
    have e : (fun s => w / 2 / s) = fun s => w / (2 * s) := by funext s; rw [div_div]
    rw [e, div_div] at this
    exact this
  exact HasDerivAt.comp (h₂ := fun a => 1 / core a) s (hasDerivAt_inv_core (a := w / (2 * s)) (by positivity)) h1

theorem hasDerivAt_invH_width {s w : ℝ} (hs : 0 < s) (hw : 0 < w) :
    HasDerivAt (fun w => 1 / core (w / (2 * s))) (invCoreD (w / (2 * s)) / (2 * s)) w := by
  have h1 : HasDerivAt (fun w : ℝ => w / (2 * s)) (1 / (2 * s)) w := (hasDerivAt_id w).div_const _
  refine (HasDerivAt.comp (h₂ := fun a => 1 / core a) w (hasDerivAt_inv_core (a := w / (2 * s)) (by positivity)) h1).congr_deriv ?_
  ring

/-- Numerator of a window. -/
noncomputable def numSI (l s w x : ℝ) : ℝ := sigmoid ((x - l) / s) + sigmoid ((x - l - w) / (-s)) - 1

theorem phiSI_eq (l s w : ℝ) (rev : Bool) (x : ℝ) :
    phiSI l s w rev x = if rev then 1 - numSI l s w x * (1 / core (w / (2 * s))) else numSI l s w x * (1 / core (w / (2 * s))) := by
  simp [phiSI, numSI, div_eq_mul_inv]

theorem hasDerivAt_phiSI_of {f : ℝ → ℝ → ℝ} {num inv : ℝ → ℝ} {t dn di d : ℝ} {rev : Bool} {x : ℝ}
    (hf : ∀ t, f t x = if rev then 1 - num t * inv t else num t * inv t)
    (hn : HasDerivAt num dn t) (hi : HasDerivAt inv di t) (hd : d = dn * inv t + num t * di) :
    HasDerivAt (fun t => f t x) ((if rev then -1 else 1) * d) t := by
  have h : HasDerivAt (fun t => num t * inv t) (dn * inv t + num t * di) t := hn.mul hi
  subst hd
  have e : (fun t => f t x) = fun t => if rev then 1 - num t * inv t else num t * inv t := funext hf
  rw [e]
  cases rev
  · simpa using h
  · simpa using h.const_sub 1

theorem hasDerivAt_phiSI_loc {s w : ℝ} (rev : Bool) (l x : ℝ) :
    HasDerivAt (fun l => phiSI l s w rev x)
      ((if rev then -1 else 1) * (((-sigmoidD ((x - l) / s) + sigmoidD ((x - l - w) / (-s))) / s) * (1 / core (w / (2 * s))))) l := by
  have h1 : HasDerivAt (fun l => (x - l) / s) (-1 / s) l := by
    simpa using ((hasDerivAt_id l).const_sub x).div_const s
  have h2 : HasDerivAt (fun l => (x - l - w) / (-s)) (-1 / (-s)) l := by
    simpa using (((hasDerivAt_id l).const_sub x).sub_const w).div_const (-s)
  have hn := (((hasDerivAt_sigmoid ((x - l) / s)).comp l h1).add
    ((hasDerivAt_sigmoid ((x - l - w) / (-s))).comp l h2)).sub_const 1
  refine hasDerivAt_phiSI_of (num := fun l => numSI l s w x) (inv := fun _ => 1 / core (w / (2 * s)))
    (fun l => phiSI_eq l s w rev x) hn (hasDerivAt_const l _) ?_
  rw [neg_div_neg_eq]
  ring

theorem hasDerivAt_phiSI_slope {s w : ℝ} (hs : 0 < s) (hw : 0 < w) (rev : Bool) (l x : ℝ) :
    HasDerivAt (fun s => phiSI l s w rev x)
      ((if rev then -1 else 1) * (((sigmoidD ((x - l) / s) * ((x - l) / s) + sigmoidD ((x - l - w) / (-s)) * ((x - l - w) / (-s))) / (-s)) *
        (1 / core (w / (2 * s))) + (sigmoid ((x - l) / s) + sigmoid ((x - l - w) / (-s)) - 1) *
          (invCoreD (w / (2 * s)) * (-(w / (2 * s)) / s)))) s := by
  have h1 := hasDerivAt_arg_slope hs.ne' (x - l)
  have h2 : HasDerivAt (fun s => (x - l - w) / (-s)) ((x - l - w) / (-s) / (-s)) s := by
    have := (hasDerivAt_arg_slope hs.ne' (x - l - w)).neg
    have e : (-fun s => (x - l - w) / s) = fun s => (x - l - w) / (-s) := by funext s; simp [div_neg]
    rw [e] at this
    refine this.congr_deriv ?_
    simp only [div_neg, neg_div, neg_neg]
  have hn := (((hasDerivAt_sigmoid ((x - l) / s)).comp s h1).add
    ((hasDerivAt_sigmoid ((x - l - w) / (-s))).comp s h2)).sub_const 1
  refine hasDerivAt_phiSI_of (num := fun s => numSI l s w x) (inv := fun s => 1 / core (w / (2 * s)))
    (fun s => phiSI_eq l s w rev x) hn (hasDerivAt_invH_slope hs hw) ?_
  simp only [numSI, div_neg, neg_div]
  ring

theorem hasDerivAt_phiSI_width {s w : ℝ} (hs : 0 < s) (hw : 0 < w) (rev : Bool) (l x : ℝ) :
    HasDerivAt (fun w => phiSI l s w rev x)
      ((if rev then -1 else 1) * ((sigmoidD ((x - l - w) / (-s)) / s) * (1 / core (w / (2 * s))) +
        (sigmoid ((x - l) / s) + sigmoid ((x - l - w) / (-s)) - 1) * (invCoreD (w / (2 * s)) / (2 * s)))) w := by
  have h2 : HasDerivAt (fun w => (x - l - w) / (-s)) (-1 / (-s)) w := by
    simpa using ((hasDerivAt_id w).const_sub (x - l)).div_const (-s)
  have hn := ((hasDerivAt_const w (sigmoid ((x - l) / s))).add
    ((hasDerivAt_sigmoid ((x - l - w) / (-s))).comp w h2)).sub_const 1
  refine hasDerivAt_phiSI_of (num := fun w => numSI l s w x) (inv := fun w => 1 / core (w / (2 * s)))
    (fun w => phiSI_eq l s w rev x) hn (hasDerivAt_invH_width hs hw) ?_
  rw [neg_div_neg_eq]
  simp only [numSI]
  ring

end Kern
end GPyABCD
