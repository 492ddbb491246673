import Verif.Spec.KernelFam

/-!
# Lemmas: cross-covariances are blocks of covariance matrices
-/

namespace GPyABCD
namespace Kern
open Params Sops

variable {n m k : ℕ}

mutual
theorem kerK_comp (cfg : Cfg) (X : Fin n → ℝ) {e : Fin m → Fin n} (he : Function.Injective e) (i j : Fin m) :
    ∀ g : GK ℝ, kerK cfg (X ∘ e) g i j = kerK cfg X g (e i) (e j)
  | .base b p => by
    cases b <;> simp only [kerK, baseK]
    case WN => simp [he.eq_iff]
    case LIN => split <;> rfl
    all_goals rfl
  | .comb .sum parts => by rw [kerK, kerK]; exact kerSum_comp cfg X he i j parts
  | .comb .prod parts => by rw [kerK, kerK]; exact kerProd_comp cfg X he i j parts
  | .change c p l r => by
    simp only [kerK, Arr.add, Arr.mul, changeSig, matK, Function.comp_apply, kerK_comp cfg X he i j l, kerK_comp cfg X he i j r]
theorem kerSum_comp (cfg : Cfg) (X : Fin n → ℝ) {e : Fin m → Fin n} (he : Function.Injective e) (i j : Fin m) :
    ∀ l : List (GK ℝ), kerSum cfg (X ∘ e) l i j = kerSum cfg X l (e i) (e j)
  | [] => by rw [kerSum, kerSum]
  | g :: l => by rw [kerSum, kerSum, Arr.add, Arr.add, kerK_comp cfg X he i j g, kerSum_comp cfg X he i j l]
theorem kerProd_comp (cfg : Cfg) (X : Fin n → ℝ) {e : Fin m → Fin n} (he : Function.Injective e) (i j : Fin m) :
    ∀ l : List (GK ℝ), kerProd cfg (X ∘ e) l i j = kerProd cfg X l (e i) (e j)
  | [] => by rw [kerProd, kerProd]
  | g :: l => by rw [kerProd, kerProd, Arr.mul, Arr.mul, kerK_comp cfg X he i j g, kerProd_comp cfg X he i j l]
end

mutual
theorem kerK2_comp (cfg : Cfg) (Z : Fin k → ℝ) (e : Fin n → Fin k) (e' : Fin m → Fin k) {i : Fin n} {j : Fin m} (h : e i ≠ e' j) :
    ∀ g : GK ℝ, kerK2 cfg (Z ∘ e) (Z ∘ e') g i j = kerK cfg Z g (e i) (e' j)
  | .base b p => by
    cases b <;> simp only [kerK2, kerK, baseK2, baseK]
    case WN => simp [h]
    case LIN => split <;> rfl
    all_goals rfl
  | .comb .sum parts => by rw [kerK2, kerK]; exact kerSum2_comp cfg Z e e' h parts
  | .comb .prod parts => by rw [kerK2, kerK]; exact kerProd2_comp cfg Z e e' h parts
  | .change c p l r => by
    simp only [kerK2, kerK, Arr.add, Arr.mul, changeSig, changeSig2, matK, Function.comp_apply, kerK2_comp cfg Z e e' h l, kerK2_comp cfg Z e e' h r]
theorem kerSum2_comp (cfg : Cfg) (Z : Fin k → ℝ) (e : Fin n → Fin k) (e' : Fin m → Fin k) {i : Fin n} {j : Fin m} (h : e i ≠ e' j) :
    ∀ l : List (GK ℝ), kerSum2 cfg (Z ∘ e) (Z ∘ e') l i j = kerSum cfg Z l (e i) (e' j)
  | [] => by rw [kerSum2, kerSum]
  | g :: l => by simp only [kerSum2, kerSum, Arr.add, kerK2_comp cfg Z e e' h g, kerSum2_comp cfg Z e e' h l]
theorem kerProd2_comp (cfg : Cfg) (Z : Fin k → ℝ) (e : Fin n → Fin k) (e' : Fin m → Fin k) {i : Fin n} {j : Fin m} (h : e i ≠ e' j) :
    ∀ l : List (GK ℝ), kerProd2 cfg (Z ∘ e) (Z ∘ e') l i j = kerProd cfg Z l (e i) (e' j)
  | [] => by rw [kerProd2, kerProd]
  | g :: l => by simp only [kerProd2, kerProd, Arr.mul, kerK2_comp cfg Z e e' h g, kerProd2_comp cfg Z e e' h l]
end

mutual
theorem kerK2_self (cfg : Cfg) (X : Fin n → ℝ) (i j : Fin n) : ∀ g : GK ℝ, NoWN g → kerK2 cfg X X g i j = kerK cfg X g i j
  | .base b p, h => by
    cases b <;> simp only [kerK2, kerK, baseK2, baseK]
    case WN => simp [NoWN] at h
  | .comb .sum parts, h => by rw [kerK2, kerK]; rw [NoWN] at h; exact kerSum2_self cfg X i j parts h
  | .comb .prod parts, h => by rw [kerK2, kerK]; rw [NoWN] at h; exact kerProd2_self cfg X i j parts h
  | .change c p l r, h => by
    rw [NoWN] at h
    simp only [kerK2, kerK, Arr.add, Arr.mul, changeSig, changeSig2, kerK2_self cfg X i j l h.1, kerK2_self cfg X i j r h.2]
theorem kerSum2_self (cfg : Cfg) (X : Fin n → ℝ) (i j : Fin n) : ∀ l : List (GK ℝ), NoWNL l → kerSum2 cfg X X l i j = kerSum cfg X l i j
  | [], _ => by rw [kerSum2, kerSum]
  | g :: l, h => by rw [NoWNL] at h; simp only [kerSum2, kerSum, Arr.add, kerK2_self cfg X i j g h.1, kerSum2_self cfg X i j l h.2]
theorem kerProd2_self (cfg : Cfg) (X : Fin n → ℝ) (i j : Fin n) : ∀ l : List (GK ℝ), NoWNL l → kerProd2 cfg X X l i j = kerProd cfg X l i j
  | [], _ => by rw [kerProd2, kerProd]
  | g :: l, h => by rw [NoWNL] at h; simp only [kerProd2, kerProd, Arr.mul, kerK2_self cfg X i j g h.1, kerProd2_self cfg X i j l h.2]
end

end Kern
end GPyABCD
