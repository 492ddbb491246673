import Verif.Spec.KernelFam
import Verif.Model.Likelihood
import Verif.Model.Predict

/-!
# Specification: order, origin and units of the data
-/

namespace GPyABCD
namespace Kern
open Params Sops

mutual
/-- No change operators in an expression. -/
def noChange : KE → Bool
  | .base _ => true
  | .comm _ _ cs => noChangeL cs
  | .change _ _ _ => false
/-- Over a list. -/
def noChangeL : List KE → Bool
  | [] => true
  | k :: ks => noChange k && noChangeL ks
end

/-- A kernel that fitting can make of an expression. -/
def FittedTo (cfg : Cfg) (k : KE) (g : GK ℝ) : Prop := toKernel cfg k = .ok (erase g) ∧ Adm g

/-- Covariances in the square of another unit. -/
def CovArr.scale {m : ℕ} (s : ℝ) : CovArr m → CovArr m
  | .column v => .column fun i => s ^ 2 * v i
  | .matrix A => .matrix fun i j => s ^ 2 * A i j

/-- A prediction in another unit: everything `s` times as large, covariances `s ^ 2` times. -/
def Prediction.scale {m : ℕ} (s : ℝ) (p : Prediction m) : Prediction m :=
  ⟨fun i => s * p.mean i, p.covariance.scale s, fun i => s * p.low i, fun i => s * p.high i⟩

/-- The predictions at some of the inputs, in some order. -/
def Prediction.pick {m m' : ℕ} (τ : Fin m' → Fin m) (p : Prediction m) : Prediction m' :=
  ⟨p.mean ∘ τ, match p.covariance with
    | .column v => .column (v ∘ τ)
    | .matrix A => .matrix fun i j => A (τ i) (τ j), p.low ∘ τ, p.high ∘ τ⟩

/-- The log-likelihoods that fitting an expression to data can arrive at. -/
def attainable (cfg : Cfg) (k : KE) {n : ℕ} (X y : Fin n → ℝ) : Set ℝ :=
  {L | ∃ g noise, FittedTo cfg k g ∧ 0 < noise ∧ (covY cfg X g noise).det ≠ 0 ∧ L = logLik cfg X y g noise}

end Kern
end GPyABCD
