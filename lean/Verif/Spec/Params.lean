import Verif.Model.Params
import Verif.Spec.Interp
import Verif.Spec.Shape

/-!
# Specification: fitted kernels and the expressions they belong to
-/

namespace GPyABCD
namespace Params
open Sops

variable {α β : Type}

/-- Values of parameters mapped. -/
def mapPD (f : α → β) (p : PD α) : PD β :=
  ⟨p.variance.map f, p.lengthscale.map f, p.period.map f, p.offset.map f, p.location.map f, p.slope.map f, p.width.map f⟩

mutual
/-- The kernel without the values of its parameters. Fitting changes values only, so the kernels that fitting can make of a kernel `s` are those with
`erase g = s`. -/
def erase : GK α → GK Unit
  | .base b p => .base b (mapPD (fun _ => ()) p)
  | .comb op parts => .comb op (eraseL parts)
  | .change c p l r => .change c (mapPD (fun _ => ()) p) (erase l) (erase r)
/-- Over a list. -/
def eraseL : List (GK α) → List (GK Unit)
  | [] => []
  | k :: ks => erase k :: eraseL ks
end

mutual
/-- The expression without parameters. -/
def forget : PKE α → KE
  | .leaf b _ => .base b
  | .comm op b _ _ cts => .comm op b (forgetL cts)
  | .change c _ l r => .change c (forget l) (forget r)
/-- Over a list. -/
def forgetL : List (PKE α) → List KE
  | [] => []
  | k :: ks => forget k :: forgetL ks
end

mutual
/-- The sigmoids of each component of an expression, when it is multiplied out. -/
def weights : KE → List (List Base)
  | .base _ => [[]]
  | .comm .sum _ cs => [] :: weightsSum cs
  | .comm .prod _ cs => weightsProd cs
  | .change c l r => (weights l).map (fun w => firstWeight c :: w) ++ (weights r).map (fun w => secondWeight c :: w)
/-- Those of the terms of a sum. -/
def weightsSum : List KE → List (List Base)
  | [] => []
  | k :: ks => weights k ++ weightsSum ks
/-- Those of a product. -/
def weightsProd : List KE → List (List Base)
  | [] => [[]]
  | k :: ks => (weights k).flatMap (fun w => (weightsProd ks).map (fun v => w ++ v))
end

/-- A component that is bounded by a window is bounded by nothing else (so there are no windows in branches of change operators, no change operators in branches of
windows, and no products of windows and other change operators). -/
def aloneWindows (k : KE) : Bool := (weights k).all (fun w => decide (w.length ≤ 1) || w.all (fun b => decide (b ≠ .SI) && decide (b ≠ .SIr)))

/-- The parameters of the parts that are the base kernel `b`, in order. -/
def dictsOf (b : Base) : List (GK α) → List (PD α)
  | [] => []
  | .base b' p :: r => if b' = b then p :: dictsOf b r else dictsOf b r
  | _ :: r => dictsOf b r

/-- The parts that are no base kernels, in order. -/
def composites : List (GK α) → List (GK α)
  | [] => []
  | .base _ _ :: r => composites r
  | k :: r => k :: composites r

/-- The linked variances of the base kernels among the parts. -/
def variances : List (GK α) → List α
  | [] => []
  | .base _ p :: r => p.variance.toList ++ variances r
  | _ :: r => variances r

mutual
/-- Every term of the expression has the parameters of the kernel component built from it: the `n`-th occurrence of a base kernel those of the `n`-th
part of that kind, the `n`-th composite term those of the `n`-th composite part; a product has the one variance of its base kernels. -/
def Carries : PKE α → GK α → Prop
  | .leaf b p, g => g = .base b p
  | .comm .sum _ ps pv cts, g =>
      (ps.map (fun e => e.1)).Nodup ∧ (∀ b, ps.get b = dictsOf b (partsOf .sum g)) ∧ pv = none ∧ CarriesL cts (composites (partsOf .sum g))
  | .comm .prod _ ps pv cts, g =>
      (ps.map (fun e => e.1)).Nodup ∧ (∀ b, ps.get b = (dictsOf b (partsOf .prod g)).map PD.noVar) ∧ pv.toList = variances (partsOf .prod g) ∧
        CarriesL cts (composites (partsOf .prod g))
  | .change c p l r, g => ∃ a b, g = .change c p a b ∧ Carries l a ∧ Carries r b
/-- Term by term. -/
def CarriesL : List (PKE α) → List (GK α) → Prop
  | [], gs => gs = []
  | k :: ks, gs => ∃ g r, gs = g :: r ∧ Carries k g ∧ CarriesL ks r
end

section
variable {R : Type} [CommRing R] (φ : α → R) (shape : Base → PD α → R)

mutual
/-- The covariance of a kernel with its parameter values, at some pair of inputs (see `Sops.eval`). -/
def gval : GK α → R
  | .base b p => termVal φ shape b p
  | .comb .sum parts => gsum parts
  | .comb .prod parts => gprod parts
  | .change c p l r => gval l * termVal φ shape (firstWeight c) p + gval r * termVal φ shape (secondWeight c) p
/-- Added. -/
def gsum : List (GK α) → R
  | [] => 0
  | k :: ks => gval k + gsum ks
/-- Multiplied. -/
def gprod : List (GK α) → R
  | [] => 1
  | k :: ks => gval k * gprod ks
end
end

/-- `P` holds of the lengthscale of an `SE`. -/
def lsOK (P : α → Prop) (b : Base) (p : PD α) : Prop := b = .SE → ∀ x, p.lengthscale = some x → P x

mutual
/-- `P` holds of every `SE` lengthscale. -/
def SEOK (P : α → Prop) : GK α → Prop
  | .base b p => lsOK P b p
  | .comb _ parts => SEOKL P parts
  | .change _ _ l r => SEOK P l ∧ SEOK P r
/-- In a list. -/
def SEOKL (P : α → Prop) : List (GK α) → Prop
  | [] => True
  | k :: ks => SEOK P k ∧ SEOKL P ks
end

mutual
/-- Every component of a kernel satisfies `Q`; the parameters of a change kernel stand for both its sigmoids (compare `EveryTerm`). -/
def GEvery (Q : Base → PD α → Prop) : GK α → Prop
  | .base b p => Q b p
  | .comb _ parts => GEveryL Q parts
  | .change c p l r => Q (firstWeight c) p ∧ Q (secondWeight c) p ∧ GEvery Q l ∧ GEvery Q r
/-- In a list. -/
def GEveryL (Q : Base → PD α → Prop) : List (GK α) → Prop
  | [] => True
  | k :: ks => GEvery Q k ∧ GEveryL Q ks
end

/-- Every sum and product has base terms of its own. -/
def ownNode : KE → Bool
  | .comm _ c _ => !c.isEmpty
  | _ => true

/-- What kernels and parameters are matched for: well formed, no node without terms, no one-term node below the root, kinds alternate, no sigmoids. -/
def Matchable (k : KE) : Prop :=
  k.wf = true ∧ k.noEmpty = true ∧ KE.allBelow (fun n => !n.isSingleton) k = true ∧ KE.alternating k = true ∧ ∀ x ∈ KE.bases k, x.isSigmoid = false

/-- All the parameters in a list have values. -/
def AllOf (ps : List Par) (p : PD α) : Prop := ∀ q ∈ ps, q.get p ≠ none

mutual
/-- Every term of the expression has its parameters: one dictionary for each occurrence of a base kernel, with values for all of its parameters
(`base_k_param_names`, `kernelOperations.py:8-17`), where the base kernels of a product have one variance for all of them. -/
def HasParams (cfg : Cfg) : PKE α → Prop
  | .leaf b p => AllOf (basePars cfg b) p
  | .comm .sum bts ps _ cts => (∀ b, ((ps.get b).length : Int) = bts.get b) ∧ (∀ b, ∀ p ∈ ps.get b, AllOf (basePars cfg b) p) ∧ HasParamsL cfg cts
  | .comm .prod bts ps pv cts => (∀ b, ((ps.get b).length : Int) = bts.get b) ∧
      (∀ b, ∀ p ∈ ps.get b, AllOf ((basePars cfg b).filter (fun q => decide (q ≠ .variance))) p) ∧ (bts.elements ≠ [] → pv ≠ none) ∧ HasParamsL cfg cts
  | .change c p l r => AllOf (changePars cfg c) p ∧ HasParams cfg l ∧ HasParams cfg r
/-- In a list. -/
def HasParamsL (cfg : Cfg) : List (PKE α) → Prop
  | [] => True
  | k :: ks => HasParams cfg k ∧ HasParamsL cfg ks
end

end Params
end GPyABCD
