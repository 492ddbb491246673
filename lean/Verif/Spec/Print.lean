import Verif.Model.Print
import Verif.Spec.Sem
import Verif.Spec.Shape

/-!
# Specification: what an expression means by itself

The meaning of an expression where `+`, `*`, the base kernels and the change operators are given, from its terms and not from its printed form.
-/

namespace GPyABCD
namespace Print
open Params

variable {X : Type}

/-- `+` and `*` are associative. -/
structure Alg.Assoc (A : Alg X) : Prop where
  /-- of `+` -/
  add : ∀ a b c, A.add (A.add a b) c = A.add a (A.add b c)
  /-- of `*` -/
  mul : ∀ a b c, A.mul (A.mul a b) c = A.mul a (A.mul b c)

/-- The operation of a node. -/
def Alg.op (A : Alg X) : Op → X → X → X
  | .sum => A.add
  | .prod => A.mul

/-- A non-empty sum or product. -/
def fold1 (f : X → X → X) : List X → Option X
  | [] => none
  | x :: xs => some (xs.foldl f x)

mutual
/-- The meaning of an expression: its base kernels in the order of descriptions, then its composite terms. `none` for an empty sum or product. -/
def meaning (A : Alg X) : KE → Option X
  | .base b => some (A.base b)
  | .comm op b cs => (meanings A cs).bind (fun xs => fold1 (A.op op) ((orderBase b.elements).map A.base ++ xs))
  | .change c l r => (meaning A l).bind (fun x => (meaning A r).map (fun y => A.chg c x y))
/-- Term by term. -/
def meanings (A : Alg X) : List KE → Option (List X)
  | [] => some []
  | k :: ks => (meaning A k).bind (fun x => (meanings A ks).map (fun xs => x :: xs))
end

open scoped Pointwise in
/-- All products of a variance and a shape. -/
def variancesTimes (V S : Fam) : Fam := V * S

open scoped Pointwise in
/-- Families of covariances as an algebra (`Spec/Sem.lean`). -/
def famAlg (I : Interp) : Alg Fam where
  base := I.F
  add := fun a b => a + b
  mul := fun a b => a * b
  chg := I.chg

mutual
/-- The covariances a kernel object can take on as its linked parameters range over their values: a base kernel is a variance from `V` times a shape; a
variance that is not linked stays 1. -/
def kernelFam (V : Fam) (shapes : Base → Fam) (chg : CC → Fam → Fam → Fam) : GK Unit → Fam
  | .base b p => if p.variance.isSome then variancesTimes V (shapes b) else shapes b
  | .comb op parts => opFold op (kernelFams V shapes chg parts)
  | .change c _ l r => chg c (kernelFam V shapes chg l) (kernelFam V shapes chg r)
/-- Part by part. -/
def kernelFams (V : Fam) (shapes : Base → Fam) (chg : CC → Fam → Fam → Fam) : List (GK Unit) → List Fam
  | [] => []
  | k :: ks => kernelFam V shapes chg k :: kernelFams V shapes chg ks
end

/-- The positive constant functions. -/
def positives : Fam := {f | ∃ v : ℝ, 0 < v ∧ f = fun _ _ => v}

end Print
end GPyABCD
