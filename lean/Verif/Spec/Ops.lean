import Verif.Spec.Shape
import Verif.Spec.Same
import Mathlib.Data.List.Perm.Basic

/-!
# Specification: joining and replacing terms
-/

namespace GPyABCD
namespace KE

/-- Base-kernel terms of an operand seen as a sum (or product): its own if it is one, itself if it is a
base kernel. -/
def els (op : Op) : KE → List Base
  | base b => [b]
  | comm o b cs => if o = op then b.elements else []
  | change _ _ _ => []

/-- Composite terms of an operand seen as a sum (or product): its own if it is one, itself if it is of
another kind. -/
def parts (op : Op) : KE → List KE
  | base _ => []
  | comm o b cs => if o = op then cs else [comm o b cs]
  | change c l r => [change c l r]

/-- `R` is a sum (product) holding exactly the terms of `k1` and of `k2`. -/
def Joins (op : Op) (k1 k2 R : KE) : Prop :=
  ∃ b cs, R = comm op b cs ∧ b.elements.Perm (els op k1 ++ els op k2) ∧ cs.Perm (parts op k1 ++ parts op k2)

/-- An operand of the operators: well formed, no empty sum or product, no product of constants in a product. -/
def operand (k : KE) : Bool := wf k && noEmpty k && noConstProd k

end KE

end GPyABCD
