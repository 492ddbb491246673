import Verif.Model.KE
import Mathlib.Data.List.Forall2

/-!
# Specification: the same expression up to reordering of terms

Independent of the comparison code: two sums (products) are the same when every base kernel is
counted equally often and the composite terms correspond one to one, in some order.
-/

namespace GPyABCD

/-- Same expression up to reordering the terms of sums and products, at every level. -/
inductive Same : KE → KE → Prop
  | base (b : Base) : Same (.base b) (.base b)
  | comm {o : Op} {c c' : Counter} {cs ds cs' : List KE}
      (hc : ∀ b, c.get b = c'.get b) (hf : List.Forall₂ Same cs ds) (hp : ds.Perm cs') :
      Same (.comm o c cs) (.comm o c' cs')
  | change {c : CC} {l l' r r' : KE} (hl : Same l l') (hr : Same r r') :
      Same (.change c l r) (.change c l' r')

end GPyABCD
