import Verif.Spec.Shape
import Verif.Spec.Same

/-!
# Specification: replacing one node

A context is an expression with one hole; a node occurrence of `k` is a context `C` and an expression `x` with
`k = C.plug x`.
-/

namespace GPyABCD

/-- An expression with one hole. -/
inductive Ctx
  | hole
  | comm (o : Op) (b : Counter) (l1 : List KE) (C : Ctx) (l2 : List KE)
  | left (c : CC) (C : Ctx) (r : KE)
  | right (c : CC) (l : KE) (C : Ctx)

namespace Ctx

/-- Fill the hole. -/
def plug : Ctx → KE → KE
  | hole, x => x
  | comm o b l1 C l2, x => .comm o b (l1 ++ C.plug x :: l2)
  | left c C r, x => .change c (C.plug x) r
  | right c l C, x => .change c l (C.plug x)

/-- The hole is the left branch of a change operator. -/
def endsLeft : Ctx → Bool
  | hole => false
  | comm _ _ _ C _ => C.endsLeft
  | left _ hole _ => true
  | left _ C _ => C.endsLeft
  | right _ _ C => C.endsLeft

end Ctx

namespace KE

/-- The node standing for an occurrence: a bare base kernel stands for the sum of that one kernel. -/
def nodeOf : KE → KE
  | base b => comm .sum [(b, 1)] []
  | k => k

/-- No change operator has a bare base kernel as its left branch. -/
def noLeftLeaf (k : KE) : Bool :=
  allNodes (fun n => match n with | change _ (base _) _ => false | _ => true) k

end KE
end GPyABCD
