import Verif.Model.Objects

/-!
# Specification: what a call leaves behind
-/

namespace GPyABCD
namespace Objects

/-- The object a branch is, if it is not a string. -/
def Ref.addr : Ref → List Nat
  | .str _ => []
  | .obj a => [a]

/-- All objects an object refers to, as a part or by a link. -/
def Obj.points : Obj → List Nat
  | .comm r p _ _ cts => r.toList ++ p.toList ++ cts
  | .change r p _ l r' => r.toList ++ p.toList ++ l.addr ++ r'.addr

/-- What can be reached from an object by any number of steps. -/
inductive Reach (h : Heap) : Nat → Nat → Prop
  | here (a : Nat) : Reach h a a
  | step {a b c : Nat} {o : Obj} : h[a]? = some o → b ∈ o.points → Reach h b c → Reach h a c

/-- The call leaves every object that was there before as it was, whether it returns or raises. -/
def LeavesAlone {α : Type} (m : M α) : Prop := ∀ (h : Heap) (a : Nat), a < h.length → (m h).2[a]? = h[a]?

/-- Nothing that was there before the call can be reached from the objects it returns. -/
def GivesNew {α : Type} (m : M α) (results : α → List Nat) : Prop :=
  ∀ (h h' : Heap) (x : α), m h = (.ok x, h') → ∀ r ∈ results x, ∀ b, Reach h' r b → h.length ≤ b

/-- The call returns. -/
def Returns {α : Type} (m : M α) (h : Heap) : Prop := ∃ x h', m h = (.ok x, h')

end Objects
end GPyABCD
