import Verif.Model.SopsHeap
import Verif.Spec.Sops

/-!
# Specification for C94: objects which hold a fitted expression
-/

namespace GPyABCD
namespace Sops

variable {α : Type}

mutual
/-- Every `'ProductKE'` entry holds a variance. -/
def Filled (s : Store α) : HKE → Prop
  | .leaf _ _ => True
  | .comm _ _ _ pv cts => (∀ a, pv = some a → (s.d a).variance ≠ none) ∧ FilledL s cts
  | .change _ _ l r => Filled s l ∧ Filled s r
/-- In a list. -/
def FilledL (s : Store α) : List HKE → Prop
  | [] => True
  | k :: ks => Filled s k ∧ FilledL s ks
end

/-- No two places of an expression refer to one dictionary or one list. -/
structure Apart (s : Store α) (k : HKE) : Prop where
  /-- dictionaries are distinct -/
  dicts : (dicts s k).Nodup
  /-- lists are distinct -/
  lists : (lists k).Nodup
  /-- dictionaries are in use -/
  dlt : ∀ r ∈ Sops.dicts s k, r < s.nd
  /-- lists are in use -/
  llt : ∀ a ∈ Sops.lists k, a < s.nl
  /-- variances of products are there -/
  filled : Filled s k

/-! ## The objects made by `match_up_fit_parameters` -/

/-- One new dictionary per occurrence, `commutative_base.py:131`. -/
def layDs (s : Store α) : List (PD α) → Store α × List Nat
  | [] => (s, [])
  | p :: ps =>
    let x := layDs (s.newD p) ps
    (x.1, s.nd :: x.2)

/-- One new list per name (`defaultdict`, `base.py:27`). -/
def layPs (s : Store α) : PDict α → Store α × HDict
  | [] => (s, [])
  | e :: r =>
    let x := layDs s e.2
    let y := layPs (x.1.newL x.2) r
    (y.1, (e.1, x.1.nl) :: y.2)

/-- `self.parameters['ProductKE'].append({'variance': single_variance})`, `commutatives.py:114`. -/
def layPv (s : Store α) : Option α → Store α × Option Nat
  | none => (s, none)
  | some v => (s.newD { variance := some v }, some s.nd)

mutual
/-- The objects of a whole fitted expression, `commutative_base.py:124-138`, `commutatives.py:103-115`, `change.py:93-103`. -/
def lay (s : Store α) : PKE α → Store α × HKE
  | .leaf b p => (s.newD p, .leaf b s.nd)
  | .comm op bts ps pv cts =>
    let x := layPs s ps
    let y := layPv x.1 pv
    let z := layL y.1 cts
    (z.1, .comm op bts x.2 y.2 z.2)
  | .change c p l r =>
    let x := lay (s.newD p) l
    let y := lay x.1 r
    (y.1, .change c s.nd x.2 y.2)
/-- Composite terms one after the other. -/
def layL (s : Store α) : List (PKE α) → Store α × List HKE
  | [] => (s, [])
  | k :: ks =>
    let x := lay s k
    let y := layL x.1 ks
    (y.1, x.2 :: y.2)
end

/-- No objects yet. -/
def Store.empty : Store α := ⟨fun _ => {}, 0, fun _ => [], 0⟩

end Sops
end GPyABCD
