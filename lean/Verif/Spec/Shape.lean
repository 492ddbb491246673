import Verif.Model.KE

/-!
# Shape predicates on expressions

Vocabulary for stating properties; no definition here is used by the modelled code.
-/

namespace GPyABCD
namespace KE

/-- Composite terms of a node (`[]` for strings and change operators). -/
def ctsOf : KE → List KE
  | comm _ _ cs => cs
  | _ => []

/-- Base terms of a node. -/
def btsOf : KE → Counter
  | comm _ c _ => c
  | _ => []

mutual
/-- What Python objects can look like: counters have distinct keys and positive counts, and bare
strings occur only as branches of change operators. -/
def wf : KE → Bool
  | base _ => true
  | comm _ c cs => decide c.WF && c.all (fun p => decide (0 < p.2)) && wfL cs
  | change _ l r => wf l && wf r
/-- Composite terms are well-formed expressions, not strings. -/
def wfL : List KE → Bool
  | [] => true
  | k :: ks => !k.isBase && wf k && wfL ks
end

mutual
/-- A predicate holds at every node (sums, products, change operators and string branches). -/
def allNodes (P : KE → Bool) : KE → Bool
  | base b => P (base b)
  | comm o c cs => P (comm o c cs) && allNodesL P cs
  | change c l r => P (change c l r) && allNodes P l && allNodes P r
/-- `allNodes` on every element. -/
def allNodesL (P : KE → Bool) : List KE → Bool
  | [] => true
  | k :: ks => allNodes P k && allNodesL P ks
end

/-- Number of terms of a node counts as zero. -/
def isEmptyNode : KE → Bool
  | comm _ c cs => decide (c.elements = []) && cs.isEmpty
  | _ => false

/-- No sum or product without terms anywhere. -/
def noEmpty (k : KE) : Bool := allNodes (fun n => !n.isEmptyNode) k

/-- A one-term sum or product. -/
def isSingleton : KE → Bool
  | comm _ c cs => decide (c.elements.length + cs.length = 1)
  | _ => false

mutual
/-- All base kernel occurrences, left to right. -/
def bases : KE → List Base
  | base b => [b]
  | comm _ c cs => c.elements ++ basesL cs
  | change _ l r => bases l ++ bases r
/-- `bases` of a list. -/
def basesL : List KE → List Base
  | [] => []
  | k :: ks => bases k ++ basesL ks
end

mutual
/-- All change operators, left to right. -/
def changes : KE → List CC
  | base _ => []
  | comm _ _ cs => changesL cs
  | change c l r => c :: (changes l ++ changes r)
/-- `changes` of a list. -/
def changesL : List KE → List CC
  | [] => []
  | k :: ks => changes k ++ changesL ks
end

end KE
end GPyABCD

namespace GPyABCD
namespace KE

/-- A node none of whose composite terms is a node of the same kind (no sum directly in a sum, no
product directly in a product). -/
def altNode : KE → Bool
  | comm op _ cs => cs.all (fun k => !isComm op k)
  | _ => true

/-- No sum directly inside a sum and no product directly inside a product, anywhere. -/
def alternating (k : KE) : Bool := allNodes altNode k

/-- A product none of whose composite terms is a product. -/
def altProdNode : KE → Bool
  | comm .prod _ cs => cs.all (fun k => !isComm .prod k)
  | _ => true

/-- No product directly inside a product, anywhere (sums in sums allowed). -/
def altProd (k : KE) : Bool := allNodes altProdNode k

/-- The base-term rules of `properties.jsonl` C03 at one node, in terms of counts only. -/
def canonNode (cfg : Cfg) : KE → Bool
  | comm .sum c _ =>
      decide (c.get .WN ≤ 1) && decide (c.get .C ≤ 1) &&
      (!(cfg.linOffset && decide (0 < c.get .LIN)) || decide (c.get .C = 0))
  | comm .prod c cs =>
      decide (c.get .WN ≤ 1) &&
      (if 0 < c.get .WN then decide (c.get .C = 0) && decide (c.get .SE = 0) && decide (c.get .PER = 0)
       else decide (c.get .SE ≤ 1) && decide (c.get .C ≤ 1) &&
         (decide (c.get .C = 0) ||
           (decide (c.get .LIN = 0) && decide (c.get .SE = 0) && decide (c.get .PER = 0) && cs.isEmpty)))
  | _ => true

/-- Strictly below the root, a predicate holds at every node. -/
def allBelow (P : KE → Bool) : KE → Bool
  | base _ => true
  | comm _ _ cs => allNodesL P cs
  | change _ l r => allNodes P l && allNodes P r

/-- Fully simplified: well formed, canonical base terms everywhere, no one-term node below the root,
kinds alternate. -/
def normal (cfg : Cfg) (k : KE) : Bool :=
  wf k && allNodes (canonNode cfg) k && allBelow (fun n => !n.isSingleton) k && alternating k

mutual
/-- Number of sum and product nodes. -/
def nodes : KE → Nat
  | base _ => 0
  | comm _ _ cs => nodesL cs + 1
  | change _ l r => nodes l + nodes r
/-- `nodes` summed over a list. -/
def nodesL : List KE → Nat
  | [] => 0
  | k :: ks => nodes k + nodesL ks
end

end KE
end GPyABCD

namespace GPyABCD
namespace KE

/-- A sum or product whose only term is one composite term. -/
def isWrapper : KE → Bool
  | comm _ c [_] => decide (c.elements = [])
  | _ => false

end KE
end GPyABCD

namespace GPyABCD
namespace KE

/-- Built from constant kernels only: every base kernel is C and there is no change operator. -/
def constOnly (k : KE) : Bool := (changes k).isEmpty && (bases k).all (fun b => decide (b = .C))

/-- A product none of whose factors is a product of constants. -/
def noConstProdNode : KE → Bool
  | comm .prod _ cs => cs.all (fun k => !(isComm .prod k && constOnly k))
  | _ => true

/-- No product of constants directly inside a product, anywhere. -/
def noConstProd (k : KE) : Bool := allNodes noConstProdNode k

/-- A product of constants and at least one product, all of them of constants only. -/
def vanishing : KE → Bool
  | comm .prod c cs => !cs.isEmpty && c.elements.all (fun b => decide (b = .C)) && cs.all (fun k => isComm .prod k && constOnly k)
  | _ => false

mutual
/-- Somewhere there is a vanishing product that is not directly inside a product; `inProd`: this expression is. -/
def vanishes (inProd : Bool) : KE → Bool
  | base _ => false
  | comm op c cs => (!inProd && vanishing (comm op c cs)) || vanishesL (decide (op = .prod)) cs
  | change _ l r => vanishes false l || vanishes false r
/-- For one of several. -/
def vanishesL (inProd : Bool) : List KE → Bool
  | [] => false
  | k :: ks => vanishes inProd k || vanishesL inProd ks
end

end KE
end GPyABCD

namespace GPyABCD
namespace KE

/-- Simplified once: well formed, no empty sum or product, canonical base terms everywhere, no one-term node
below the root. -/
def settled (cfg : Cfg) (k : KE) : Bool :=
  wf k && noEmpty k && allNodes (canonNode cfg) k && allBelow (fun n => !n.isSingleton) k

end KE
end GPyABCD
