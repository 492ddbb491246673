import Verif.Model.Links

/-!
# Specification: well-linked trees
-/

namespace GPyABCD
namespace Links

mutual
/-- The identities of the nodes of a tree. -/
def ids : LK → List Nat
  | .str _ => []
  | .comm i _ _ _ _ cts => i :: idsL cts
  | .change i _ _ _ l r => i :: (ids l ++ ids r)
/-- In a list. -/
def idsL : List LK → List Nat
  | [] => []
  | k :: ks => ids k ++ idsL ks
end

mutual
/-- Every node has root link `x`, the top node has parent link `p`, and every other node has the link to the node that holds it. -/
def Linked (x : Nat) (p : Option Nat) : LK → Prop
  | .str _ => True
  | .comm i r q _ _ cts => r = some x ∧ q = p ∧ LinkedL x i cts
  | .change i r q _ l r' => r = some x ∧ q = p ∧ Linked x (some i) l ∧ Linked x (some i) r'
/-- The composite terms held by node `i`: none is a string. -/
def LinkedL (x i : Nat) : List LK → Prop
  | [] => True
  | k :: ks => (k.isStr = false ∧ Linked x (some i) k) ∧ LinkedL x i ks
end

/-- A well-linked tree: its root link is itself, it has no parent, all links below are right, and no node occurs twice. -/
structure WellLinked (k : LK) : Prop where
  /-- links -/
  links : ∃ i, k.id? = some i ∧ Linked i none k
  /-- a tree -/
  tree : (ids k).Nodup

mutual
/-- A tree as Python allows it: no composite term is a bare string. -/
def Proper : LK → Prop
  | .str _ => True
  | .comm _ _ _ _ _ cts => ProperL cts
  | .change _ _ _ _ l r => Proper l ∧ Proper r
/-- In a list. -/
def ProperL : List LK → Prop
  | [] => True
  | k :: ks => (k.isStr = false ∧ Proper k) ∧ ProperL ks
end

mutual
/-- Only the parent links, below the top node. -/
def Parents : LK → Prop
  | .str _ => True
  | .comm i _ _ _ _ cts => ParentsL i cts
  | .change i _ _ _ l r => (l.isStr = false → l.parent = some i) ∧ (r.isStr = false → r.parent = some i) ∧ Parents l ∧ Parents r
/-- The composite terms held by node `i`. -/
def ParentsL (i : Nat) : List LK → Prop
  | [] => True
  | k :: ks => (k.isStr = false ∧ k.parent = some i ∧ Parents k) ∧ ParentsL i ks
end

mutual
/-- All nodes of a tree. -/
def nodes : LK → List LK
  | .str _ => []
  | .comm i r p op bts cts => .comm i r p op bts cts :: nodesL cts
  | .change i rt p c l r => .change i rt p c l r :: (nodes l ++ nodes r)
/-- In a list. -/
def nodesL : List LK → List LK
  | [] => []
  | k :: ks => nodes k ++ nodesL ks
end

end Links
end GPyABCD
