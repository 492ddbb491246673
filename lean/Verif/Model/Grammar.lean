import Verif.Model.Ops
import Verif.Model.Util

/-!
# Expansion

Models `/repo/GPy_ABCD/KernelExpansion/grammar.py` and the tree surgery it uses:
`traverse`, `reassign_child` (`commutative_base.py:67-68, 88-91`, `change.py:38-43, 71-74`) and
`new_tree_with_self_replaced` (`base.py:92-98`).
-/

namespace GPyABCD
namespace KE

/-- How a node is reached from its parent: `idx i` the i-th composite term, `left`/`right` an expression
branch of a change operator, `vleft`/`vright` the temporary `SumKE([leaf])` node that `traverse` makes up
for a bare-string branch (`change.py:41-42`). -/
inductive Step | idx (i : Nat) | left | right | vleft | vright
  deriving DecidableEq, Repr

mutual
/-- `traverse`: every node with its position; the temporary nodes for string branches have the change
operator as parent without being one of its branches. -/
def traverse (cfg : Cfg) : KE → List (List Step × KE)
  | base _ => []
  | comm o b cs => ([], comm o b cs) :: traverseL cfg 0 cs
  | change c l r =>
    ([], change c l r) ::
      ((match l with
        | base b => [([Step.vleft], mkL cfg .sum [b] [])]
        | l => (traverse cfg l).map (fun p => (Step.left :: p.1, p.2))) ++
       (match r with
        | base b => [([Step.vright], mkL cfg .sum [b] [])]
        | r => (traverse cfg r).map (fun p => (Step.right :: p.1, p.2))))
/-- `chain.from_iterable([ct.traverse() for ct in self.composite_terms])`, positions counted from `i`. -/
def traverseL (cfg : Cfg) (i : Nat) : List KE → List (List Step × KE)
  | [] => []
  | k :: ks => (traverse cfg k).map (fun p => (Step.idx i :: p.1, p.2)) ++ traverseL cfg (i + 1) ks
end

/-- `new_tree_with_self_replaced` (`base.py:92-98`) seen from the root of the copied tree. The node at the
position is replaced by `new`: the root itself, or through `reassign_child` of its parent, which for sums
and products removes the first composite term equal to the old one and appends the new one
(`commutative_base.py:88-91`), and for change operators sets `left` if the old node *is* the left branch
and `right` otherwise (`change.py:71-74`); a temporary node is neither, so `right` is set. Positions that
do not exist leave the tree alone (they do not occur). -/
def replaceAt : KE → List Step → KE → KE
  | _, [], new => new
  | comm o b cs, [.idx i], new =>
    match cs[i]? with
    | some old => comm o b ((removeFirst (fun y => keq old y) cs).getD cs ++ [new])
    | none => comm o b cs
  | comm o b cs, .idx i :: p, new =>
    match cs[i]? with
    | some ct => comm o b (cs.set i (replaceAt ct p new))
    | none => comm o b cs
  | change c l r, .left :: p, new => change c (replaceAt l p new) r
  | change c l r, .right :: p, new => change c l (replaceAt r p new)
  | change c l _, [.vleft], new => change c l new
  | change c l _, [.vright], new => change c l new
  | k, _, _ => k

/-- `extract_if_singleton` returns the node itself, `commutative_base.py:52-55`, `change.py:35-36`. -/
def extractsSelf : KE → Bool
  | comm _ b cs => !((decide (b.total = 1) && cs.isEmpty) || (decide (b.total = 0) && decide (cs.length = 1)))
  | _ => true

/-- `standardise_singleton_root`, `grammar.py:10-14`, with `fuel` bounding the recursion depth (`none`:
not finished; that this never happens is C24). -/
def standardiseF (cfg : Cfg) : Nat → KE → Option KE
  | 0, _ => none
  | n + 1, k =>
    let s := simplify cfg k
    if extractsSelf s then some s
    else match extract s with
      | base b => some (mkL cfg .sum [b] [])
      | e => standardiseF cfg n e

/-- `standardise_singleton_root` with enough fuel (C24). -/
def standardise (cfg : Cfg) (k : KE) : KE := (standardiseF cfg (nodes' k + 1) k).getD k
where
  /-- Number of sum and product nodes on the way down single composite terms, a bound on the depth. -/
  nodes' : KE → Nat
    | base _ => 0
    | comm _ _ cs => nodesL' cs + 1
    | change _ l r => nodes' l + nodes' r
  /-- `nodes'` summed over a list. -/
  nodesL' : List KE → Nat
    | [] => 0
    | k :: ks => nodes' k + nodesL' ks

/-- The operator results at a node that a production rule yields, in order. A rule of the code is a
function from a node to lists of whole new trees (`deep_apply`, `grammar.py:23`); the model separates the
operator (`KE → List KE`) from the replacement in the tree, which `deep_apply` always does in the same way. -/
abbrev Rule := KE → List KE

/-- `expand_node`, `grammar.py:20`: the new nodes, without repetitions. -/
def expandNode (rules : List Rule) (S : KE) : List KE :=
  Util.unique keq (rules.flatMap (fun r => r S))

/-- `expand`, `grammar.py:16-20`. -/
def expand (cfg : Cfg) (rules : List Rule) (k : KE) : List KE :=
  Util.unique keq ((traverse cfg k).flatMap (fun pS =>
    (expandNode rules pS.2).map (fun new => standardise cfg (replaceAt k pS.1 new))))

/-! ## Production rules -/

/-- Iteration orders of the frozensets `base_kerns_for_prod` and `base_kerns_for_prod - {'C'}`
(`grammar.py:29, 34, 37`), which Python does not fix. -/
structure Orders where
  /-- `base_kerns_for_prod` -/
  all : List Base
  /-- `base_kerns_for_prod - {'C'}` -/
  noC : List Base

/-- `base_kerns`, `Kernels/baseKernels.py:11`. -/
def baseKerns : List Base := [.WN, .C, .LIN, .SE, .PER]

/-- `base_kerns_for_prod`, `grammar.py:29`, in one order. -/
def baseKernsForProd (cfg : Cfg) : List Base := if cfg.includeSE then baseKerns else baseKerns.filter (· ≠ .SE)

/-- An order of the sets is a permutation of their elements. -/
def Orders.OK (cfg : Cfg) (o : Orders) : Prop :=
  o.all.Perm (baseKernsForProd cfg) ∧ o.noC.Perm ((baseKernsForProd cfg).filter (· ≠ .C))

/-- The production rules, `grammar.py:31-71`. -/
inductive RuleName
  | plus_base | times_base | replace_base
  | change_new_base | change_same | change_window_constant | change_window_linear | change_point_linear
  | times_shifted_base | replace_with_singleton | remove_some_term | try_higher_curves
  deriving DecidableEq, Repr

/-- The operator part of every production rule, `grammar.py:31-71`. -/
def RuleName.rule (cfg : Cfg) (o : Orders) : RuleName → Rule
  | .plus_base => fun S => o.all.flatMap (fun B => add cfg S (base B))
  | .times_base => fun S => o.noC.flatMap (fun B => multiply cfg S (base B))
  | .replace_base => fun S => o.all.flatMap (fun B => swapBase cfg S B)
  | .change_new_base => fun S => o.noC.flatMap (fun B => bothChanges cfg S (some (base B)))
  | .change_same => fun S => bothChanges cfg S none
  | .change_window_constant => fun S => oneChange cfg S .CW (some (base .C))
  | .change_window_linear => fun S => oneChange cfg S .CW (some (base .LIN))
  | .change_point_linear => fun S => oneChange cfg S .CP (some (base .LIN))
  | .times_shifted_base => fun S => o.noC.flatMap (fun B => multiply cfg S (mkL cfg .sum [B, .C] []))
  | .replace_with_singleton => fun S => o.all.flatMap (fun B => replaceNode cfg S (mkL cfg .sum [B] []))
  | .remove_some_term => fun S => removeATerm cfg S
  | .try_higher_curves => fun S => higherCurves cfg S

/-- `production_rules['All']`, `grammar.py:76-94, 100`. -/
def rulesAll : List RuleName :=
  [.plus_base, .times_base, .replace_base, .change_new_base, .change_same, .change_point_linear,
   .change_window_constant, .change_window_linear, .times_shifted_base, .replace_with_singleton,
   .remove_some_term, .try_higher_curves]

/-- `production_rules['Original_ABCD']`, `grammar.py:101`. -/
def rulesOriginal : List RuleName :=
  [.plus_base, .times_base, .replace_base, .change_same, .change_window_constant, .times_shifted_base,
   .replace_with_singleton, .remove_some_term]

/-- `production_rules['Minimal']`, `grammar.py:102`. -/
def rulesMinimal : List RuleName := [.plus_base, .times_base, .replace_base, .change_same]

/-- `production_rules['Default']`, `grammar.py:103`. -/
def rulesDefault : List RuleName :=
  [.plus_base, .times_base, .replace_base, .change_point_linear, .change_window_linear, .times_shifted_base,
   .replace_with_singleton, .remove_some_term]

/-- Expansion with built-in rules. -/
def expandNamed (cfg : Cfg) (o : Orders) (rules : List RuleName) (k : KE) : List KE :=
  expand cfg (rules.map (RuleName.rule cfg o)) k

/-! ## Start kernels -/

/-- A start kernel given by the user: an expression, or a string, which may or may not name a base kernel. -/
inductive Pseudo
  | kex (k : KE)
  | name (b : Base)
  | unknown (s : String)

/-- `pseudo_to_real_kex`, `grammar.py:110-113`; `none` is `ValueError`. Names of sigmoids are not in
`base_kerns`. -/
def pseudoToReal (cfg : Cfg) : Pseudo → Option KE
  | .kex k => some k
  | .name b => if baseKerns.contains b then some (mkL cfg .sum [b] []) else none
  | .unknown _ => none

/-- `make_simple_kexs`, `grammar.py:114`: `_initialise` sets the links and simplifies. -/
def makeSimpleKexs (cfg : Cfg) : List Pseudo → Option (List KE)
  | [] => some []
  | p :: ps =>
    match pseudoToReal cfg p, makeSimpleKexs cfg ps with
    | some k, some ks => some (simplify cfg k :: ks)
    | _, _ => none

/-- The base kernels without SE, `grammar.py:120`, in an arbitrary order `bs`. -/
def startDefault (cfg : Cfg) (bs : List Base) : List Pseudo :=
  bs.map .name ++ [.kex (mkL cfg .prod [.LIN, .LIN] []), .kex (mkL cfg .prod [.LIN, .LIN, .LIN] []),
    .kex (mkL cfg .sum [.PER, .C] [])] ++ (bothChanges cfg (base .LIN) none).map .kex

/-- `start_kernels['Extended']`, `grammar.py:123-125`. -/
def startExtended (cfg : Cfg) (bs : List Base) : List Pseudo :=
  bs.map .name ++ [.kex (mkL cfg .prod [.LIN, .LIN] []), .kex (mkL cfg .prod [.LIN, .LIN, .LIN] []),
    .kex (mkL cfg .sum [.PER, .C] [])] ++ ((bothChanges cfg (base .LIN) none).map (fun ck => .kex (mkL cfg .sum [.C] [ck])))

/-- `start_kernels['Original_ABCD']`, `grammar.py:126`. -/
def startOriginal : List Pseudo := [.name .WN]

/-- The extra start kernel without the offset flag, `grammar.py:130-131`. -/
def startExtra (cfg : Cfg) : List Pseudo := if cfg.linOffset then [] else [.kex (mkL cfg .sum [.LIN, .C] [])]

end KE
end GPyABCD
