import Verif.Model.Grammar

/-!
# Parent and root links

The trees of `Verif.Model.KE` again, now with the identity of every node and its `root` and `parent` links, as
`/repo/GPy_ABCD/KernelExpressions/{base,commutative_base,change}.py` maintain them. A link is the identity of a node or `None`.
The functions below are those of `Verif.Model.KE` and `Verif.Model.Grammar` with the assignments to links put back;
`erase` forgets identities and links.

An expression is taken to be a tree: no node object occurs twice in it. (`SumKE([], [p, p])` with the same object twice makes a
graph that is not a tree, since `deepcopy` of the list keeps the sharing; such arguments are not modelled.)
-/

namespace GPyABCD
namespace Links
open KE

/-- A node with identity `i` and its links, or a bare string. -/
inductive LK
  | str (b : Base)
  | comm (i : Nat) (root parent : Option Nat) (op : Op) (bts : Counter) (cts : List LK)
  | change (i : Nat) (root parent : Option Nat) (c : CC) (l r : LK)
  deriving Repr, Inhabited

namespace LK

/-- The identity of a node; strings have none. -/
def id? : LK → Option Nat
  | str _ => none
  | comm i .. => some i
  | change i .. => some i

/-- `self.root` -/
def root : LK → Option Nat
  | str _ => none
  | comm _ r .. => r
  | change _ r .. => r

/-- `self.parent` -/
def parent : LK → Option Nat
  | str _ => none
  | comm _ _ p .. => p
  | change _ _ p .. => p

/-- `isinstance(x, str)` -/
def isStr : LK → Bool
  | str _ => true
  | _ => false

/-- `isinstance(ct, type(self))` -/
def isComm (op : Op) : LK → Bool
  | comm _ _ _ op' _ _ => decide (op' = op)
  | _ => false

mutual
/-- Forget identities and links. -/
def erase : LK → KE
  | str b => .base b
  | comm _ _ _ op bts cts => .comm op bts (eraseL cts)
  | change _ _ _ c l r => .change c (erase l) (erase r)
/-- In a list. -/
def eraseL : List LK → List KE
  | [] => []
  | k :: ks => erase k :: eraseL ks
end

/-- `set_parent`, `base.py:77-79`; strings have no such method and are left alone (the code never calls it on them). -/
def setParent (p : Option Nat) : LK → LK
  | str b => str b
  | comm i r _ op bts cts => comm i r p op bts cts
  | change i r _ c l r' => change i r p c l r'

mutual
/-- The recursion of `set_root` with an actual new root, `commutative_base.py:73-77`, `change.py:52-57`. -/
def setRootTo (x : Nat) : LK → LK
  | str b => str b
  | comm i _ p op bts cts => comm i (some x) p op bts (setRootToL x cts)
  | change i _ p c l r => change i (some x) p c (setRootTo x l) (setRootTo x r)
/-- In a list. -/
def setRootToL (x : Nat) : List LK → List LK
  | [] => []
  | k :: ks => setRootTo x k :: setRootToL x ks
end

/-- `set_root(new_root = None)`: `None` stands for the node itself, `commutative_base.py:73-77`, `change.py:52-57`. -/
def setRoot (x : Option Nat) : LK → LK
  | str b => str b
  | comm i r p op bts cts => setRootTo (x.getD i) (comm i r p op bts cts)
  | change i r p c l r' => setRootTo (x.getD i) (change i r p c l r')

mutual
/-- `_set_all_parents`, `commutative_base.py:79-83`, `change.py:59-66`. -/
def setAllParents : LK → LK
  | str b => str b
  | comm i r p op bts cts => comm i r p op bts (setAllParentsL i cts)
  | change i r p c l r' => change i r p c (setParent (some i) (setAllParents l)) (setParent (some i) (setAllParents r'))
/-- The loop over composite terms. -/
def setAllParentsL (i : Nat) : List LK → List LK
  | [] => []
  | k :: ks => setParent (some i) (setAllParents k) :: setAllParentsL i ks
end

mutual
/-- `_check_all_parents`, `commutative_base.py:85-86`, `change.py:68-69`: strings are skipped. -/
def checkAllParents : LK → Bool
  | str _ => true
  | comm i _ _ _ _ cts => checkAllParentsL i cts
  | change i _ _ _ l r => (l.isStr || decide (l.parent = some i) && checkAllParents l) && (r.isStr || decide (r.parent = some i) && checkAllParents r)
/-- Over the composite terms. -/
def checkAllParentsL (i : Nat) : List LK → Bool
  | [] => true
  | k :: ks => (decide (k.parent = some i) && checkAllParents k) && checkAllParentsL i ks
end

/-- `is_root`, `base.py:67-71`; `none` is `AssertionError`. -/
def isRoot : LK → Option Bool
  | str _ => some false
  | comm i r p .. => if r = some i then (if p = none then some true else none) else some false
  | change i r p .. => if r = some i then (if p = none then some true else none) else some false

/-- `extract_if_singleton`, `commutative_base.py:52-55`, `change.py:35-36`: the only composite term gets the parent of the node. -/
def extract : LK → LK
  | comm i r p op bts cts =>
    match bts.elements, cts with
    | b :: _, [] => if bts.total = 1 then str b else comm i r p op bts []
    | _, [ct] => if bts.total = 0 then setParent p ct else comm i r p op bts [ct]
    | _, cts => comm i r p op bts cts
  | k => k

/-- One iteration of the loop of `absorb_homogeneous_composites` on the node `i`, `commutative_base.py:59-64`: the composite
terms of the absorbed node get the parent `i`; `list.remove` compares with `__eq__`. -/
def absorbStep (cfg : Cfg) (op : Op) (i : Nat) (s : Counter × List LK) (hc : LK) : Counter × List LK :=
  match hc with
  | comm _ _ _ _ hb hcts =>
    let moved := hcts.map (setParent (some i))
    (simplifyBase cfg op (s.1.updateMap hb) s.2.length,
     ((removeFirst (fun y => keq hc.erase y.erase) (s.2 ++ moved)).getD (s.2 ++ moved)))
  | _ => s

/-- `absorb_homogeneous_composites`, `commutative_base.py:57-65`. -/
def absorbHomogeneous (cfg : Cfg) (op : Op) (i : Nat) (bts : Counter) (cts : List LK) : Counter × List LK :=
  (cts.filter (isComm op)).foldl (absorbStep cfg op i) (bts, cts)

/-- `absorb_singletons`, `commutative_base.py:44-47`. -/
def absorbSingletons (cfg : Cfg) (op : Op) (bts : Counter) (cts : List LK) : Counter × List LK :=
  let es := cts.map extract
  let names := es.filterMap (fun k => match k with | str b => some b | _ => none)
  let rest := es.filter (fun k => !k.isStr)
  (simplifyBase cfg op (bts.updateList names) rest.length, rest)

/-- `commutative_base.py:38` on a node whose composite terms are simplified. -/
def absorb (cfg : Cfg) (i : Nat) (r p : Option Nat) (op : Op) (bts : Counter) (cts : List LK) : LK :=
  let (b1, c1) := absorbHomogeneous cfg op i bts cts
  let (b2, c2) := absorbSingletons cfg op b1 c1
  comm i r p op (simplifyBase cfg op b2 c2.length) c2

mutual
/-- `simplify`, `commutative_base.py:36-38`, `change.py:30-33`: the node stays the same object. -/
def simplify (cfg : Cfg) : LK → LK
  | str b => str b
  | comm i r p op bts cts => absorb cfg i r p op bts (simplifyL cfg cts)
  | change i r p c l r' => change i r p c (extract (simplify cfg l)) (extract (simplify cfg r'))
/-- In a list. -/
def simplifyL (cfg : Cfg) : List LK → List LK
  | [] => []
  | k :: ks => simplify cfg k :: simplifyL cfg ks
end

/-- `_initialise`, `base.py:89-90`. -/
def initialise (cfg : Cfg) (k : LK) : LK := simplify cfg (setAllParents (setRoot none k))

mutual
/-- `deepcopy`: new identities, given by `f`, for the nodes and in the links; what is outside of the copied expression is copied too
but only reachable through the links. -/
def copy (f : Nat → Nat) : LK → LK
  | str b => str b
  | comm i r p op bts cts => comm (f i) (r.map f) (p.map f) op bts (copyL f cts)
  | change i r p c l r' => change (f i) (r.map f) (p.map f) c (copy f l) (copy f r')
/-- In a list. -/
def copyL (f : Nat → Nat) : List LK → List LK
  | [] => []
  | k :: ks => copy f k :: copyL f ks
end

/-- What the constructors do after `simplify`: `ct.set_parent(self).set_root(self.root)` for every child,
`commutative_base.py:19`, `change.py:18-19`. -/
def adopt : LK → LK
  | str b => str b
  | comm i r p op bts cts => comm i r p op bts (cts.map (fun ct => setRoot r (setParent (some i) ct)))
  | change i r p c l r' => change i r p c (setRoot r (setParent (some i) l)) (setRoot r (setParent (some i) r'))

/-- `SumKE(bts, cts)`, `ProductKE(bts, cts)` with the default `root` and `parent`, `commutative_base.py:12-19`; `i` is the new
object and `f` the copy of the composite terms. -/
def newComm (cfg : Cfg) (i : Nat) (f : Nat → Nat) (op : Op) (bts : Counter) (cts : List LK) : LK :=
  adopt (simplify cfg (comm i none none op bts (copyL f cts)))

/-- `ChangeKE(c, l, r)`, `change.py:12-19`. -/
def newChange (cfg : Cfg) (i : Nat) (f g : Nat → Nat) (c : CC) (l r : LK) : LK :=
  adopt (simplify cfg (change i none none c (copy f l) (copy g r)))

/-- `reassign_child`, `commutative_base.py:88-91`, `change.py:71-74`: sums and products remove the first term equal to the old
one, change operators compare identities. -/
def reassign (old new : LK) : LK → LK
  | str b => str b
  | comm i r p op bts cts => comm i r p op bts ((removeFirst (fun y => keq old.erase y.erase) cts).getD cts ++ [new])
  | change i r p c l r' =>
    if l.id? = old.id? ∧ l.id? ≠ none then change i r p c new r' else change i r p c l new

mutual
/-- The tree after the node with identity `x` has been changed by `f`. -/
def update (x : Nat) (f : LK → LK) : LK → LK
  | str b => str b
  | comm i r p op bts cts => if i = x then f (comm i r p op bts cts) else comm i r p op bts (updateL x f cts)
  | change i r p c l r' => if i = x then f (change i r p c l r') else change i r p c (update x f l) (update x f r')
/-- In a list. -/
def updateL (x : Nat) (f : LK → LK) : List LK → List LK
  | [] => []
  | k :: ks => update x f k :: updateL x f ks
end

/-- `new_tree_with_self_replaced(replacement)` of the node `s` in the tree `t`, followed by `.root` (`base.py:92-98`,
`grammar.py:16`), on the copies: `none` is the `AssertionError` of `is_root`, or `None.reassign_child`. The new node gets the
parent of the old one and the root link of the old one, and the parent, found through the link, replaces its child. -/
def newTree (t s new : LK) : Option LK :=
  match s.isRoot with
  | none => none
  | some true => some (setRoot none (setParent none new))
  | some false =>
    match s.parent with
    | none => none
    | some x => some (update x (reassign s (setRoot s.root (setParent (some x) new))) t)

/-- `standardise_singleton_root`, `grammar.py:10-14`; `i` is the identity of the new node made for a string. -/
def standardiseF (cfg : Cfg) (i : Nat) : Nat → LK → Option LK
  | 0, _ => none
  | n + 1, k =>
    let s := simplify cfg k
    if extractsSelf s.erase then some s
    else match extract s with
      | str b => some (setRoot none (newComm cfg i (fun n => n) .sum (Counter.ofList [b]) []))
      | e => standardiseF cfg i n (setRoot none (setParent none e))

/-- The temporary node `SumKE([branch]).set_root(self.root).set_parent(self)` for a string branch of the change operator `i`,
`change.py:41-42`; `n` is its identity. -/
def temps (cfg : Cfg) (i : Nat) (rt : Option Nat) (n : Nat) (st : Step) : LK → List (List Step × LK)
  | str b => [([st], setParent (some i) (setRoot rt (newComm cfg n (fun n => n) .sum (Counter.ofList [b]) [])))]
  | _ => []

mutual
/-- `traverse`, with the temporary nodes for string branches, which take their identities from `fresh` (`commutative_base.py:67-68`,
`change.py:38-43`). The positions are not in the code; they are those of `Verif.Model.Grammar`. -/
def traverse (cfg : Cfg) (fresh : Nat → Bool → Nat) : LK → List (List Step × LK)
  | str _ => []
  | comm i r p op bts cts => ([], comm i r p op bts cts) :: traverseL cfg fresh 0 cts
  | change i rt p c l r =>
    ([], change i rt p c l r) ::
      ((temps cfg i rt (fresh i false) .vleft l ++ (traverse cfg fresh l).map (fun q => (Step.left :: q.1, q.2))) ++
       (temps cfg i rt (fresh i true) .vright r ++ (traverse cfg fresh r).map (fun q => (Step.right :: q.1, q.2))))
/-- Over the composite terms. -/
def traverseL (cfg : Cfg) (fresh : Nat → Bool → Nat) (j : Nat) : List LK → List (List Step × LK)
  | [] => []
  | k :: ks => (traverse cfg fresh k).map (fun q => (Step.idx j :: q.1, q.2)) ++ traverseL cfg fresh (j + 1) ks
end

end LK
end Links
end GPyABCD
