import Verif.Model.Grammar

/-!
# Expressions as objects

`/repo/GPy_ABCD/KernelExpressions/{base,commutative_base,change}.py`, `kernelExpressionOperations.py` and `grammar.py` once more, now as
programs that read and write objects in a store: who shares what with whom, and what a call leaves behind in the objects that were there
before it, is visible here and not in `Verif.Model.KE` (values) or `Verif.Model.Links` (trees with identities).

* An object has an address; composite terms, branches and the `root` and `parent` links are addresses. Nothing keeps the store from
  containing shared or even cyclic structure.
* A program takes a store and returns a value or an exception, and the store as it then is: also an exception leaves a store.
* Recursion over the objects is cut off after as many levels as there are objects: only cyclic structure gets there, and Python raises
  `RecursionError` for it too. (Python's own limit of 1000 levels, which deep trees reach, is not modelled.)
* `base_terms` and `composite_terms` are values in their object: no two objects share a `Counter` or a list, since every place that sets one
  of them sets it to a new one (`commutative_base.py:14-15, 37, 45`, `commutatives.py:23, 81`). `parameters` are empty throughout.
* `deepcopy` copies everything reachable from its argument, through parts and links, and keeps the sharing inside it.
-/

namespace GPyABCD
namespace Objects
open KE

/-- A string or the address of an object. -/
inductive Ref
  | str (b : Base)
  | obj (a : Nat)
  deriving DecidableEq, Repr, Inhabited

/-- An object: `SumKE` or `ProductKE` (`commutative_base.py:12-19`), or `ChangeKE` (`change.py:12-19`). -/
inductive Obj
  | comm (root parent : Option Nat) (op : Op) (bts : Counter) (cts : List Nat)
  | change (root parent : Option Nat) (c : CC) (l r : Ref)
  deriving DecidableEq, Repr, Inhabited

/-- The store: the object at address `a` is `h[a]?`. -/
abbrev Heap := List Obj

/-- Exceptions: `RecursionError`, `AttributeError`, `AssertionError`, `ValueError`. -/
inductive Err | recursion | attribute | assertion | value
  deriving DecidableEq, Repr

/-- A program. -/
def M (α : Type) := Heap → Except Err α × Heap

instance : Monad M where
  pure x := fun h => (.ok x, h)
  bind m f := fun h =>
    match m h with
    | (.ok x, h') => f x h'
    | (.error e, h') => (.error e, h')

/-- `raise` -/
def raise {α : Type} (e : Err) : M α := fun h => (.error e, h)

/-- The object at an address. -/
def look (a : Nat) : M Obj := fun h =>
  match h[a]? with
  | some o => (.ok o, h)
  | none => (.error .attribute, h)

/-- Change an object in place. -/
def edit (a : Nat) (f : Obj → Obj) : M Unit := fun h =>
  match h[a]? with
  | some o => (.ok (), h.set a (f o))
  | none => (.error .attribute, h)

/-- A new object. -/
def alloc (o : Obj) : M Nat := fun h => (.ok h.length, h ++ [o])

/-- A value computed from the store without changing it; `none` is `RecursionError`. -/
def ask {α : Type} (f : Heap → Option α) : M α := fun h =>
  match f h with
  | some x => (.ok x, h)
  | none => (.error .recursion, h)

/-- Recursion over objects, cut off after as many levels as there are objects. -/
def levels {α : Type} (f : Nat → M α) : M α := fun h => f (h.length + 1) h

/-- `for x in xs: f(x)` -/
def each {β : Type} (f : β → M Unit) : List β → M Unit
  | [] => pure ()
  | x :: xs => do f x; each f xs

/-- `[f(x) for x in xs]` -/
def collect {β γ : Type} (f : β → M γ) : List β → M (List γ)
  | [] => pure []
  | x :: xs => do
    let y ← f x
    let ys ← collect f xs
    pure (y :: ys)

namespace Ref

/-- The same object in a copy, which is at the address given by `f`. -/
def copy (f : Nat → Nat) : Ref → Ref
  | str b => str b
  | obj a => obj (f a)

/-- The object, if it is not a string. -/
def addrs : Ref → List Nat
  | str _ => []
  | obj a => [a]

end Ref

namespace Obj

/-- `self.root` -/
def root : Obj → Option Nat
  | comm r .. => r
  | change r .. => r

/-- `self.parent` -/
def parent : Obj → Option Nat
  | comm _ p .. => p
  | change _ p .. => p

/-- `self.root = x` -/
def withRoot (x : Option Nat) : Obj → Obj
  | comm _ p op bts cts => comm x p op bts cts
  | change _ p c l r => change x p c l r

/-- `self.parent = x` -/
def withParent (x : Option Nat) : Obj → Obj
  | comm r _ op bts cts => comm r x op bts cts
  | change r _ c l r' => change r x c l r'

/-- `self.base_terms = f(self.base_terms)`; `f` also sees the kind and the number of composite terms. -/
def withBts (f : Op → Counter → Nat → Counter) : Obj → Obj
  | comm r p op bts cts => comm r p op (f op bts cts.length) cts
  | o => o

/-- `self.composite_terms = f(self.composite_terms)` -/
def withCts (f : List Nat → List Nat) : Obj → Obj
  | comm r p op bts cts => comm r p op bts (f cts)
  | o => o

/-- `self.left = x` -/
def withLeft (x : Ref) : Obj → Obj
  | change r p c _ r' => change r p c x r'
  | o => o

/-- `self.right = x` -/
def withRight (x : Ref) : Obj → Obj
  | change r p c l _ => change r p c l x
  | o => o

/-- `self.composite_terms` -/
def cts : Obj → List Nat
  | comm _ _ _ _ cts => cts
  | _ => []

/-- `isinstance(ct, type(self))` -/
def isComm (op : Op) : Obj → Bool
  | comm _ _ op' _ _ => decide (op' = op)
  | _ => false

/-- The copy of an object. -/
def copy (f : Nat → Nat) : Obj → Obj
  | comm r p op bts cts => comm (r.map f) (p.map f) op bts (cts.map f)
  | change r p c l r' => change (r.map f) (p.map f) c (l.copy f) (r'.copy f)

/-- Every object this one refers to. -/
def refs : Obj → List Nat
  | comm r p _ _ cts => r.toList ++ p.toList ++ cts
  | change r p _ l r' => r.toList ++ p.toList ++ l.addrs ++ r'.addrs

end Obj

/-- The objects reachable from those to do and not yet done, in the order in which they are found. The first argument bounds the number of
steps. -/
def reachable (h : Heap) : Nat → List Nat → List Nat → Option (List Nat)
  | _, [], done => some done
  | 0, _ :: _, _ => none
  | n + 1, a :: todo, done =>
    if a ∈ done then reachable h n todo done
    else match h[a]? with
      | none => none
      | some o => reachable h n (o.refs ++ todo) (done ++ [a])

/-- `deepcopy` of some objects in one call: the copies are put behind the store, and the returned function says where. -/
def deepcopy (roots : List Nat) : M (Nat → Nat) := fun h =>
  match reachable h (roots.length + (h.map (fun o => o.refs.length)).sum) roots [] with
  | none => (.error .attribute, h)
  | some l =>
    let f := fun a => h.length + l.idxOf a
    (.ok f, h ++ l.filterMap (fun a => h[a]?.map (Obj.copy f)))

/-! ## Equality -/

/-- `ys.remove(x)` with the test `p`; the outer `none` is `RecursionError` in the test, the inner one is `ValueError`. -/
def dropFirst {β : Type} (p : β → Option Bool) : List β → Option (Option (List β))
  | [] => some none
  | y :: ys =>
    match p y with
    | none => none
    | some true => some (some ys)
    | some false => (dropFirst p ys).map (fun r => r.map (y :: ·))

/-- `eq_elems(xs, ys)`, `genericUtil.py:100-105`. -/
def elemsEq {β : Type} (eq : β → β → Option Bool) : List β → List β → Option Bool
  | [], ys => some ys.isEmpty
  | x :: xs, ys =>
    match dropFirst (fun y => eq x y) ys with
    | none => none
    | some none => some false
    | some (some ys') => elemsEq eq xs ys'

/-- `and` of two tests, the second only when the first is true. -/
def andThen (x : Option Bool) (y : Unit → Option Bool) : Option Bool :=
  match x with
  | some true => y ()
  | r => r

/-- `x is y or x == y`: `SumOrProductKE.__eq__` (`commutative_base.py:29-30`), `ChangeKE.__eq__` (`change.py:27-28`), strings. -/
def eqF (h : Heap) : Nat → Ref → Ref → Option Bool
  | 0, _, _ => none
  | n + 1, x, y =>
    match x, y with
    | .str a, .str b => some (decide (a = b))
    | .obj a, .obj b =>
      match h[a]?, h[b]? with
      | some (.comm _ _ o c cs), some (.comm _ _ o' c' cs') =>
        if o = o' ∧ c.eq c' = true then elemsEq (fun u v => eqF h n (.obj u) (.obj v)) cs cs' else some false
      | some (.change _ _ c l r), some (.change _ _ c' l' r') =>
        if c = c' then andThen (eqF h n l l') (fun _ => eqF h n r r') else some false
      | some _, some _ => some false
      | _, _ => none
    | _, _ => some false

/-- `x is y or x == y` in a store. -/
def eqR (h : Heap) (x y : Ref) : Option Bool := eqF h (h.length + 1) x y

/-- `x is y or x == y` of objects. -/
def eqO (h : Heap) (a b : Nat) : Option Bool := eqR h (.obj a) (.obj b)

/-- `unique(xs)`, `genericUtil.py:94-96`. -/
def uniqueF {β : Type} (eq : β → β → Option Bool) (seen : List β) : List β → Option (List β)
  | [] => some []
  | x :: xs =>
    match dropFirst (fun z => eq x z) seen with
    | none => none
    | some (some _) => uniqueF eq seen xs
    | some none => (uniqueF eq (seen ++ [x]) xs).map (x :: ·)

/-- `unique` of objects. -/
def uniqueM (xs : List Nat) : M (List Nat) := ask (fun h => uniqueF (eqO h) [] xs)

/-! ## Methods -/

/-- `set_parent`, `base.py:77-79`. -/
def setParent (a : Nat) (p : Option Nat) : M Unit := edit a (Obj.withParent p)

/-- A method call on a branch, if it is not a string. -/
def onRef (f : Nat → M Unit) : Ref → M Unit
  | .str _ => pure ()
  | .obj a => f a

/-- `set_root(x)`, `commutative_base.py:73-77`, `change.py:52-57`. -/
def setRootTo (x : Nat) : Nat → Nat → M Unit
  | 0, _ => raise .recursion
  | n + 1, a => do
    edit a (Obj.withRoot (some x))
    match ← look a with
    | .comm _ _ _ _ cts => each (setRootTo x n) cts
    | .change _ _ _ l r => do
      onRef (setRootTo x n) l
      onRef (setRootTo x n) r

/-- `set_root(new_root = None)`. -/
def setRoot (a : Nat) (x : Option Nat) : M Unit := levels (fun n => setRootTo (x.getD a) n a)

/-- `_set_all_parents`, `commutative_base.py:79-83`, `change.py:59-66`. -/
def setAllParentsF : Nat → Nat → M Unit
  | 0, _ => raise .recursion
  | n + 1, a => do
    let child (ct : Nat) : M Unit := do
      setParent ct (some a)
      setAllParentsF n ct
    match ← look a with
    | .comm _ _ _ _ cts => each child cts
    | .change _ _ _ l r => do
      onRef child l
      onRef child r

/-- `extract_if_singleton`, `commutative_base.py:52-55`, `change.py:35-36`. -/
def extract (a : Nat) : M Ref := do
  match ← look a with
  | .comm _ p _ bts cts =>
    match bts.elements, cts with
    | b :: _, [] => if bts.total = 1 then pure (.str b) else pure (.obj a)
    | _, [ct] =>
      if bts.total = 0 then do
        setParent ct p
        pure (.obj ct)
      else pure (.obj a)
    | _, _ => pure (.obj a)
  | .change .. => pure (.obj a)

/-- `simplify_base_terms`, `commutatives.py:15-24, 71-82`. -/
def simplifyBaseTerms (cfg : Cfg) (a : Nat) : M Unit := edit a (Obj.withBts (simplifyBase cfg))

/-- One iteration of the loop of `absorb_homogeneous_composites`, `commutative_base.py:59-64`. -/
def absorbOne (cfg : Cfg) (a hc : Nat) : M Unit := do
  match ← look hc with
  | .change .. => raise .attribute
  | .comm _ _ _ hb _ => do
    edit a (Obj.withBts (fun _ b _ => b.updateMap hb))
    simplifyBaseTerms cfg a
    let o ← look hc
    each (fun ct => setParent ct (some a)) o.cts
    edit a (Obj.withCts (fun cts => cts ++ o.cts))
    let s ← look a
    match ← ask (fun h => dropFirst (fun y => eqO h hc y) s.cts) with
    | none => raise .value
    | some cts => edit a (Obj.withCts (fun _ => cts))

/-- `absorb_homogeneous_composites`, `commutative_base.py:57-65`. -/
def absorbHomogeneous (cfg : Cfg) (a : Nat) (op : Op) : M Unit := do
  let s ← look a
  let os ← collect (fun ct => do
    let o ← look ct
    pure (ct, o.isComm op)) s.cts
  each (absorbOne cfg a) ((os.filter (fun q => q.2)).map Prod.fst)

/-- `absorb_singletons`, `commutative_base.py:44-47`, with `partition` (`genericUtil.py:50-54`) and `new_base` (`commutative_base.py:93-99`). -/
def absorbSingletons (cfg : Cfg) (a : Nat) : M Unit := do
  let s ← look a
  let es ← collect extract s.cts
  let names := es.filterMap (fun e => match e with | .str b => some b | .obj _ => none)
  let rest := es.filterMap (fun e => match e with | .str _ => none | .obj c => some c)
  edit a (Obj.withCts (fun _ => rest))
  edit a (Obj.withBts (fun _ b _ => b.updateList names))
  simplifyBaseTerms cfg a

/-- `simplify`, `commutative_base.py:36-38`, `change.py:30-33`. -/
def simplifyF (cfg : Cfg) : Nat → Nat → M Unit
  | 0, _ => raise .recursion
  | n + 1, a => do
    match ← look a with
    | .comm _ _ op _ cts => do
      each (simplifyF cfg n) cts
      edit a (Obj.withCts (fun _ => cts))
      absorbHomogeneous cfg a op
      absorbSingletons cfg a
      simplifyBaseTerms cfg a
    | .change _ _ _ l _ => do
      onRef (fun b => do
        simplifyF cfg n b
        let e ← extract b
        edit a (Obj.withLeft e)) l
      match ← look a with
      | .comm .. => pure ()
      | .change _ _ _ _ r =>
        onRef (fun b => do
          simplifyF cfg n b
          let e ← extract b
          edit a (Obj.withRight e)) r

/-- `self.simplify()` -/
def simplify (cfg : Cfg) (a : Nat) : M Unit := levels (fun n => simplifyF cfg n a)

/-- `_initialise`, `base.py:89-90`. -/
def initialise (cfg : Cfg) (a : Nat) : M Nat := do
  setRoot a none
  levels (fun n => setAllParentsF n a)
  simplify cfg a
  pure a

/-- `SumKE(bts, cts)`, `ProductKE(bts, cts)` with the default `root` and `parent`, `commutative_base.py:12-19`. -/
def newComm (cfg : Cfg) (op : Op) (bts : Counter) (cts : List Nat) : M Nat := do
  let a ← alloc (.comm none none op bts [])
  let f ← deepcopy cts
  edit a (Obj.withCts (fun _ => cts.map f))
  simplify cfg a
  let o ← look a
  each (fun ct => do
    setParent ct (some a)
    let s ← look a
    setRoot ct s.root) o.cts
  pure a

/-- `SumKE(names, cts)`, `ProductKE(names, cts)`: the constructor with a list of names, `commutative_base.py:14`. -/
def newList (cfg : Cfg) (op : Op) (names : List Base) (cts : List Nat) : M Nat := newComm cfg op (Counter.ofList names) cts

/-- `ChangeKE(c, l, r)`, `change.py:12-19`; before they are set, the branches are arbitrary strings. -/
def newChange (cfg : Cfg) (c : CC) (l r : Ref) : M Nat := do
  let a ← alloc (.change none none c (.str .C) (.str .C))
  let f ← deepcopy l.addrs
  edit a (Obj.withLeft (l.copy f))
  let g ← deepcopy r.addrs
  edit a (Obj.withRight (r.copy g))
  simplify cfg a
  let adopt (ct : Nat) : M Unit := do
    setParent ct (some a)
    let s ← look a
    setRoot ct s.root
  match ← look a with
  | .comm .. => pure a
  | .change _ _ _ l' r' => do
    onRef adopt l'
    onRef adopt r'
    pure a

/-- `reassign_child`, `commutative_base.py:88-91`, `change.py:71-74`. -/
def reassignChild (a old new : Nat) : M Nat := do
  match ← look a with
  | .comm _ _ _ _ cts =>
    match ← ask (fun h => dropFirst (fun y => eqO h old y) cts) with
    | none => raise .value
    | some cts' => do
      edit a (Obj.withCts (fun _ => cts' ++ [new]))
      pure new
  | .change _ _ _ l _ =>
    if l = .obj old then do
      edit a (Obj.withLeft (.obj new))
      pure new
    else do
      edit a (Obj.withRight (.obj new))
      pure new

/-- `is_root`, `base.py:67-71`. -/
def isRoot (a : Nat) : M Bool := do
  let o ← look a
  if o.root = some a then
    if o.parent = none then pure true else raise .assertion
  else pure false

/-- `new_tree_with_self_replaced`, `base.py:92-98`: the new node in the new tree. -/
def newTree (a new : Nat) : M Nat := do
  let f ← deepcopy [new, a]
  if ← isRoot (f a) then do
    setParent (f new) none
    setRoot (f new) none
    pure (f new)
  else do
    let s ← look (f a)
    setParent (f new) s.parent
    setRoot (f new) s.root
    let o ← look (f new)
    match o.parent with
    | none => raise .attribute
    | some p => reassignChild p (f a) (f new)

/-- `SumKE([branch]).set_root(self.root).set_parent(self)` or `branch.traverse()`, `change.py:41-42`. -/
def traverseRef (cfg : Cfg) (a : Nat) (rt : Option Nat) (f : Nat → M (List Nat)) : Ref → M (List Nat)
  | .obj b => f b
  | .str b => do
    let t ← newList cfg .sum [b] []
    setRoot t rt
    setParent t (some a)
    pure [t]

/-- `traverse`, `commutative_base.py:67-68`, `change.py:38-43`. -/
def traverseF (cfg : Cfg) : Nat → Nat → M (List Nat)
  | 0, _ => raise .recursion
  | n + 1, a => do
    match ← look a with
    | .comm _ _ _ _ cts => do
      let ts ← collect (traverseF cfg n) cts
      pure (a :: ts.flatten)
    | .change rt _ _ l r => do
      let x ← traverseRef cfg a rt (traverseF cfg n) l
      let y ← traverseRef cfg a rt (traverseF cfg n) r
      pure (a :: (x ++ y))

/-- `k_expr.traverse()` -/
def traverse (cfg : Cfg) (a : Nat) : M (List Nat) := levels (fun n => traverseF cfg n a)

/-! ## Operators -/

/-- An operand with what is read of it: a string, or an object with its address. -/
inductive Arg
  | str (b : Base)
  | comm (a : Nat) (op : Op) (bts : Counter) (cts : List Nat)
  | change (a : Nat) (c : CC) (l r : Ref)

/-- Read an operand. -/
def readArg : Ref → M Arg
  | .str b => pure (.str b)
  | .obj a => do
    match ← look a with
    | .comm _ _ op bts cts => pure (.comm a op bts cts)
    | .change _ _ c l r => pure (.change a c l r)

/-- The nested results of `add` and `multiply`, `kernelExpressionOperations.py:40, 70`: in the other kind of node, the string with every
base term in turn. -/
def nested (cfg : Cfg) (op op' : Op) (s : Base) (bts : Counter) (cts : List Nat) : M (List Nat) :=
  collect (fun bt => do
    let t ← newList cfg op [s, bt] []
    newComm cfg op' (bts.pos.sub (Counter.ofList [bt])) (cts ++ [t])) bts.elements

/-- `add(k1, k2)`, `kernelExpressionOperations.py:20-49`, and `multiply(k1, k2)`, lines 52-81: these are the same program with the two
kinds exchanged; `op` is the kind of the operation and `op'` the other one. The order of the operands matters only where both are put
into a list. -/
def combine (cfg : Cfg) (op op' : Op) (k1 k2 : Ref) : M (List Nat) := do
  let x ← readArg k1
  let y ← readArg k2
  match x, y with
  | .str a, .str b => do
    let r ← newList cfg op [a, b] []
    pure [r]
  | .str s, .comm a o bts cts => strComm s a o bts cts
  | .comm a o bts cts, .str s => strComm s a o bts cts
  | .str s, .change a .. => do
    let r ← newList cfg op [s] [a]
    pure [r]
  | .change a .., .str s => do
    let r ← newList cfg op [s] [a]
    pure [r]
  | .comm a o b c, .comm a' o' b' c' =>
    if o = op then
      if o' = op then do
        let r ← newComm cfg op (b.pos.add b') (c ++ c')
        pure [r]
      else do
        let r ← newComm cfg op b.pos (c ++ [a'])
        pure [r]
    else
      if o' = op then do
        let r ← newComm cfg op b'.pos (c' ++ [a])
        pure [r]
      else do
        let r ← newList cfg op [] [a, a']
        pure [r]
  | .comm a o b c, .change a' .. =>
    if o = op then do
      let r ← newComm cfg op b.pos (c ++ [a'])
      pure [r]
    else do
      let r ← newList cfg op [] [a, a']
      pure [r]
  | .change a .., .comm a' o b c =>
    if o = op then do
      let r ← newComm cfg op b.pos (c ++ [a])
      pure [r]
    else do
      let r ← newList cfg op [] [a, a']
      pure [r]
  | .change a .., .change a' .. => do
    let r ← newList cfg op [] [a, a']
    pure [r]
where
  /-- A string with a sum or product, `kernelExpressionOperations.py:35-40, 67-72`. -/
  strComm (s : Base) (a : Nat) (o : Op) (bts : Counter) (cts : List Nat) : M (List Nat) :=
    if o = op then do
      let r ← newComm cfg op (bts.pos.add (Counter.ofList [s])) cts
      pure [r]
    else do
      let r ← newList cfg op [s] [a]
      let rs ← nested cfg op op' s bts cts
      pure (r :: rs)

/-- `add(k1, k2)`, `kernelExpressionOperations.py:20-49`. -/
def add (cfg : Cfg) (k1 k2 : Ref) : M (List Nat) := combine cfg .sum .prod k1 k2

/-- `multiply(k1, k2)`, `kernelExpressionOperations.py:52-81`. -/
def multiply (cfg : Cfg) (k1 k2 : Ref) : M (List Nat) := combine cfg .prod .sum k1 k2

/-- `isinstance(x, str) and x != B`. -/
def otherStr (x : Ref) (B : Base) : Bool :=
  match x with
  | .str b => decide (b ≠ B)
  | .obj _ => false

/-- A list with one result if the condition holds. -/
def onlyIf (c : Bool) (m : M Nat) : M (List Nat) :=
  if c then do
    let r ← m
    pure [r]
  else pure []

/-- `swap_base(S, B)` of a node, `kernelExpressionOperations.py:84-93`. -/
def swapBase (cfg : Cfg) (S : Nat) (B : Base) : M (List Nat) := do
  match ← look S with
  | .comm _ _ op b c => collect (fun p => newComm cfg op (b.pos.add (swapDict p.1 B)) c) b.pos
  | .change _ _ x l r => do
    let xs ← onlyIf (otherStr l B) (newChange cfg x (.str B) r)
    let ys ← onlyIf (otherStr r B) (newChange cfg x l (.str B))
    pure (xs ++ ys)

/-- The loop body of `one_change` and `both_changes`, `kernelExpressionOperations.py:96-106`. -/
def changesOf (cfg : Cfg) (S : Ref) (x : CC) (S2 : Option Ref) : M (List Nat) := do
  let same ← ask (fun h => match S2 with | none => some true | some k => eqR h k S)
  match S2, same with
  | some k, false => do
    let u ← newChange cfg x S k
    let v ← newChange cfg x k S
    pure [u, v]
  | _, _ => do
    let r ← newChange cfg x S S
    pure [r]

/-- `one_change(S, CP_or_CW, S2)`, `kernelExpressionOperations.py:96-98`. -/
def oneChange (cfg : Cfg) (S : Ref) (x : CC) (S2 : Option Ref) : M (List Nat) := changesOf cfg S x S2

/-- `both_changes(S, S2)`, `kernelExpressionOperations.py:101-106`. -/
def bothChanges (cfg : Cfg) (S : Ref) (S2 : Option Ref) : M (List Nat) := do
  let u ← changesOf cfg S .CP S2
  let v ← changesOf cfg S .CW S2
  pure (u ++ v)

/-- `SumKE([x]) if isinstance(x, str) else x`, `kernelExpressionOperations.py:110, 120`. -/
def asNode (cfg : Cfg) : Ref → M Nat
  | .str b => newList cfg .sum [b] []
  | .obj a => pure a

/-- `replace_node(S, S2)`, `kernelExpressionOperations.py:109-110`. -/
def replaceNode (cfg : Cfg) (S2 : Ref) : M (List Nat) := do
  let r ← asNode cfg S2
  pure [r]

/-- `remove_a_term(S)` of a node, `kernelExpressionOperations.py:113-124`. -/
def removeATerm (cfg : Cfg) (S : Nat) : M (List Nat) := do
  match ← look S with
  | .comm _ _ op b c =>
    if b.total + (c.length : Int) > 1 then do
      let xs ← collect (fun p => newComm cfg op (b.pos.add [(p.1, -1)]) c) b.pos
      let ys ← collect (fun i => newComm cfg op b.pos (c.take i ++ c.drop (i + 1))) (List.range c.length)
      pure (xs ++ ys)
    else pure []
  | .change _ _ _ l r => do
    let x ← asNode cfg l
    let y ← asNode cfg r
    pure [x, y]

/-- `for r in res: del r.base_terms['SE']`, `kernelExpressionOperations.py:134, 139`. -/
def delSE (c : Bool) (rs : List Nat) : M Unit :=
  if c then each (fun r => edit r (Obj.withBts (fun _ b _ => b.del .SE))) rs else pure ()

/-- `higher_curves(S)` of a node, `kernelExpressionOperations.py:127-145`. -/
def higherCurves (cfg : Cfg) (S : Nat) : M (List Nat) := do
  let k2 ← newList cfg .prod [.LIN, .LIN] []
  let k3 ← newList cfg .prod [.LIN, .LIN, .LIN] []
  match ← look S with
  | .comm _ _ .sum b c => do
    let rs ← collect (fun ct => newComm cfg .sum b.pos (c ++ [ct])) [k2, k3]
    delSE (b.pos.has .SE) rs
    pure rs
  | .comm _ _ .prod b c => do
    let rs ← collect (fun bts => newComm cfg .prod (b.pos.add bts) c)
      [[(Base.LIN, (2 : Int))], [(Base.LIN, 3)], if b.pos.has .PER then [(Base.PER, 1)] else [(Base.PER, 2)]]
    delSE (b.pos.has .SE) rs
    pure rs
  | .change _ _ x l r => do
    let xs ← (match l with
      | .str _ => collect (fun ct => newChange cfg x (.obj ct) r) [k2, k3]
      | .obj _ => pure [])
    let ys ← (match r with
      | .str _ => collect (fun ct => newChange cfg x l (.obj ct)) [k2, k3]
      | .obj _ => pure [])
    pure (xs ++ ys)

/-! ## Expansion -/

/-- `standardise_singleton_root`, `grammar.py:10-14`. -/
def standardiseF (cfg : Cfg) : Nat → Nat → M Nat
  | 0, _ => raise .recursion
  | m + 1, a => do
    simplify cfg a
    let e ← extract a
    match e with
    | .str b => do
      let t ← newList cfg .sum [b] []
      setRoot t none
      pure t
    | .obj c =>
      if c = a then pure a
      else do
        setParent c none
        setRoot c none
        standardiseF cfg m c

/-- `standardise_singleton_root(kex.root)`, `grammar.py:16`. -/
def rootOf (cfg : Cfg) (a : Nat) : M Nat := do
  let o ← look a
  match o.root with
  | none => raise .attribute
  | some x => levels (fun n => standardiseF cfg n x)

/-- `deep_apply(operator, S, *args)`, `grammar.py:23`. -/
def deepApply (op : M (List Nat)) (S : Nat) : M (List Nat) := do
  let news ← op
  collect (newTree S) news

/-- The loop over base kernels of a production rule. -/
def forBases (bs : List Base) (f : Base → M (List Nat)) : M (List Nat) := do
  let r ← collect f bs
  pure r.flatten

/-- The production rules, `grammar.py:31-71`, with the results in one list. -/
def ruleOf (cfg : Cfg) (o : Orders) (S : Nat) : RuleName → M (List Nat)
  | .plus_base => forBases o.all (fun B => deepApply (add cfg (.obj S) (.str B)) S)
  | .times_base => forBases o.noC (fun B => deepApply (multiply cfg (.obj S) (.str B)) S)
  | .replace_base => forBases o.all (fun B => deepApply (swapBase cfg S B) S)
  | .change_new_base => forBases o.noC (fun B => deepApply (bothChanges cfg (.obj S) (some (.str B))) S)
  | .change_same => deepApply (bothChanges cfg (.obj S) none) S
  | .change_window_constant => deepApply (oneChange cfg (.obj S) .CW (some (.str .C))) S
  | .change_window_linear => deepApply (oneChange cfg (.obj S) .CW (some (.str .LIN))) S
  | .change_point_linear => deepApply (oneChange cfg (.obj S) .CP (some (.str .LIN))) S
  | .times_shifted_base => forBases o.noC (fun B => do
      let t ← newList cfg .sum [B, .C] []
      deepApply (multiply cfg (.obj S) (.obj t)) S)
  | .replace_with_singleton => forBases o.all (fun B => do
      let t ← newList cfg .sum [B] []
      deepApply (replaceNode cfg (.obj t)) S)
  | .remove_some_term => deepApply (removeATerm cfg S) S
  | .try_higher_curves => deepApply (higherCurves cfg S) S

/-- `expand_node`, `grammar.py:20`. -/
def expandNode (cfg : Cfg) (o : Orders) (rules : List RuleName) (S : Nat) : M (List Nat) := do
  let rs ← collect (ruleOf cfg o S) rules
  uniqueM rs.flatten

/-- `expand`, `grammar.py:16-20`. -/
def expand (cfg : Cfg) (o : Orders) (rules : List RuleName) (a : Nat) : M (List Nat) := do
  let ts ← traverse cfg a
  let rs ← collect (expandNode cfg o rules) ts
  let roots ← collect (rootOf cfg) rs.flatten
  uniqueM roots

/-! ## Start kernels -/

/-- A start kernel given by the user: an expression object, or a string, which may or may not name a base kernel. -/
inductive Given
  | kex (a : Nat)
  | name (b : Base)
  | unknown (s : String)

/-- `pseudo_to_real_kex`, `grammar.py:110-113`: an expression object is used as it is. Names of sigmoids are not in `base_kerns`. -/
def pseudoToReal (cfg : Cfg) : Given → M Nat
  | .kex a => pure a
  | .name b => if baseKerns.contains b then newList cfg .sum [b] [] else raise .value
  | .unknown _ => raise .value

/-- `make_simple_kexs`, `grammar.py:114`. -/
def makeSimpleKexs (cfg : Cfg) : List Given → M (List Nat) :=
  collect (fun p => do
    let a ← pseudoToReal cfg p
    initialise cfg a)

end Objects
end GPyABCD
