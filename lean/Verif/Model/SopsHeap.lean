import Verif.Model.Sops

/-!
# The sum-of-products form with parameter dictionaries and lists as Python objects

`Model/Sops.lean` treats the dictionaries in `parameters` and the lists holding them as values. In the code they are objects: components share the
dictionaries of sigmoids and of the product they come from, and dictionaries and lists are changed in place (`del ps['variance']`,
`['variance'] *= …`, `.append(ps)`, `del self.parameters[bt][0]`). Here every one has an address in a store.

Simplifications:
* the list around the dictionary of a `'ProductKE'` entry, and the lists around the parameters of a change operator and of a bare string branch, are left
  out: the code never changes them after `match_up_fit_parameters`;
* the position of the `'ProductKE'` entry among the other keys, parent and root links: as in `Model/Sops.lean`;
* nodes are values: those changed in place (`self.composite_terms.clear()`, `new_bases_with_parameters` on a component) are not referred to elsewhere;
* `parameters` itself is a value: every node has its own (`base.py:27`, `_new_parameters` only adds to it).
-/

namespace GPyABCD
namespace Sops

variable {α : Type}

/-- Dictionaries and lists of dictionaries by address; those in use have addresses below `nd` and `nl`. -/
structure Store (α : Type) where
  /-- dictionaries -/
  d : Nat → PD α
  /-- number of dictionaries -/
  nd : Nat
  /-- lists of (addresses of) dictionaries -/
  l : Nat → List Nat
  /-- number of lists -/
  nl : Nat

namespace Store

/-- Change a dictionary in place. -/
def setD (s : Store α) (r : Nat) (p : PD α) : Store α := { s with d := fun i => if i = r then p else s.d i }

/-- Change a list in place. -/
def setL (s : Store α) (r : Nat) (x : List Nat) : Store α := { s with l := fun i => if i = r then x else s.l i }

/-- A new dictionary, at address `nd`. -/
def newD (s : Store α) (p : PD α) : Store α := { s with d := fun i => if i = s.nd then p else s.d i, nd := s.nd + 1 }

/-- A new list, at address `nl`. -/
def newL (s : Store α) (x : List Nat) : Store α := { s with l := fun i => if i = s.nl then x else s.l i, nl := s.nl + 1 }

/-- `deepcopy`: everything is copied once, with the same sharing among the copies; the copy of what is at address `r` is at `nd + r` (`nl + r`). More is
copied than the code does, which nothing refers to. -/
def dup (s : Store α) : Store α :=
  { d := fun i => if i < s.nd then s.d i else s.d (i - s.nd), nd := s.nd + s.nd,
    l := fun i => if i < s.nl then s.l i else (s.l (i - s.nl)).map (s.nd + ·), nl := s.nl + s.nl }

end Store

/-- `self.parameters`: the address of one list per base kernel name. -/
abbrev HDict := List (Base × Nat)

namespace HDict

/-- `d[b]` if `b in d`. -/
def find : HDict → Base → Option Nat
  | [], _ => none
  | (k, v) :: r, b => if k = b then some v else find r b

/-- `d[b] = l`. -/
def put : HDict → Base → Nat → HDict
  | [], b, l => [(b, l)]
  | (k, v) :: r, b, l => if k = b then (k, l) :: r else (k, v) :: put r b l

/-- `d.pop(b)` / `del d[b]`. -/
def del (d : HDict) (b : Base) : HDict := d.filter (fun e => decide (e.1 ≠ b))

end HDict

/-- A fitted kernel expression with addresses for its dictionaries and lists. -/
inductive HKE
  | leaf (b : Base) (p : Nat)
  | comm (op : Op) (bts : Counter) (ps : HDict) (pv : Option Nat) (cts : List HKE)
  | change (c : CC) (p : Nat) (l r : HKE)
  deriving Repr, Inhabited

/-- A `ProductKE` without composite terms; `pv` is the address of `parameters['ProductKE'][0]`. -/
structure HProd where
  /-- `base_terms` -/
  bts : Counter
  /-- `parameters` but `'ProductKE'` -/
  ps : HDict
  /-- `parameters['ProductKE'][0]` -/
  pv : Option Nat
  deriving Repr, DecidableEq

/-- As an expression. -/
def HProd.ke (n : HProd) : HKE := .comm .prod n.bts n.ps n.pv []

/-- `ProductKE([])`. -/
def HProd.empty : HProd := ⟨[], [], none⟩

/-- An entry of a parameter dictionary: a base kernel name, or `'ProductKE'` (`none`), and the address of a dictionary. -/
abbrev HItem := Option Base × Nat

/-- `[(key, p) for key, ps in list(kex.parameters.items()) for p in ps]`, `commutatives.py:134`. -/
def itemsH (s : Store α) (ps : HDict) (pv : Option Nat) : List HItem :=
  ps.flatMap (fun e => (s.l e.2).map (fun p => (some e.1, p))) ++ pv.toList.map (fun v => (none, v))

/-- `self.parameters[b].append(p)`; a missing entry is a new list (`defaultdict`). -/
def appendH (s : Store α) (n : HDict) (b : Base) (p : Nat) : Store α × HDict :=
  match n.find b with
  | some a => (s.setL a (s.l a ++ [p]), n)
  | none => (s.newL [p], n.put b s.nl)

section
variable [Mul α] [One α] (comb : α → α → α)

/-- `self.parameters['ProductKE'][0]['variance'] *= v`, `commutatives.py:122`. -/
def timesH (s : Store α) (pv : Option Nat) (v : α) : Store α :=
  match pv with
  | some a => s.setD a { s.d a with variance := (s.d a).variance.map (· * v) }
  | none => s

/-- The body of the loop of `new_bases_with_parameters`, `commutatives.py:120-126`. -/
def addItemH (s : Store α) (n : HProd) : HItem → Except SErr (Store α × HProd)
  | (some b, p) =>
    match (s.d p).variance with
    | some v =>
      let s := timesH s n.pv v
      let s := s.setD p (s.d p).noVar
      let (s, ps) := appendH s n.ps b p
      .ok (s, ⟨n.bts.put b (n.bts.get b + 1), ps, n.pv⟩)
    | none =>
      let (s, ps) := appendH s n.ps b p
      .ok (s, ⟨n.bts.put b (n.bts.get b + 1), ps, n.pv⟩)
  | (none, p) =>
    match (s.d p).variance with
    | some v => .ok (timesH s n.pv v, n)
    | none => .error .unmodelled

/-- The loop. -/
def addItemsH (s : Store α) (n : HProd) : List HItem → Except SErr (Store α × HProd)
  | [] => .ok (s, n)
  | i :: is => do
    let (s, n) ← addItemH s n i
    addItemsH s n is

/-- `commutatives.py:93-95`. -/
def dropWNH (ps : HDict) : HDict :=
  if (ps.find .WN).isSome then ps.filter (fun e => decide (e.1 = .WN) || e.1.isSigmoid) else ps

/-- `commutatives.py:96-98`. -/
def dropCH (s : Store α) (c : Counter) (ps : HDict) : Store α × HDict :=
  match ps.find .C with
  | none => (s, ps)
  | some a =>
    if !c.has .C then (s, ps.del .C)
    else if (s.l a).length > 1 then ((s.newD {}).newL [s.nd], ps.put .C s.nl)
    else (s, ps)

/-- `commutatives.py:99-100`. -/
def mergeSEH (s : Store α) (ps : HDict) : Except SErr (Store α × HDict) :=
  match ps.find .SE with
  | none => .ok (s, ps)
  | some a =>
    if (s.l a).length > 1 then do
      let ls ← lengthscales ((s.l a).map s.d)
      match ls with
      | [] => .error .index
      | x :: xs => return ((s.newD { lengthscale := some (xs.foldl comb x) }).newL [s.nd], ps.put .SE s.nl)
    else .ok (s, ps)

/-- `ProductKE.simplify_base_terms_params`, `commutatives.py:92-101`. -/
def simplifyParamsH (s : Store α) (c : Counter) (ps : HDict) : Except SErr (Store α × HDict) :=
  let (s, ps) := dropCH s c (dropWNH ps)
  mergeSEH comb s ps

/-- `new_bases_with_parameters`, `commutatives.py:117-129`, on a product without composite terms. -/
def newBasesH (s : Store α) (n : HProd) (l : List HItem) : Except SErr (Store α × HProd) := do
  let (s, n) := match n.pv with
    | some _ => (s, n)
    | none => (s.newD { variance := some 1 }, { n with pv := some s.nd })
  let (s, m) ← addItemsH s n l
  let c := KE.simplifyBaseProd m.bts 0
  let (s, ps) ← simplifyParamsH comb s c m.ps
  return (s, ⟨c, ps, m.pv⟩)

/-- `assert` of `commutatives.py:133`. -/
def asProdsH : List HKE → Except SErr (List HProd)
  | [] => .ok []
  | .comm .prod bts ps pv [] :: ks => do
    let r ← asProdsH ks
    return ⟨bts, ps, pv⟩ :: r
  | _ :: _ => .error .assertion

/-- `multiply_pure_prods_with_params(k0, ks)`, `commutatives.py:131-134`. -/
def multiplyPureH (s : Store α) (ps : HDict) (pv : Option Nat) (ks : List HKE) : Except SErr (Store α × HKE) := do
  let ns ← asProdsH ks
  let (s, r) ← newBasesH comb s HProd.empty (itemsH s ps pv ++ ns.flatMap (fun n => itemsH s n.ps n.pv))
  return (s, r.ke)

/-- The addresses of a copy made by `Store.dup`; `nd` and `nl` are the sizes of the store before. -/
def HProd.shift (nd nl : Nat) (n : HProd) : HProd := ⟨n.bts, n.ps.map (fun e => (e.1, nl + e.2)), n.pv.map (nd + ·)⟩

mutual
/-- The same for an expression. -/
def HKE.shift (nd nl : Nat) : HKE → HKE
  | .leaf b p => .leaf b (nd + p)
  | .comm op bts ps pv cts => .comm op bts (ps.map (fun e => (e.1, nl + e.2))) (pv.map (nd + ·)) (HKE.shiftL nd nl cts)
  | .change c p l r => .change c (nd + p) (HKE.shift nd nl l) (HKE.shift nd nl r)
/-- In a list. -/
def HKE.shiftL (nd nl : Nat) : List HKE → List HKE
  | [] => []
  | k :: ks => HKE.shift nd nl k :: HKE.shiftL nd nl ks
end

/-- `[deepcopy(nct) for nct in new_composite_terms]` of `new_composite`, `commutative_base.py:113`: one copy after the other. -/
def copyEach (s : Store α) : List HKE → Store α × List HKE
  | [] => (s, [])
  | k :: ks =>
    let (s', ks') := copyEach s.dup ks
    (s', HKE.shift s.nd s.nl k :: ks')

/-- Loop `commutatives.py:42-49`: the terms of nested sums are copied (`new_composite`). -/
def collectH (s : Store α) : List HKE → Except SErr (Store α × List HKE)
  | [] => .ok (s, [])
  | .comm .sum bts _ _ cts :: ks =>
    let (s1, cts') := copyEach s cts
    do
    let (s2, r) ← collectH s1 ks
    if bts.total = 0 then return (s2, cts' ++ r) else .error .assertion
  | k :: ks => do
    let (s1, r) ← collectH s ks
    return (s1, k :: r)

/-- Loop `commutatives.py:51-55`: the last dictionary of an entry goes with the entry, others are deleted from the list in place. -/
def moveBasesH (s : Store α) (bts : Counter) (ps : HDict) (acc : List HKE) :
    List Base → Except SErr (Store α × Counter × HDict × List HKE)
  | [] => .ok (s, bts, ps, acc)
  | b :: bs =>
    match ps.find b with
    | none => .error .index
    | some a =>
      match s.l a with
      | [] => .error .index
      | p :: rest => do
        let (s, n) ← newBasesH comb s HProd.empty [(some b, p)]
        if rest.isEmpty then moveBasesH s (bts.put b (bts.get b - 1)) (ps.del b) (n.ke :: acc) bs
        else moveBasesH (s.setL a rest) (bts.put b (bts.get b - 1)) ps (n.ke :: acc) bs

/-- `isinstance(ct, ProductKE)`. -/
def isProdH : HKE → Bool
  | .comm .prod _ _ _ _ => true
  | _ => false

/-- The composite terms of a `SumKE`. -/
def sumTermsH : HKE → Option (List HKE)
  | .comm .sum _ _ _ cts => some cts
  | _ => none

/-- `pt.new_bases_with_parameters(sigmoid_parameters)` for every term of a sum, `change.py:129`. -/
def addSigH (s : Store α) (g : HItem) : List HKE → Except SErr (Store α × List HKE)
  | [] => .ok (s, [])
  | .comm .prod bts ps pv [] :: ks => do
    let (s, n) ← newBasesH comb s ⟨bts, ps, pv⟩ [g]
    let (s, r) ← addSigH s g ks
    return (s, n.ke :: r)
  | _ :: _ => .error .unmodelled

/-- `SumKE([], cts)` (`commutative_base.py:12-19`) called by `add_sum_of_prods_terms`: the terms are copied together. -/
def sumCtorH (cfg : Cfg) (s : Store α) (cts : List HKE) : Except SErr (Store α × HKE) := do
  let ns ← asProdsH cts
  let ns := ns.map (fun n => HProd.shift s.nd s.nl { n with bts := reSimp n.bts })
  let names := (ns.filter (fun n => decide (n.bts.total = 1))).flatMap (fun n => n.bts.elements)
  let rest := ns.filter (fun n => decide (n.bts.total ≠ 1))
  return (s.dup, .comm .sum (KE.simplifyBaseSum cfg (KE.simplifyBaseSum cfg (Counter.ofList names))) [] none (rest.map HProd.ke))

/-- The terms of one child in `add_sum_of_prods_terms`, `change.py:106-115`. -/
def childTermsH : HKE → Except SErr (List HKE)
  | .comm .sum [] [] none cts => .ok cts
  | .comm .prod bts ps pv cts => .ok [.comm .prod bts ps pv cts]
  | _ => .error .unmodelled

/-- `add_sum_of_prods_terms(k1, k2)`, `change.py:106-115`. -/
def addSumsH (cfg : Cfg) (s : Store α) (k1 k2 : HKE) : Except SErr (Store α × HKE) := do
  let a ← childTermsH k1
  let b ← childTermsH k2
  sumCtorH cfg s (a ++ b)

/-- `isinstance(kex, str)` of a branch. -/
def asLeafH : HKE → Option (Base × Nat)
  | .leaf b p => some (b, p)
  | _ => none

/-- One branch of a change operator once its own form is known, `change.py:121-136`. -/
def branchH (s : Store α) (g : HItem) (k : HKE) (rec : Except SErr (Store α × HKE)) : Except SErr (Store α × HKE) :=
  match asLeafH k with
  | some (b, p) => do
    let (s, n) ← newBasesH comb s HProd.empty [(some b, p), g]
    return (s, n.ke)
  | none => do
    let (s, n) ← rec
    match n with
    | .comm .sum [] [] none cts => do
      let (s, cts') ← addSigH comb s g cts
      return (s, .comm .sum [] [] none cts')
    | _ => .error .unmodelled

/-- Every element is a sum: their term lists, `commutatives.py:144-145`. -/
def allSumsH : List HKE → Except SErr (List (List HKE))
  | [] => .ok []
  | k :: ks =>
    match sumTermsH k with
    | none => .error .assertion
    | some l => do
      let r ← allSumsH ks
      return l :: r

/-- `[self.multiply_pure_prods_with_params(self, list(t)) for t in sets_of_factors]`, `commutatives.py:146`. -/
def multiplyAllH (s : Store α) (ps : HDict) (pv : Option Nat) : List (List HKE) → Except SErr (Store α × List HKE)
  | [] => .ok (s, [])
  | t :: ts => do
    let (s, k) ← multiplyPureH comb s ps pv t
    let (s, r) ← multiplyAllH s ps pv ts
    return (s, k :: r)

/-- `SumKE.sum_of_prods_form` after the recursive calls, `commutatives.py:40-60`. -/
def sumFormH (s : Store α) (bts : Counter) (ps : HDict) (pv : Option Nat) (cts : List HKE) : Except SErr (Store α × HKE) := do
  let (s, acc) ← collectH s cts
  let (s, bts, ps, acc) ← moveBasesH comb s bts ps acc bts.elements
  if bts.total = 0 ∧ ps = [] ∧ pv = none then
    if acc.all isProdH then return (s, .comm .sum bts.pos [] none acc) else .error .assertion
  else .error .assertion

/-- `ProductKE.sum_of_prods_form` after the recursive calls when there are composite terms, `commutatives.py:142-147`. -/
def prodFormH (s : Store α) (ps : HDict) (pv : Option Nat) (cts : List HKE) : Except SErr (Store α × HKE) := do
  let ls ← allSumsH cts
  let (s, r) ← multiplyAllH comb s ps pv (cart ls)
  return (s, .comm .sum [] [] none r)

mutual
/-- `sum_of_prods_form`: `commutatives.py:38-60, 136-147`, `change.py:117-137`. -/
def sopsH (cfg : Cfg) (s : Store α) : HKE → Except SErr (Store α × HKE)
  | .leaf _ _ => .error .unmodelled
  | .comm .sum bts ps pv cts =>
    if ps = [] ∧ pv = none then .error .assertion else do
    let (s, cts') ← sopsHL cfg s cts
    sumFormH comb s bts ps pv cts'
  | .comm .prod bts ps pv cts =>
    if ps = [] ∧ pv = none then .error .assertion else
    match cts with
    | [] => .ok (s, .comm .sum [] [] none [.comm .prod (reSimp bts) ps pv []])
    | k :: ks => do
      let (s, cts') ← sopsHL cfg s (k :: ks)
      prodFormH comb s ps pv cts'
  | .change c p l r => do
    let (s, l') ← branchH comb s (some (sigL c), p) l (sopsH cfg s l)
    let (s, r') ← branchH comb s (some (sigR c), p) r (sopsH cfg s r)
    addSumsH cfg s l' r'
/-- The recursive calls, one after the other. -/
def sopsHL (cfg : Cfg) (s : Store α) : List HKE → Except SErr (Store α × List HKE)
  | [] => .ok (s, [])
  | k :: ks => do
    let (s, k') ← sopsH cfg s k
    let (s, ks') ← sopsHL cfg s ks
    return (s, k' :: ks')
end

end

/-! ## What a caller sees -/

/-- The dictionaries of a list. -/
def rdL (s : Store α) (a : Nat) : List (PD α) := (s.l a).map s.d

/-- `parameters` as a value. -/
def rdPs (s : Store α) (ps : HDict) : PDict α := ps.map (fun e => (e.1, rdL s e.2))

/-- The variance of a `'ProductKE'` entry. -/
def rdPv (s : Store α) (pv : Option Nat) : Option α := pv.bind (fun a => (s.d a).variance)

/-- A product as a value. -/
def rdP (s : Store α) (n : HProd) : Prod α := ⟨n.bts, rdPs s n.ps, rdPv s n.pv⟩

mutual
/-- An expression as a value. -/
def rd (s : Store α) : HKE → PKE α
  | .leaf b p => .leaf b (s.d p)
  | .comm op bts ps pv cts => .comm op bts (rdPs s ps) (rdPv s pv) (rdAll s cts)
  | .change c p l r => .change c (s.d p) (rd s l) (rd s r)
/-- A list of expressions. -/
def rdAll (s : Store α) : List HKE → List (PKE α)
  | [] => []
  | k :: ks => rd s k :: rdAll s ks
end

mutual
/-- The addresses of the dictionaries of an expression, with repetitions. -/
def dicts (s : Store α) : HKE → List Nat
  | .leaf _ p => [p]
  | .comm _ _ ps pv cts => ps.flatMap (fun e => s.l e.2) ++ pv.toList ++ dictsL s cts
  | .change _ p l r => p :: (dicts s l ++ dicts s r)
/-- Of a list of expressions. -/
def dictsL (s : Store α) : List HKE → List Nat
  | [] => []
  | k :: ks => dicts s k ++ dictsL s ks
end

mutual
/-- The addresses of the lists of an expression, with repetitions. -/
def lists : HKE → List Nat
  | .leaf _ _ => []
  | .comm _ _ ps _ cts => ps.map (fun e => e.2) ++ listsL cts
  | .change _ _ l r => lists l ++ lists r
/-- Of a list of expressions. -/
def listsL : List HKE → List Nat
  | [] => []
  | k :: ks => lists k ++ listsL ks
end

end Sops
end GPyABCD
