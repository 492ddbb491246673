import Verif.Model.KE

/-!
# Fitted expressions and the sum-of-products form

Models `sum_of_prods_form` and the functions it calls in
`/repo/GPy_ABCD/KernelExpressions/{commutatives,change}.py`.

Simplifications:
* the `'ProductKE'` entry of a parameter dictionary (a list of one dictionary holding one variance) is the separate field `pv`;
  its position among the other keys is lost, which only permutes a product of variances;
* parent and root links are left out;
* dictionaries and lists are values; `Model/SopsHeap.lean` has them as objects with the sharing and the changes in place of the code, and C94 proves
  that the results are the same.
-/

namespace GPyABCD
namespace Sops

/-- The dictionary of the parameters of one term; an absent key is `none`. -/
structure PD (α : Type) where
  /-- `'variance'` -/
  variance : Option α := none
  /-- `'lengthscale'` -/
  lengthscale : Option α := none
  /-- `'period'` -/
  period : Option α := none
  /-- `'offset'` -/
  offset : Option α := none
  /-- `'location'` -/
  location : Option α := none
  /-- `'slope'` -/
  slope : Option α := none
  /-- `'width'` -/
  width : Option α := none
  deriving DecidableEq, Repr, Inhabited

variable {α : Type}

/-- `del ps['variance']`. -/
def PD.noVar (p : PD α) : PD α := { p with variance := none }

/-- `self.parameters` (`base.py:27`, a `defaultdict(list)`): insertion ordered, one list per base kernel name. -/
abbrev PDict (α : Type) := List (Base × List (PD α))

namespace PDict

/-- `d[b]`, the empty list if absent. -/
def get : PDict α → Base → List (PD α)
  | [], _ => []
  | (k, v) :: r, b => if k = b then v else get r b

/-- `b in d`. -/
def has : PDict α → Base → Bool
  | [], _ => false
  | (k, _) :: r, b => if k = b then true else has r b

/-- `d[b] = l`. -/
def put : PDict α → Base → List (PD α) → PDict α
  | [], b, l => [(b, l)]
  | (k, v) :: r, b, l => if k = b then (k, l) :: r else (k, v) :: put r b l

/-- `d[b].append(p)`. -/
def append (d : PDict α) (b : Base) (p : PD α) : PDict α := d.put b (d.get b ++ [p])

/-- `d.pop(b)` / `del d[b]`. -/
def del (d : PDict α) (b : Base) : PDict α := d.filter (fun e => decide (e.1 ≠ b))

end PDict

/-- A fitted kernel expression. A bare string branch of a change operator is `leaf`; its parameters, which the code keeps in
`parameters[(branch, name)]` of the operator (`change.py:102`), are kept with it. -/
inductive PKE (α : Type)
  | leaf (b : Base) (p : PD α)
  | comm (op : Op) (bts : Counter) (ps : PDict α) (pv : Option α) (cts : List (PKE α))
  | change (c : CC) (p : PD α) (l r : PKE α)
  deriving Repr, Inhabited

/-- How the code can fail. `unmodelled`: a branch the model leaves out; proved unreachable. -/
inductive SErr | assertion | index | key | unmodelled
  deriving DecidableEq, Repr

/-- A `ProductKE` without composite terms. -/
structure Prod (α : Type) where
  /-- `base_terms` -/
  bts : Counter
  /-- `parameters` but `'ProductKE'` -/
  ps : PDict α
  /-- `parameters['ProductKE'][0]['variance']` -/
  pv : Option α
  deriving Repr, DecidableEq

/-- As an expression. -/
def Prod.ke (n : Prod α) : PKE α := .comm .prod n.bts n.ps n.pv []

/-- `ProductKE([])`. -/
def Prod.empty : Prod α := ⟨[], [], none⟩

/-- An entry of a parameter dictionary: a base kernel name, or `'ProductKE'` (`none`), and a dictionary. -/
abbrev Item (α : Type) := Option Base × PD α

/-- `[(key, p) for key, ps in list(kex.parameters.items()) for p in ps]`, `commutatives.py:134`. -/
def items (ps : PDict α) (pv : Option α) : List (Item α) :=
  ps.flatMap (fun e => e.2.map (fun p => (some e.1, p))) ++ pv.toList.map (fun v => (none, { variance := some v }))

section
variable [Mul α] [One α] (comb : α → α → α)

/-- The body of the loop of `new_bases_with_parameters`, `commutatives.py:120-126`; the product already has its
`'ProductKE'` entry. -/
def addItem (n : Prod α) : Item α → Except SErr (Prod α)
  | (some b, p) =>
    match p.variance with
    | some v => .ok ⟨n.bts.put b (n.bts.get b + 1), n.ps.append b p.noVar, n.pv.map (· * v)⟩
    | none => .ok ⟨n.bts.put b (n.bts.get b + 1), n.ps.append b p, n.pv⟩
  | (none, p) =>
    match p.variance with
    | some v => .ok ⟨n.bts, n.ps, n.pv.map (· * v)⟩
    | none => .error .unmodelled

/-- The loop. -/
def addItems (n : Prod α) : List (Item α) → Except SErr (Prod α)
  | [] => .ok n
  | i :: is => do
    let n' ← addItem n i
    addItems n' is

/-- `[ps['lengthscale'] for ps in l]`. -/
def lengthscales : List (PD α) → Except SErr (List α)
  | [] => .ok []
  | p :: ps =>
    match p.lengthscale with
    | none => .error .key
    | some x => do
      let xs ← lengthscales ps
      return x :: xs

/-- First block of `simplify_base_terms_params`, `commutatives.py:93-95`. -/
def dropWN (ps : PDict α) : PDict α :=
  if ps.has .WN then ps.filter (fun e => decide (e.1 = .WN) || e.1.isSigmoid) else ps

/-- Second block, `commutatives.py:96-98`; `c` are the base terms. -/
def dropC (c : Counter) (ps : PDict α) : PDict α :=
  if ps.has .C then
    if !c.has .C then ps.del .C
    else if (ps.get .C).length > 1 then ps.put .C [{}]
    else ps
  else ps

/-- Third block, `commutatives.py:99-100`; `comb` is the formula `(acc + l) / sqrt(acc ** 2 + l ** 2)`. -/
def mergeSE (ps : PDict α) : Except SErr (PDict α) :=
  if ps.has .SE && decide ((ps.get .SE).length > 1) then do
    let ls ← lengthscales (ps.get .SE)
    match ls with
    | [] => .error .index
    | x :: xs => return ps.put .SE [{ lengthscale := some (xs.foldl comb x) }]
  else .ok ps

/-- `ProductKE.simplify_base_terms_params`, `commutatives.py:92-101`. -/
def simplifyParams (c : Counter) (ps : PDict α) : Except SErr (PDict α) := mergeSE comb (dropC c (dropWN ps))

/-- `new_bases_with_parameters`, `commutatives.py:117-129`, on a product without composite terms. -/
def newBases (n : Prod α) (l : List (Item α)) : Except SErr (Prod α) := do
  let m ← addItems { n with pv := some (n.pv.getD 1) } l
  let c := KE.simplifyBaseProd m.bts 0
  let ps ← simplifyParams comb c m.ps
  return ⟨c, ps, m.pv⟩

/-- `simplify()` of a product without composite terms (`commutative_base.py:36-38, 44-47`): its base terms are simplified twice. -/
def reSimp (c : Counter) : Counter := KE.simplifyBaseProd (KE.simplifyBaseProd c 0) 0

/-- The composite terms as products without composite terms; `assert` of `commutatives.py:133`. -/
def asProds : List (PKE α) → Except SErr (List (Prod α))
  | [] => .ok []
  | .comm .prod bts ps pv [] :: ks => do
    let r ← asProds ks
    return ⟨bts, ps, pv⟩ :: r
  | _ :: _ => .error .assertion

/-- `multiply_pure_prods_with_params(k0, ks)`, `commutatives.py:131-134`. -/
def multiplyPure (ps : PDict α) (pv : Option α) (ks : List (PKE α)) : Except SErr (PKE α) := do
  let ns ← asProds ks
  let r ← newBases comb Prod.empty (items ps pv ++ ns.flatMap (fun n => items n.ps n.pv))
  return r.ke

/-- `itertools.product(*ls)`. -/
def cart {β : Type} : List (List β) → List (List β)
  | [] => [[]]
  | l :: ls => l.flatMap (fun x => (cart ls).map (x :: ·))

/-- Loop `commutatives.py:42-49`: the terms of the nested sums, `assert` of line 44. -/
def collect : List (PKE α) → Except SErr (List (PKE α))
  | [] => .ok []
  | .comm .sum bts _ _ cts :: ks => do
    let r ← collect ks
    if bts.total = 0 then return cts ++ r else .error .assertion
  | k :: ks => do
    let r ← collect ks
    return k :: r

/-- Loop `commutatives.py:51-55`: base terms become products put in front; `self.parameters[bt][0]` may be `IndexError`. -/
def moveBases (bts : Counter) (ps : PDict α) (acc : List (PKE α)) : List Base → Except SErr (Counter × PDict α × List (PKE α))
  | [] => .ok (bts, ps, acc)
  | b :: bs =>
    match ps.get b with
    | [] => .error .index
    | p :: rest => do
      let n ← newBases comb Prod.empty [(some b, p)]
      moveBases (bts.put b (bts.get b - 1)) (if rest.isEmpty then ps.del b else ps.put b rest) (n.ke :: acc) bs

/-- `isinstance(ct, ProductKE)`. -/
def isProd : PKE α → Bool
  | .comm .prod _ _ _ _ => true
  | _ => false

/-- The composite terms of a `SumKE`, `none` for anything else (`assert` of `commutatives.py:144`). -/
def sumTerms : PKE α → Option (List (PKE α))
  | .comm .sum _ _ _ cts => some cts
  | _ => none

/-- `change_k_sigmoid_names`, `kernelOperations.py:18`, left branch. -/
def sigL : CC → Base
  | .CP => .Sr
  | .CW => .SIr

/-- `change_k_sigmoid_names`, right branch. -/
def sigR : CC → Base
  | .CP => .S
  | .CW => .SI

/-- `pt.new_bases_with_parameters(sigmoid_parameters)` for every term of a sum, `change.py:129`. -/
def addSig (s : Item α) : List (PKE α) → Except SErr (List (PKE α))
  | [] => .ok []
  | .comm .prod bts ps pv [] :: ks => do
    let n ← newBases comb ⟨bts, ps, pv⟩ [s]
    let r ← addSig s ks
    return n.ke :: r
  | _ :: _ => .error .unmodelled

/-- The constructor `SumKE([], cts)` (`commutative_base.py:12-19`) called by `add_sum_of_prods_terms` on products without
composite terms: every product is simplified, and one left with a single base term becomes a base term of the sum, losing its
parameters (`absorb_singletons`, `commutative_base.py:44-47`). -/
def sumCtor (cfg : Cfg) (cts : List (PKE α)) : Except SErr (PKE α) := do
  let ns ← asProds cts
  let ns := ns.map (fun n => { n with bts := reSimp n.bts })
  let names := (ns.filter (fun n => decide (n.bts.total = 1))).flatMap (fun n => n.bts.elements)
  let rest := ns.filter (fun n => decide (n.bts.total ≠ 1))
  return .comm .sum (KE.simplifyBaseSum cfg (KE.simplifyBaseSum cfg (Counter.ofList names))) [] none (rest.map Prod.ke)

/-- The terms of one child in `add_sum_of_prods_terms`, `change.py:106-115`: a product is itself, a sum its terms. Sums with
base terms or parameters do not occur. -/
def childTerms : PKE α → Except SErr (List (PKE α))
  | .comm .sum [] [] none cts => .ok cts
  | .comm .prod bts ps pv cts => .ok [.comm .prod bts ps pv cts]
  | _ => .error .unmodelled

/-- `add_sum_of_prods_terms(k1, k2)`, `change.py:106-115`: in all four cases a sum of the terms of both, in order. -/
def addSums (cfg : Cfg) (k1 k2 : PKE α) : Except SErr (PKE α) := do
  let a ← childTerms k1
  let b ← childTerms k2
  sumCtor cfg (a ++ b)

/-- `isinstance(kex, str)` of a branch. -/
def asLeaf : PKE α → Option (Base × PD α)
  | .leaf b p => some (b, p)
  | _ => none

/-- One branch of a change operator once its own form is known, `change.py:121-136`. -/
def branch (s : Item α) (k : PKE α) (rec : Except SErr (PKE α)) : Except SErr (PKE α) :=
  match asLeaf k with
  | some (b, p) => Prod.ke <$> newBases comb Prod.empty [(some b, p), s]
  | none => do
    let n ← rec
    match n with
    | .comm .sum [] [] none cts => do
      let cts' ← addSig comb s cts
      return .comm .sum [] [] none cts'
    | _ => .error .unmodelled

/-- Every element is a sum: their term lists. -/
def allSums : List (PKE α) → Except SErr (List (List (PKE α)))
  | [] => .ok []
  | k :: ks =>
    match sumTerms k with
    | none => .error .assertion
    | some l => do
      let r ← allSums ks
      return l :: r

/-- `[self.multiply_pure_prods_with_params(self, list(t)) for t in sets_of_factors]`, `commutatives.py:146`. -/
def multiplyAll (ps : PDict α) (pv : Option α) : List (List (PKE α)) → Except SErr (List (PKE α))
  | [] => .ok []
  | t :: ts => do
    let k ← multiplyPure comb ps pv t
    let r ← multiplyAll ps pv ts
    return k :: r

/-- `SumKE.sum_of_prods_form` after the recursive calls, `commutatives.py:40-60`. -/
def sumForm (bts : Counter) (ps : PDict α) (pv : Option α) (cts : List (PKE α)) : Except SErr (PKE α) := do
  let acc ← collect cts
  let r ← moveBases comb bts ps acc bts.elements
  if r.1.total = 0 ∧ r.2.1 = [] ∧ pv = none then
    if r.2.2.all isProd then return .comm .sum r.1.pos [] none r.2.2 else .error .assertion
  else .error .assertion

/-- `ProductKE.sum_of_prods_form` after the recursive calls when there are composite terms, `commutatives.py:142-147`. -/
def prodForm (ps : PDict α) (pv : Option α) (cts : List (PKE α)) : Except SErr (PKE α) := do
  let ls ← allSums cts
  let r ← multiplyAll comb ps pv (cart ls)
  return .comm .sum [] [] none r

mutual
/-- `sum_of_prods_form`: `commutatives.py:38-60, 136-147`, `change.py:117-137`. A leaf has no such method; its operator deals
with it. -/
def sops (cfg : Cfg) : PKE α → Except SErr (PKE α)
  | .leaf _ _ => .error .unmodelled
  | .comm .sum bts ps pv cts =>
    if ps = [] ∧ pv = none then .error .assertion else do
    let cts' ← sopsL cfg cts
    sumForm comb bts ps pv cts'
  | .comm .prod bts ps pv cts =>
    if ps = [] ∧ pv = none then .error .assertion else
    match cts with
    | [] => .ok (.comm .sum [] [] none [.comm .prod (reSimp bts) ps pv []])
    | k :: ks => do
      let cts' ← sopsL cfg (k :: ks)
      prodForm comb ps pv cts'
  | .change c p l r => do
    let l' ← branch comb (some (sigL c), p) l (sops cfg l)
    let r' ← branch comb (some (sigR c), p) r (sops cfg r)
    addSums cfg l' r'
/-- The recursive calls. -/
def sopsL (cfg : Cfg) : List (PKE α) → Except SErr (List (PKE α))
  | [] => .ok []
  | k :: ks => do
    let k' ← sops cfg k
    let ks' ← sopsL cfg ks
    return k' :: ks'
end

end
end Sops
end GPyABCD
