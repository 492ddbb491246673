import Verif.Model.Counter

/-!
# Kernel expressions

Models `/repo/GPy_ABCD/KernelExpressions/{base,commutative_base,commutatives,change}.py`
without the parent/root links (modelled separately in `Verif.Model.Links`) and without fitted
parameters (modelled in `Verif.Model.Params`).
-/

namespace GPyABCD

/-- `SumKE` or `ProductKE`. -/
inductive Op | sum | prod
  deriving DecidableEq, Repr, Inhabited

/-- `CP_or_CW` of a `ChangeKE`, `change.py:13-15`. -/
inductive CC | CP | CW
  deriving DecidableEq, Repr, Inhabited

/-- A kernel expression, or a bare Python string (`base b`), which the code allows as a branch of a
`ChangeKE` and as an operand of the operators. `comm` is `SumOrProductKE` with its fields
`base_terms` and `composite_terms` (`commutative_base.py:12-19`); `change` is `ChangeKE`
(`change.py:12-19`). -/
inductive KE
  | base (b : Base)
  | comm (op : Op) (bts : Counter) (cts : List KE)
  | change (c : CC) (l r : KE)
  deriving Repr, Inhabited

namespace KE

/-- `isinstance(x, str)`. -/
def isBase : KE → Bool
  | base _ => true
  | _ => false

/-- `isinstance(ct, type(self))` for a sum or product `self` of kind `op`. -/
def isComm (op : Op) : KE → Bool
  | comm op' _ _ => decide (op' = op)
  | _ => false

/-- `ys.remove(x)` with `p` the test "equal to `x`": drop the first element satisfying `p`;
`none` is Python's `ValueError`. -/
def removeFirst {α : Type} (p : α → Bool) : List α → Option (List α)
  | [] => none
  | y :: ys => if p y then some ys else (removeFirst p ys).map (y :: ·)

mutual
/-- `a == b`: `SumOrProductKE.__eq__` (`commutative_base.py:29-30`), `ChangeKE.__eq__`
(`change.py:27-28`), string equality. -/
def keq : KE → KE → Bool
  | base a, k => match k with
    | base b => decide (a = b)
    | _ => false
  | comm o c cs, k => match k with
    | comm o' c' cs' => decide (o = o') && c.eq c' && eqElems cs cs'
    | _ => false
  | change c l r, k => match k with
    | change c' l' r' => decide (c = c') && keq l l' && keq r r'
    | _ => false
/-- `eq_elems(xs, ys)`, `Util/genericUtil.py:100-105`: remove every `x` of `xs` from a copy of `ys`.
Python's `list.remove(x)` evaluates `y == x`; `keq` is proved symmetric in `Verif.Lemmas.Eq`. -/
def eqElems : List KE → List KE → Bool
  | [], ys => ys.isEmpty
  | x :: xs, ys =>
    match removeFirst (fun y => keq x y) ys with
    | none => false
    | some ys' => eqElems xs ys'
end

/-- `simplify_base_terms` of `SumKE`, `commutatives.py:15-24`. -/
def simplifyBaseSum (cfg : Cfg) (c : Counter) : Counter :=
  let c : Counter := if c.get .WN > 1 then c.put .WN 1 else c
  let c : Counter := if c.get .C > 1 then c.put .C 1 else c
  let c : Counter := if cfg.linOffset && decide (c.get .LIN > 0) then c.put .C 0 else c
  c.pos

/-- Sum of the counts of the sigmoids, `commutatives.py:78`. -/
def sigmoidCount (c : Counter) : Int := c.get .S + c.get .Sr + c.get .SI + c.get .SIr

/-- `simplify_base_terms` of `ProductKE`, `commutatives.py:71-82`; `n` is
`len(self.composite_terms)` at the time of the call, which `term_count()`
(`commutative_base.py:108-109`) reads. -/
def simplifyBaseProd (c : Counter) (n : Nat) : Counter :=
  let c : Counter :=
    if c.get .WN > 0 then
      (c.put .WN 1).filter (fun p => decide (p.1 = .WN) || decide (p.1 = .LIN) || p.1.isSigmoid)
    else
      let c : Counter :=
        if c.get .C > 0 then
          c.put .C (if c.total + (n : Int) - sigmoidCount c ≠ c.get .C then 0 else 1)
        else c
      if c.get .SE > 1 then c.put .SE 1 else c
  c.pos

/-- `self.simplify_base_terms()` on a node of kind `op` with `n` composite terms. -/
def simplifyBase (cfg : Cfg) (op : Op) (c : Counter) (n : Nat) : Counter :=
  match op with
  | .sum => simplifyBaseSum cfg c
  | .prod => simplifyBaseProd c n

/-- `extract_if_singleton`: `commutative_base.py:52-55`, `change.py:35-36` (strings have no such
method; the code never calls it on them). -/
def extract : KE → KE
  | comm op bts cts =>
    match bts.elements, cts with
    | b :: _, [] => if bts.total = 1 then base b else comm op bts []
    | _, [ct] => if bts.total = 0 then ct else comm op bts [ct]
    | _, cts => comm op bts cts
  | k => k

/-- One iteration of the loop of `absorb_homogeneous_composites`, `commutative_base.py:59-64`. -/
def absorbStep (cfg : Cfg) (op : Op) (s : Counter × List KE) (hc : KE) : Counter × List KE :=
  match hc with
  | comm _ hb hcts =>
    (simplifyBase cfg op (s.1.updateMap hb) s.2.length,
     ((removeFirst (fun y => keq hc y) (s.2 ++ hcts)).getD (s.2 ++ hcts)))
  | _ => s

/-- `absorb_homogeneous_composites`, `commutative_base.py:57-65`. -/
def absorbHomogeneous (cfg : Cfg) (op : Op) (bts : Counter) (cts : List KE) : Counter × List KE :=
  (cts.filter (isComm op)).foldl (absorbStep cfg op) (bts, cts)

/-- `absorb_singletons`, `commutative_base.py:44-47`, with `partition` (`genericUtil.py:50-54`) and
`new_base` (`commutative_base.py:93-99`, the list case). -/
def absorbSingletons (cfg : Cfg) (op : Op) (bts : Counter) (cts : List KE) : Counter × List KE :=
  let es := cts.map extract
  let names := es.filterMap (fun k => match k with | base b => some b | _ => none)
  let rest := es.filter (fun k => !k.isBase)
  (simplifyBase cfg op (bts.updateList names) rest.length, rest)

/-- `absorb_homogeneous_composites().absorb_singletons().simplify_base_terms()` on a node whose
composite terms are already simplified, `commutative_base.py:38`. -/
def absorb (cfg : Cfg) (op : Op) (bts : Counter) (cts : List KE) : KE :=
  let (b1, c1) := absorbHomogeneous cfg op bts cts
  let (b2, c2) := absorbSingletons cfg op b1 c1
  comm op (simplifyBase cfg op b2 c2.length) c2

mutual
/-- `simplify`: `commutative_base.py:36-38`, `change.py:30-33`; strings are left alone. -/
def simplify (cfg : Cfg) : KE → KE
  | base b => base b
  | comm op bts cts => absorb cfg op bts (simplifyL cfg cts)
  | change c l r => change c (extract (simplify cfg l)) (extract (simplify cfg r))
/-- `[ct.simplify() for ct in composite_terms]`, `commutative_base.py:37`. -/
def simplifyL (cfg : Cfg) : List KE → List KE
  | [] => []
  | k :: ks => simplify cfg k :: simplifyL cfg ks
end

/-- The constructor `SumKE(bts, cts)` / `ProductKE(bts, cts)` with a `Counter` argument,
`commutative_base.py:12-19`: store and simplify. -/
def mkC (cfg : Cfg) (op : Op) (bts : Counter) (cts : List KE) : KE := simplify cfg (comm op bts cts)

/-- The constructor with a list of names, `commutative_base.py:14`. -/
def mkL (cfg : Cfg) (op : Op) (names : List Base) (cts : List KE) : KE := mkC cfg op (Counter.ofList names) cts

/-- `ChangeKE(c, l, r)`, `change.py:12-19`: store and simplify. -/
def mkChange (cfg : Cfg) (c : CC) (l r : KE) : KE := simplify cfg (change c l r)

/-- `contains_base`, `commutative_base.py:111-113`, `change.py:76-78` (a string branch is a list test). -/
def containsBase (qs : List Base) : KE → Bool
  | base b => qs.contains b
  | comm _ bts cts => qs.any (fun q => bts.has q) || containsBaseL qs cts
  | change _ l r => containsBase qs l || containsBase qs r
where
  /-- `any([ct.contains_base(bts) for ct in self.composite_terms])` -/
  containsBaseL (qs : List Base) : List KE → Bool
    | [] => false
    | k :: ks => containsBase qs k || containsBaseL qs ks

/-- `is_stationary`, `commutative_base.py:115-116`, `change.py:80-81`; `non_stationary_kerns` is
`baseKernels.py:15`. A bare string has no such method (only reached below a `ChangeKE`, which returns
`False` first). -/
def isStationary : KE → Bool
  | base b => b.isStationary
  | comm _ bts cts => [Base.S, .Sr, .SI, .SIr, .LIN].all (fun b => !bts.has b) && isStationaryL cts
  | change _ _ _ => false
where
  /-- `all([ct.is_stationary() for ct in self.composite_terms])` -/
  isStationaryL : List KE → Bool
    | [] => true
    | k :: ks => isStationary k && isStationaryL ks

end KE
end GPyABCD
