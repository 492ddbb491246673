import Verif.Model.Interp
import Mathlib.Data.List.Sort

/-!
# Building kernels and matching fitted parameters back

Models `to_kernel` and `match_up_fit_parameters` (`/repo/GPy_ABCD/KernelExpressions/{commutative_base,commutatives,change}.py`) and
`get_param_dict`, `fit_ker_to_kex_with_params` (`/repo/GPy_ABCD/KernelExpansion/kernelOperations.py`). Names are strings (lists of characters), built
by the same concatenations as in the code.

Assumed of GPy and paramz, which are not in the repository:
* `a + b` is an `Add` with the parts of `a` (if it is an `Add` itself, else `a`) followed by those of `b`; `a * b` a `Prod` likewise; they are called
  `sum` and `mul`;
* a child is called by its name, with `_1`, `_2`, ... appended if one, two, ... earlier children of the same parent have that name;
* the full name of a parameter is the names from the model `GP_regression` down to it, joined by dots;
* `parameter_names_flat` and `param_array` list the same linked parameters in the same order; every parameter is one number and none is fixed;
* unlinking a variance leaves it at its starting value, one;
* the names and parameters of `White`, `Bias` and `RBF`.

Left out: starting values, the flags `__USE_NON_PURELY_PERIODIC_PER_KERNEL` and `__USE_INDEPENDENT_SIDES_CHANGEWINDOW_KERNEL` (off by default).
-/

namespace GPyABCD
namespace Params
open Sops

/-- Strings. -/
abbrev Str := List Char

/-- Parameter names. -/
inductive Par | variance | lengthscale | period | offset | location | slope | width
  deriving DecidableEq, Repr

/-- As printed. -/
def Par.str : Par → Str
  | .variance => ['v','a','r','i','a','n','c','e']
  | .lengthscale => ['l','e','n','g','t','h','s','c','a','l','e']
  | .period => ['p','e','r','i','o','d']
  | .offset => ['o','f','f','s','e','t']
  | .location => ['l','o','c','a','t','i','o','n']
  | .slope => ['s','l','o','p','e']
  | .width => ['w','i','d','t','h']

variable {α : Type}

/-- `ps[name]`. -/
def Par.get (p : PD α) : Par → Option α
  | .variance => p.variance
  | .lengthscale => p.lengthscale
  | .period => p.period
  | .offset => p.offset
  | .location => p.location
  | .slope => p.slope
  | .width => p.width

/-- `ps[name] = v`. -/
def Par.put (p : PD α) (v : α) : Par → PD α
  | .variance => { p with variance := some v }
  | .lengthscale => { p with lengthscale := some v }
  | .period => { p with period := some v }
  | .offset => { p with offset := some v }
  | .location => { p with location := some v }
  | .slope => { p with slope := some v }
  | .width => { p with width := some v }

/-- `base_k_param_names[b]['name']`, `kernelOperations.py:12`; `linearOffsetKernel.py:32`, `linearKernel.py:36`, `periodicKernel.py:63`. A sigmoid
has no entry (`none`). -/
def baseName (cfg : Cfg) : Base → Option Str
  | .WN => some ['w','h','i','t','e']
  | .C => some ['b','i','a','s']
  | .LIN => some (if cfg.linOffset then ['l','i','n','e','a','r','_','w','i','t','h','_','o','f','f','s','e','t'] else ['l','i','n','e','a','r'])
  | .SE => some ['r','b','f']
  | .PER => some ['p','u','r','e','_','s','t','d','_','p','e','r','i','o','d','i','c']
  | _ => none

/-- `base_k_param_names[b]['parameters']`, `kernelOperations.py:12`; `linearOffsetKernel.py:43`, `linearKernel.py:53`, `periodicKernel.py:84`. -/
def basePars (cfg : Cfg) : Base → List Par
  | .WN => [.variance]
  | .C => [.variance]
  | .LIN => if cfg.linOffset then [.variance, .offset] else [.variance]
  | .SE => [.variance, .lengthscale]
  | .PER => [.variance, .period, .lengthscale]
  | _ => []

/-- `base_k_param_names['CP' | 'CW']['name']`, `kernelOperations.py:13-14`. -/
def changeName : CC → Str
  | .CP => ['c','h','a','n','g','e','_','p','o','i','n','t']
  | .CW => ['c','h','a','n','g','e','_','w','i','n','d','o','w']

/-- `base_k_param_names['CP' | 'CW']['parameters']`, `kernelOperations.py:13-14`. -/
def changePars (cfg : Cfg) : CC → List Par
  | .CP => if cfg.fixSlope then [.location] else [.location, .slope]
  | .CW => if cfg.fixSlope then [.location, .width] else [.location, .slope, .width]

/-- `GPy_name` of a sum or product, `commutatives.py:13, 65`. -/
def opName : Op → Str
  | .sum => ['s','u','m']
  | .prod => ['m','u','l']

/-! ## Kernels -/

/-- Names of change kernels, `changeOperators.py:88, 107`. The code has them once more in the table that `changeName` models. -/
def kerName : CC → Str
  | .CP => ['c','h','a','n','g','e','_','p','o','i','n','t']
  | .CW => ['c','h','a','n','g','e','_','w','i','n','d','o','w']

/-- Parameters that change kernels link besides their branches, `changeOperators.py:22-25, 36-37, 109-110`. Simplification: the slope, if any, is linked first; here
the order is that of `changePars`, as the entries end up in a dictionary. -/
def kerPars (cfg : Cfg) : CC → List Par
  | .CP => if cfg.fixSlope then [.location] else [.location, .slope]
  | .CW => if cfg.fixSlope then [.location, .width] else [.location, .slope, .width]

/-- Names of GPy's `Add` and `Prod`. -/
def combName : Op → Str
  | .sum => ['s','u','m']
  | .prod => ['m','u','l']

/-- A GPy kernel object: a base kernel with the values of its linked parameters, an `Add` or `Prod`, or a change kernel with its linked branches. -/
inductive GK (α : Type)
  | base (b : Base) (p : PD α)
  | comb (op : Op) (parts : List (GK α))
  | change (c : CC) (p : PD α) (first second : GK α)
  deriving Repr, Inhabited

/-- How the code can fail. `unmodelled`: a product none of whose base terms got a variance; Python then sets the product's variance to `None`
(`commutatives.py:106-114`) and goes on. Kernels without a product directly in a product never get there (C40). -/
inductive PErr | key | value | type | unmodelled
  deriving DecidableEq, Repr

/-- The linked parameters, without values. -/
def linked (ps : List Par) : PD Unit := ps.foldl (fun p q => q.put p ()) {}

/-- `base_str_to_ker`, `kernelOperations.py:9`: `KeyError` for a sigmoid. -/
def baseKer (cfg : Cfg) (b : Base) : Except PErr (GK Unit) :=
  match baseName cfg b with
  | none => .error .key
  | some _ => .ok (.base b (linked (basePars cfg b)))

/-- Over a list. -/
def baseKers (cfg : Cfg) : List Base → Except PErr (List (GK Unit))
  | [] => .ok []
  | b :: bs => do
    let k ← baseKer cfg b
    let ks ← baseKers cfg bs
    return k :: ks

/-- `btk.unlink_parameter(btk.variance)`. -/
def unlinkVar : GK α → GK α
  | .base b p => .base b p.noVar
  | k => k

/-- Line `commutatives.py:86-87`: only the first keeps its variance. -/
def unlinkTail : List (GK α) → List (GK α)
  | [] => []
  | k :: ks => k :: ks.map unlinkVar

/-- The parts an `Add` or `Prod` takes from an argument. -/
def partsOf (op : Op) : GK α → List (GK α)
  | .comb o ps => if o = op then ps else [.comb o ps]
  | k => [k]

/-- `a + b` and `a * b` of GPy kernels. -/
def combine (op : Op) (a b : GK α) : GK α := .comb op (partsOf op a ++ partsOf op b)

/-- `reduce(operator.add | operator.mul, ks)`: `TypeError` without terms. -/
def reduceK (op : Op) : List (GK α) → Except PErr (GK α)
  | [] => .error .type
  | k :: ks => .ok (ks.foldl (combine op) k)

/-- `order_base_kerns`, `kernelInterpretation.py:10`. -/
def orderBase (l : List Base) : List Base := l.insertionSort (fun a b => a.order ≤ b.order)

mutual
/-- `to_kernel`, `commutatives.py:26-27, 84-88`, `change.py:83-86`; a bare string branch is its base kernel. -/
def toKernel (cfg : Cfg) : KE → Except PErr (GK Unit)
  | .base b => baseKer cfg b
  | .comm .sum b cs => do
    let bs ← baseKers cfg (orderBase b.elements)
    let ks ← toKernelL cfg cs
    reduceK .sum (bs ++ ks)
  | .comm .prod b cs => do
    let bs ← baseKers cfg (orderBase b.elements)
    let ks ← toKernelL cfg cs
    reduceK .prod (unlinkTail bs ++ ks)
  | .change c l r => do
    let a ← toKernel cfg l
    let b ← toKernel cfg r
    return .change c (linked (kerPars cfg c)) a b
/-- Over a list. -/
def toKernelL (cfg : Cfg) : List KE → Except PErr (List (GK Unit))
  | [] => .ok []
  | k :: ks => do
    let a ← toKernel cfg k
    let as ← toKernelL cfg ks
    return a :: as
end

/-! ## Names -/

/-- The name of a kernel. -/
def gname (cfg : Cfg) : GK α → Str
  | .base b _ => (baseName cfg b).getD []
  | .comb op _ => combName op
  | .change c _ _ _ => kerName c

/-- The name a child gets, `seen` being the names of the earlier children (paramz). -/
def sib (seen : List Str) (n : Str) : Str :=
  if seen.count n = 0 then n else n ++ '_' :: Nat.toDigits 10 (seen.count n)

/-- A name below another. -/
def under (c : Str) (e : Str × α) : Str × α := (c ++ '.' :: e.1, e.2)

/-- Linked parameters with their names. -/
def own (ps : List Par) (p : PD α) : List (Str × α) := ps.filterMap (fun q => (q.get p).map (fun v => (q.str, v)))

mutual
/-- All parameters of a kernel, with their names from that kernel on. -/
def flat (cfg : Cfg) : GK α → List (Str × α)
  | .base b p => own (basePars cfg b) p
  | .comb _ parts => flatL cfg [] parts
  | .change c p l r =>
    (flat cfg l).map (under (sib [] (gname cfg l))) ++ (flat cfg r).map (under (sib [gname cfg l] (gname cfg r))) ++ own (kerPars cfg c) p
/-- Those of children, `seen` being the names of the earlier ones. -/
def flatL (cfg : Cfg) (seen : List Str) : List (GK α) → List (Str × α)
  | [] => []
  | k :: ks => (flat cfg k).map (under (sib seen (gname cfg k))) ++ flatL cfg (gname cfg k :: seen) ks
end

/-- `'GP_regression.'`. -/
def regression : Str := ['G','P','_','r','e','g','r','e','s','s','i','o','n','.']

/-- `get_param_dict(model.kern)`, `kernelOperations.py:21-24`, as the list of its entries. -/
def paramList (cfg : Cfg) (g : GK α) : List (Str × α) := (flat cfg g).map (fun e => (regression ++ gname cfg g ++ '.' :: e.1, e.2))

/-- `dict(entries)[key]`: of equal keys the last counts. -/
def pyDict : List (Str × α) → Str → Option α
  | [], _ => none
  | (k, v) :: r, key => (pyDict r key).or (if k = key then some v else none)

/-! ## Matching -/

/-- `{p: param_dict[prefix + p] for p in pars}`; with `skip`, an absent variance is skipped (`commutative_base.py:131-133`), every other absent name is a
`KeyError`. -/
def lookupPars (d : Str → Option α) (skip : Bool) (pre : Str) : List Par → Except PErr (PD α)
  | [] => .ok {}
  | q :: qs =>
    match d (pre ++ q.str) with
    | some v => do
      let r ← lookupPars d skip pre qs
      return q.put r v
    | none => if skip && decide (q = .variance) then lookupPars d skip pre qs else .error .key

/-- `'_' + str(n - 1) + '.' if n > 1 else '.'`, `commutative_base.py:130, 136`. -/
def postfixOf (n : Nat) : Str := if n > 1 then '_' :: (Nat.toDigits 10 (n - 1) ++ ['.']) else ['.']

/-- Keys of `seen_terms`: names of base terms and `GPy_name`s of composite terms. -/
inductive Key | bt (b : Base) | ct (n : Str)
  deriving DecidableEq, Repr

/-- `seen_terms`. -/
abbrev Seen := List Key

/-- Loop `commutative_base.py:128-133`. -/
def matchBases (cfg : Cfg) (d : Str → Option α) (pre : Str) (seen : Seen) (ps : PDict α) : List Base → Except PErr (Seen × PDict α)
  | [] => .ok (seen, ps)
  | b :: bs => do
    let seen' := .bt b :: seen
    match baseName cfg b with
    | none => .error .key
    | some n => do
      let p ← lookupPars d true (pre ++ n ++ postfixOf (seen'.count (.bt b))) (basePars cfg b)
      matchBases cfg d pre seen' (ps.append b p) bs

/-- Loop `commutatives.py:107-113` over one list of dictionaries: the first variance, taken away. -/
def takeVarL : List (PD α) → Option (α × List (PD α))
  | [] => none
  | p :: ps =>
    match p.variance with
    | some v => some (v, p.noVar :: ps)
    | none => (takeVarL ps).map (fun r => (r.1, p :: r.2))

/-- Loop `commutatives.py:106-114`. -/
def takeVar : PDict α → Option (α × PDict α)
  | [] => none
  | (b, l) :: r =>
    match takeVarL l with
    | some (v, l') => some (v, (b, l') :: r)
    | none => (takeVar r).map (fun x => (x.1, (b, l) :: x.2))

/-- `GPy_name`, or the name of the base kernel of a bare string. -/
def kname (cfg : Cfg) : KE → Option Str
  | .base b => baseName cfg b
  | .comm op _ _ => some (opName op)
  | .change c _ _ => some (changeName c)

/-- `type(a) == type(b)`. -/
def sameType : KE → KE → Bool
  | .base _, .base _ => true
  | .comm o _ _, .comm o' _ _ => decide (o = o')
  | .change _ _ _, .change _ _ _ => true
  | _, _ => false

/-- `same_type_branches`, `change.py:97-98`. -/
def sameBranches (cfg : Cfg) (l r : KE) : Bool := sameType l r && ((!l.isBase && decide (kname cfg l = kname cfg r)) || KE.keq l r)

/-- Lines `commutative_base.py:125-126` and `change.py:94-95`: at the root the node's own name is appended, elsewhere it must be there already. -/
def startPrefix (root : Bool) (pre add : Str) : Except PErr Str :=
  if root then .ok (pre ++ add) else if pre = [] then .error .value else .ok pre

mutual
/-- `match_up_fit_parameters`, `commutative_base.py:124-138`, `commutatives.py:103-115`, `change.py:93-102`; `root` is `is_root()`. The first equation is
the branch for bare strings of line `change.py:102`. -/
def matchUp (cfg : Cfg) (d : Str → Option α) (root : Bool) (pre : Str) : KE → Except PErr (PKE α)
  | .base b => do
    let p ← lookupPars d false pre (basePars cfg b)
    return .leaf b p
  | .comm op b cs => do
    let pre' ← startPrefix root pre (if b.total + cs.length = 1 then [] else opName op ++ ['.'])
    let (seen, ps) ← matchBases cfg d pre' [] [] b.elements
    let cts ← matchUpL cfg d pre' seen cs
    match op with
    | .sum => return .comm .sum b ps none cts
    | .prod =>
      if b.total > 0 then
        match takeVar ps with
        | some (v, ps') => return .comm .prod b ps' (some v) cts
        | none => .error .unmodelled
      else return .comm .prod b ps none cts
  | .change c l r => do
    let pre' ← startPrefix root pre (changeName c ++ ['.'])
    let p ← lookupPars d false pre' (changePars cfg c)
    match kname cfg l, kname cfg r with
    | some nl, some nr =>
      let l' ← matchUp cfg d false (pre' ++ nl ++ ['.']) l
      let r' ← matchUp cfg d false (pre' ++ nr ++ (if sameBranches cfg l r then ['_', '1', '.'] else ['.'])) r
      return .change c p l' r'
    | _, _ => .error .key
/-- Loop `commutative_base.py:134-137`. -/
def matchUpL (cfg : Cfg) (d : Str → Option α) (pre : Str) (seen : Seen) : List KE → Except PErr (List (PKE α))
  | [] => .ok []
  | k :: ks => do
    match kname cfg k with
    | none => .error .key
    | some n =>
      let seen' := .ct n :: seen
      let a ← matchUp cfg d false (pre ++ n ++ postfixOf (seen'.count (.ct n))) k
      let as ← matchUpL cfg d pre seen' ks
      return a :: as
end

/-- `fit_ker_to_kex_with_params`, `kernelOperations.py:31-35`. -/
def fitParams (cfg : Cfg) (g : GK α) (k : KE) : Except PErr (PKE α) := matchUp cfg (pyDict (paramList cfg g)) true regression k

/-- `get_param_dict(ker)`, `kernelOperations.py:21-24`, of a kernel that belongs to no model, as the list of its entries. -/
def kernelParamList (cfg : Cfg) (g : GK α) : List (Str × α) := (flat cfg g).map (fun e => (gname cfg g ++ '.' :: e.1, e.2))

/-- `init_rand_params`, `kernelOperations.py:38-45`: `kex._initialise()` simplifies the expression in place; `values` stands for `ker.randomize()`, which gives
the linked parameters of the kernel some values. -/
def initRandParams (cfg : Cfg) (values : GK Unit → GK α) (k : KE) : Except PErr (PKE α) := do
  let ker ← toKernel cfg (KE.simplify cfg k)
  matchUp cfg (pyDict (kernelParamList cfg (values ker))) true [] (KE.simplify cfg k)

/-- How `interpret` fails, by the step that fails. -/
inductive MErr
  | matching (e : PErr)
  | form (e : SErr)
  | telling (e : Interval.PyErr)
  deriving DecidableEq, Repr

/-- `GPModel.interpret` of a fitted model, `model.py:34-47`: `self.model.kern` is `g`, `self.kernel_expression` is `k`; the cached form is the one that would
be computed again. -/
def interpret [LinearOrder α] [Mul α] [One α] [Add α] (comb : α → α → α) (fmt : α → String) (cfg : Cfg) (g : GK α) (k : KE) : Except MErr String :=
  match fitParams cfg g k with
  | .error e => .error (.matching e)
  | .ok f =>
    match sops comb cfg f with
    | .error e => .error (.form e)
    | .ok k' =>
      match Interp.interpretation fmt cfg k' with
      | .error e => .error (.telling e)
      | .ok s => .ok s

end Params
end GPyABCD
