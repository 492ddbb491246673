import Verif.Model.KE

/-!
# Kernel-expression operators

Models `/repo/GPy_ABCD/KernelExpansion/kernelExpressionOperations.py`. Operands are expressions or bare
strings (`KE.base`). The operators build new nodes with the constructors (which copy and simplify) and
never modify their arguments, so pure functions are faithful.

`sortOutTypePair` (`Util/kernelUtil.py:6-8`) is a dictionary from types to operands: one entry when both
operands have the same type, else one per operand; the branches on it are pattern matches here.
-/

namespace GPyABCD
namespace KE

/-- The only result of `add` with `with_nested_case = False`, its first result otherwise,
`kernelExpressionOperations.py:20-49`. -/
def addRes (cfg : Cfg) : KE → KE → KE
  -- len(pair) == 1, lines 24-32
  | comm .sum b1 c1, comm .sum b2 c2 => mkC cfg .sum (b1.pos.add b2) (c1 ++ c2)
  | comm .prod b1 c1, comm .prod b2 c2 => mkL cfg .sum [] [comm .prod b1 c1, comm .prod b2 c2]
  | change x1 l1 r1, change x2 l2 r2 => mkL cfg .sum [] [change x1 l1 r1, change x2 l2 r2]
  | base a, base b => mkL cfg .sum [a, b] []
  -- str in pair, lines 34-42
  | base a, comm .sum b c => mkC cfg .sum (b.pos.add (Counter.ofList [a])) c
  | comm .sum b c, base a => mkC cfg .sum (b.pos.add (Counter.ofList [a])) c
  | base a, comm .prod b c => mkL cfg .sum [a] [comm .prod b c]
  | comm .prod b c, base a => mkL cfg .sum [a] [comm .prod b c]
  | base a, change x l r => mkL cfg .sum [a] [change x l r]
  | change x l r, base a => mkL cfg .sum [a] [change x l r]
  -- {SumKE, ProductKE}, lines 43-44
  | comm .sum b c, comm .prod b' c' => mkC cfg .sum b.pos (c ++ [comm .prod b' c'])
  | comm .prod b' c', comm .sum b c => mkC cfg .sum b.pos (c ++ [comm .prod b' c'])
  -- {SumKE, ChangeKE}, lines 45-46
  | comm .sum b c, change x l r => mkC cfg .sum b.pos (c ++ [change x l r])
  | change x l r, comm .sum b c => mkC cfg .sum b.pos (c ++ [change x l r])
  -- {ProductKE, ChangeKE}, lines 47-48
  | comm .prod b c, change x l r => mkL cfg .sum [] [comm .prod b c, change x l r]
  | change x l r, comm .prod b c => mkL cfg .sum [] [change x l r, comm .prod b c]

/-- The nested results of adding a string to a product, `kernelExpressionOperations.py:40`. -/
def addNestedAt (cfg : Cfg) (a : Base) (b : Counter) (c : List KE) : List KE :=
  b.elements.map (fun bt => mkC cfg .prod (b.pos.sub (Counter.ofList [bt])) (c ++ [mkL cfg .sum [a, bt] []]))

/-- The results of `add` after the first, `kernelExpressionOperations.py:39-40`. -/
def addNested (cfg : Cfg) : KE → KE → List KE
  | base a, comm .prod b c => addNestedAt cfg a b c
  | comm .prod b c, base a => addNestedAt cfg a b c
  | _, _ => []

/-- `add(k1, k2)`, `kernelExpressionOperations.py:20-49`. -/
def add (cfg : Cfg) (k1 k2 : KE) : List KE := addRes cfg k1 k2 :: addNested cfg k1 k2

/-- The only result of `multiply` with `with_nested_case = False`, its first result otherwise,
`kernelExpressionOperations.py:52-81`. -/
def mulRes (cfg : Cfg) : KE → KE → KE
  -- len(pair) == 1, lines 56-64
  | comm .sum b1 c1, comm .sum b2 c2 => mkL cfg .prod [] [comm .sum b1 c1, comm .sum b2 c2]
  | comm .prod b1 c1, comm .prod b2 c2 => mkC cfg .prod (b1.pos.add b2) (c1 ++ c2)
  | change x1 l1 r1, change x2 l2 r2 => mkL cfg .prod [] [change x1 l1 r1, change x2 l2 r2]
  | base a, base b => mkL cfg .prod [a, b] []
  -- str in pair, lines 66-74
  | base a, comm .sum b c => mkL cfg .prod [a] [comm .sum b c]
  | comm .sum b c, base a => mkL cfg .prod [a] [comm .sum b c]
  | base a, comm .prod b c => mkC cfg .prod (b.pos.add (Counter.ofList [a])) c
  | comm .prod b c, base a => mkC cfg .prod (b.pos.add (Counter.ofList [a])) c
  | base a, change x l r => mkL cfg .prod [a] [change x l r]
  | change x l r, base a => mkL cfg .prod [a] [change x l r]
  -- {SumKE, ProductKE}, lines 75-76
  | comm .sum b' c', comm .prod b c => mkC cfg .prod b.pos (c ++ [comm .sum b' c'])
  | comm .prod b c, comm .sum b' c' => mkC cfg .prod b.pos (c ++ [comm .sum b' c'])
  -- {SumKE, ChangeKE}, lines 77-78
  | comm .sum b c, change x l r => mkL cfg .prod [] [comm .sum b c, change x l r]
  | change x l r, comm .sum b c => mkL cfg .prod [] [change x l r, comm .sum b c]
  -- {ProductKE, ChangeKE}, lines 79-80
  | comm .prod b c, change x l r => mkC cfg .prod b.pos (c ++ [change x l r])
  | change x l r, comm .prod b c => mkC cfg .prod b.pos (c ++ [change x l r])

/-- The nested results of multiplying a string with a sum, `kernelExpressionOperations.py:70`. -/
def mulNestedAt (cfg : Cfg) (a : Base) (b : Counter) (c : List KE) : List KE :=
  b.elements.map (fun bt => mkC cfg .sum (b.pos.sub (Counter.ofList [bt])) (c ++ [mkL cfg .prod [a, bt] []]))

/-- The results of `multiply` after the first, `kernelExpressionOperations.py:69-70`. -/
def mulNested (cfg : Cfg) : KE → KE → List KE
  | base a, comm .sum b c => mulNestedAt cfg a b c
  | comm .sum b c, base a => mulNestedAt cfg a b c
  | _, _ => []

/-- `multiply(k1, k2)`, `kernelExpressionOperations.py:52-81`. -/
def multiply (cfg : Cfg) (k1 k2 : KE) : List KE := mulRes cfg k1 k2 :: mulNested cfg k1 k2

/-- The dict literal `{bt: -1, B: 1}` (a later duplicate key overwrites the value), `kernelExpressionOperations.py:87`. -/
def swapDict (bt B : Base) : Counter := (Counter.put [(bt, -1)] B 1)

/-- `swap_base(S, B)`, `kernelExpressionOperations.py:84-93`; strings in the result are `base`. -/
def swapBase (cfg : Cfg) (S : KE) (B : Base) : List KE :=
  match S with
  | comm op b c => b.pos.map (fun p => mkC cfg op (b.pos.add (swapDict p.1 B)) c)
  | change x l r =>
    (if l.isBase && !keq l (base B) then [mkChange cfg x (base B) r] else []) ++
    (if r.isBase && !keq r (base B) then [mkChange cfg x l (base B)] else [])
  | base _ => [base B]

/-- `one_change(S, CP_or_CW, S2)`, `kernelExpressionOperations.py:96-98`; `none` is Python's `None`. -/
def oneChange (cfg : Cfg) (S : KE) (x : CC) (S2 : Option KE) : List KE :=
  match S2 with
  | none => [mkChange cfg x S S]
  | some k => if keq k S then [mkChange cfg x S S] else [mkChange cfg x S k, mkChange cfg x k S]

/-- `both_changes(S, S2)`, `kernelExpressionOperations.py:101-106`. -/
def bothChanges (cfg : Cfg) (S : KE) (S2 : Option KE) : List KE :=
  [CC.CP, CC.CW].flatMap (fun x =>
    match S2 with
    | none => [mkChange cfg x S S]
    | some k => if keq k S then [mkChange cfg x S S] else [mkChange cfg x S k, mkChange cfg x k S])

/-- `replace_node(S, S2)`, `kernelExpressionOperations.py:109-110`. -/
def replaceNode (cfg : Cfg) (_S S2 : KE) : List KE :=
  match S2 with
  | base b => [mkL cfg .sum [b] []]
  | k => [k]

/-- Number of terms of a sum or product, `commutative_base.py:108-109`. -/
def termCount (b : Counter) (c : List KE) : Int := b.total + (c.length : Int)

/-- `SumKE([branch]) if isinstance(branch, str) else branch`, `kernelExpressionOperations.py:120`. -/
def branchNode (cfg : Cfg) : KE → KE
  | base b => mkL cfg .sum [b] []
  | k => k

/-- `remove_a_term(S)`, `kernelExpressionOperations.py:113-124`. On a string the code returns `[[]]`, which
is not an expression; it notes that this never happens (the production rules are only applied to nodes),
and the model returns no result there. -/
def removeATerm (cfg : Cfg) (S : KE) : List KE :=
  match S with
  | comm op b c =>
    if termCount b c > 1 then
      b.pos.map (fun p => mkC cfg op (b.pos.add [(p.1, -1)]) c) ++
      (List.range c.length).map (fun i => mkC cfg op b.pos (c.take i ++ c.drop (i + 1)))
    else []
  | change _ l r => [branchNode cfg l, branchNode cfg r]
  | base _ => []

/-- `del r.base_terms['SE']` on a constructed node, `kernelExpressionOperations.py:134,139`. -/
def delSE : KE → KE
  | comm op b c => comm op (b.del .SE) c
  | k => k

/-- `higher_kers`, `kernelExpressionOperations.py:129`. -/
def higherKers (cfg : Cfg) : List KE := [mkL cfg .prod [.LIN, .LIN] [], mkL cfg .prod [.LIN, .LIN, .LIN] []]

/-- `higher_curves(S)`, `kernelExpressionOperations.py:127-145`; nothing on strings (see `removeATerm`). -/
def higherCurves (cfg : Cfg) (S : KE) : List KE :=
  match S with
  | comm .sum b c =>
    let res := (higherKers cfg).map (fun ct => mkC cfg .sum b.pos (c ++ [ct]))
    if b.pos.has .SE then res.map delSE else res
  | comm .prod b c =>
    let res := [[(Base.LIN, (2 : Int))], [(Base.LIN, 3)]].map (fun bts => mkC cfg .prod (b.pos.add bts) c) ++
      [mkC cfg .prod (b.pos.add (if b.pos.has .PER then [(.PER, 1)] else [(.PER, 2)])) c]
    if b.pos.has .SE then res.map delSE else res
  | change x l r =>
    (if l.isBase then (higherKers cfg).map (fun ct => mkChange cfg x ct r) else []) ++
    (if r.isBase then (higherKers cfg).map (fun ct => mkChange cfg x l ct) else [])
  | base _ => []

end KE
end GPyABCD
