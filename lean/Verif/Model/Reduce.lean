import Verif.Model.Links

/-!
# `reduce`

`KernelExpression.reduce(func, acc)`, `/repo/GPy_ABCD/KernelExpressions/commutative_base.py:70-71` and `change.py:45-50`, on the trees of
`Verif.Model.Links`. Calling `func(node, acc)` returns the new accumulator, and may leave other base terms in the node. Not modelled: functions
that change links, composite terms, or branches.
-/

namespace GPyABCD
namespace Links
namespace LK

/-- What the function given to `reduce` does: the base terms it leaves in the node (ignored for change operators, which have none) and what it returns. -/
abbrev Func (A : Type) := LK → A → Counter × A

/-- The base terms of a node. -/
def counterOf : LK → Counter
  | comm _ _ _ _ bts _ => bts
  | _ => []

/-- The call of `func` for a string branch, on the temporary node `SumKE([branch]).set_root(self.root).set_parent(self)`, `change.py:48`. What the
function does to that node is lost. `n` is its identity, `i` the change operator's, `rt` the root of the change operator. -/
def branchAcc {A : Type} (cfg : Cfg) (i : Nat) (rt : Option Nat) (n : Nat) (func : Func A) : LK → A → A
  | str b, acc => (func (setParent (some i) (setRoot rt (newComm cfg n (fun n => n) .sum (Counter.ofList [b]) []))) acc).2
  | _, acc => acc

mutual
/-- `reduce(func, acc)`, `commutative_base.py:70-71`, `change.py:45-50`: the tree as it is afterwards, and the result. -/
def reduce {A : Type} (cfg : Cfg) (fresh : Nat → Bool → Nat) (func : Func A) : LK → A → LK × A
  | str b, acc => (str b, acc)
  | comm i r p op bts cts, acc =>
    let x := func (comm i r p op bts cts) acc
    let y := reduceL cfg fresh func cts x.2
    (comm i r p op x.1 y.1, y.2)
  | change i rt p c l r, acc =>
    let x := func (change i rt p c l r) acc
    let y := reduce cfg fresh func l (branchAcc cfg i rt (fresh i false) func l x.2)
    let z := reduce cfg fresh func r (branchAcc cfg i rt (fresh i true) func r y.2)
    (change i rt p c y.1 z.1, z.2)
/-- `reduce(lambda acc2, ct: ct.reduce(func, acc2), self.composite_terms, …)` -/
def reduceL {A : Type} (cfg : Cfg) (fresh : Nat → Bool → Nat) (func : Func A) : List LK → A → List LK × A
  | [], acc => ([], acc)
  | k :: ks, acc =>
    let x := reduce cfg fresh func k acc
    let y := reduceL cfg fresh func ks x.2
    (x.1 :: y.1, y.2)
end

end LK
end Links
end GPyABCD
