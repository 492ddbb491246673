import Mathlib.Algebra.Order.Floor.Defs
import Mathlib.Algebra.Order.Floor.Ring
import Mathlib.Algebra.Order.Field.Basic

/-!
# Synthetic data as arrays

`/repo/GPy_ABCD/Util/dataAndPlottingUtil.py:21-58`, with what `numpy.vectorize` does with the numbers: the type of its result is that of the first value, and the
others are converted to it. Numbers are Python's integers and floats; floats are exact here. The columns of arrays are lists. The random numbers are given.
-/

namespace GPyABCD
namespace Vec

/-- An integer or a float. -/
inductive Num (α : Type)
  | int (z : ℤ)
  | flt (a : α)

section
variable {α : Type} [Field α] [LinearOrder α] [FloorRing α]

/-- Its value. -/
def Num.val : Num α → α
  | .int z => z
  | .flt a => a

/-- Whether it is an integer. -/
def Num.isInt : Num α → Bool
  | .int _ => true
  | .flt _ => false

/-- `int(x)`: towards zero. -/
def Num.trunc : Num α → ℤ
  | .int z => z
  | .flt a => if 0 ≤ a then ⌊a⌋ else ⌈a⌉

/-- `x + y`: an integer only if both are. -/
def Num.add : Num α → Num α → Num α
  | .int a, .int b => .int (a + b)
  | a, b => .flt (a.val + b.val)

/-- `x - y`. -/
def Num.sub : Num α → Num α → Num α
  | .int a, .int b => .int (a - b)
  | a, b => .flt (a.val - b.val)

/-- `np.vectorize(f)(xs)`; `none` is its `ValueError` for no inputs. (numpy: the first value decides the type of the array.) -/
def vectorize (f : Num α → Num α) : List (Num α) → Option (List (Num α))
  | [] => none
  | x :: xs =>
    match f x with
    | .int _ => some ((x :: xs).map (fun y => .int (f y).trunc))
    | .flt _ => some ((x :: xs).map (fun y => .flt (f y).val))

/-- The function inside `cp_f_maker`, `dataAndPlottingUtil.py:22-27`. -/
def cpF (f1 f2 : Num α → Num α) (cp : Num α) (lineUp : Bool) (x : Num α) : Num α :=
  if x.val < cp.val then f1 x else if lineUp then ((f1 cp).sub (f2 cp)).add (f2 x) else f2 x

/-- The function inside `cw_f_maker`, `dataAndPlottingUtil.py:31-37`. -/
def cwF (f1 f2 : Num α → Num α) (a b : Num α) (lineUp : Bool) (x : Num α) : Num α :=
  if lineUp then
    (if x.val < a.val then f1 x
     else if b.val < x.val then ((if b.val < a.val then f1 b else ((f1 a).sub (f2 a)).add (f2 b)).sub (f1 b)).add (f1 x)
     else ((f1 a).sub (f2 a)).add (f2 x))
  else (if x.val < a.val ∨ b.val < x.val then f1 x else f2 x)

/-- `Y * Y_weight + np.random.randn(*X.shape) * noise_weight`, with the random numbers given. -/
def noisy (w nw : α) : List (Num α) → List α → List α
  | y :: ys, e :: es => (y.val * w + e * nw) :: noisy w nw ys es
  | _, _ => []

/-- `generate_data`, `dataAndPlottingUtil.py:41-44`, and with `cpF` and `cwF` for `f` `generate_changepoint_data` and `generate_changewindow_data`, lines 48-58. -/
def generate (f : Num α → Num α) (X : List (Num α)) (w nw : α) (noise : List α) : Option (List (Num α) × List α) :=
  (vectorize f X).map (fun ys => (X, noisy w nw ys noise))

end
end Vec
end GPyABCD
