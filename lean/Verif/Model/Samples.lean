import Mathlib.Data.List.Basic

/-!
# Curves sampled from a kernel

`sampleCurves` of `/repo/GPy_ABCD/Util/kernelUtil.py`. Random numbers are read from a stream of seeds: `randomise` and `sample` are any functions of the kernel and
of a seed, and the `i`-th random call uses the `i`-th seed. Points, covariances and the plot as such are not modelled: the plot is its list of lines.
-/

namespace GPyABCD
namespace Samples

/-- What the random calls do: `k.randomize()` and `np.random.multivariate_normal(mu, k.K(X, X))`. -/
structure Source (κ ζ : Type) where
  randomise : Nat → κ → κ
  sample : Nat → κ → ζ

variable {κ ζ : Type}

/-- The comprehension of `sampleCurves`, `kernelUtil.py:18`: `k.randomize()` returns `None`, so its condition holds and the kernel was changed. `s` is the next seed. -/
def fresh (src : Source κ ζ) : Nat → Nat → κ → List ζ × κ
  | _, 0, k => ([], k)
  | s, n + 1, k =>
    let k' := src.randomise s k
    let r := fresh src (s + 2) n k'
    (src.sample (s + 1) k' :: r.1, r.2)

/-- `Z`, `kernelUtil.py:15-18`, as the list of its columns, and the kernel afterwards. One call of `multivariate_normal` with a size is read as as many draws. -/
def curves (src : Source κ ζ) (nCurves : Nat) (sameKernel : Bool) (k : κ) : List ζ × κ :=
  if sameKernel then
    let k' := src.randomise 0 k
    ((List.range nCurves).map fun i => src.sample (i + 1) k', k')
  else fresh src 0 nCurves k

/-- The names of the columns of `df` but `'X'`, `kernelUtil.py:20`: `[n + 1 for n in range(Z.shape[1])]`. -/
def columnNames (m : Nat) : List Nat := (List.range m).map (· + 1)

/-- `value_vars`, `kernelUtil.py:21`: `list(range(Z.shape[1]))[1:]`. -/
def valueVars (m : Nat) : List Nat := (List.range m).drop 1

/-- The column of a name: `none` is `KeyError`. -/
def column (df : List (Nat × ζ)) (v : Nat) : Option ζ :=
  match df with
  | [] => none
  | (a, z) :: r => if a = v then some z else column r v

/-- `pd.melt(df, id_vars = ['X'], value_vars = …)`, a line for each name. -/
def melt (df : List (Nat × ζ)) : List Nat → Option (List (Nat × ζ))
  | [] => some []
  | v :: vs =>
    match column df v, melt df vs with
    | some z, some r => some ((v, z) :: r)
    | _, _ => none

/-- `sampleCurves(k, xlims, n_curves, same_kernel)`, `kernelUtil.py:11-22`: the lines of the plot and the kernel afterwards. `none` is an exception: without curves
`np.array([])` has one dimension only and can not be put beside `X` (`:20`). -/
def sampleCurves (src : Source κ ζ) (nCurves : Nat) (sameKernel : Bool) (k : κ) : Option (List (Nat × ζ) × κ) :=
  let z := curves src nCurves sameKernel k
  if z.1.isEmpty && !sameKernel then none
  else
    match melt ((columnNames z.1.length).zip z.1) (valueVars z.1.length) with
    | none => none
    | some lines => some (lines, z.2)

end Samples
end GPyABCD
