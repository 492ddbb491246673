import Verif.Model.Kernels
import Mathlib.Analysis.SpecialFunctions.Log.Basic

/-!
# Scores, synthetic data, and the objects inside a change kernel
-/

namespace GPyABCD

/-! ## Scores, `/repo/GPy_ABCD/Util/modelUtil.py:12-14` (`ll` log-likelihood, `n` data points, `k` parameters) -/

namespace Score

/-- `BIC`, `modelUtil.py:12`. -/
noncomputable def bic (ll : ℝ) (n k : ℕ) : ℝ := -2 * ll + k * Real.log n

/-- `AIC`, `modelUtil.py:13`. -/
noncomputable def aic (ll : ℝ) (_n k : ℕ) : ℝ := 2 * (-ll + k)

/-- `AICc`, `modelUtil.py:14`; `none` is `ZeroDivisionError`. -/
noncomputable def aicc (ll : ℝ) (n k : ℕ) : Option ℝ :=
  if (n : ℤ) - k - 1 = 0 then none
  else some (2 * (-ll + k + ((k : ℝ) ^ 2 + k) / ((n : ℝ) - k - 1)))

end Score

/-! ## Synthetic data, `/repo/GPy_ABCD/Util/dataAndPlottingUtil.py:21-38` -/

namespace Data

/-- `cp_f_maker`, `dataAndPlottingUtil.py:21-28`. -/
noncomputable def cpF (f1 f2 : ℝ → ℝ) (cp : ℝ) (lineUp : Bool) (x : ℝ) : ℝ :=
  if lineUp then (if x < cp then f1 x else (f1 cp - f2 cp) + f2 x)
  else (if x < cp then f1 x else f2 x)

/-- `cw_f_lined_up(cw_end)`, the recursive call of `dataAndPlottingUtil.py:36`: its argument is not beyond
the end, so it takes one of the other two branches. -/
noncomputable def cwEnd (f1 f2 : ℝ → ℝ) (a b : ℝ) : ℝ := if b < a then f1 b else (f1 a - f2 a) + f2 b

/-- `cw_f_maker`, `dataAndPlottingUtil.py:30-38`. -/
noncomputable def cwF (f1 f2 : ℝ → ℝ) (a b : ℝ) (lineUp : Bool) (x : ℝ) : ℝ :=
  if lineUp then
    (if x < a then f1 x else if x > b then (cwEnd f1 f2 a b - f1 b) + f1 x else (f1 a - f2 a) + f2 x)
  else (if x < a ∨ x > b then f1 x else f2 x)

end Data

/-! ## Objects of a change kernel

`ChangeKernelBase.__init__` links copies of the branches to the change kernel (what the optimiser and
`model.kern` see) but stores the originals in `first` and `second`, which `K` uses. A branch kernel is an
address into a store of parameter values. `fresh` says whether `Kern.copy` makes a new object, as GPy's
does; with `fresh = false` it would hand back the same one. -/

namespace ChangeObj

/-- Parameter values of the kernel objects. -/
structure Store (θ : Type) where
  /-- first unused address -/
  next : ℕ
  /-- values by address -/
  get : ℕ → θ

/-- Assigning to the parameters of an object. -/
def Store.set {θ : Type} (h : Store θ) (a : ℕ) (t : θ) : Store θ := ⟨h.next, fun b => if b = a then t else h.get b⟩

/-- `kern.copy()`. -/
def Store.copy {θ : Type} (fresh : Bool) (h : Store θ) (a : ℕ) : ℕ × Store θ :=
  if fresh then (h.next, ⟨h.next + 1, fun b => if b = h.next then h.get a else h.get b⟩) else (a, h)

/-- Parameters of a sigmoid. -/
structure Sig where
  /-- location -/
  loc : ℝ
  /-- slope -/
  slope : ℝ
  /-- width; changewindows only -/
  width : ℝ

/-- A change kernel object. -/
structure Obj where
  /-- `first`, `second` -/
  first : ℕ
  second : ℕ
  /-- the linked copies -/
  link1 : ℕ
  link2 : ℕ
  /-- the change kernel's own parameters -/
  own : Sig
  /-- parameters of `sigmoidal` and of `sigmoidal_reverse` -/
  sig : Sig
  sigR : Sig

/-- `ChangeKernelBase.__init__`, `Kernels/changeOperators.py:15-37`, and of the two subclasses; linking the
parameters runs `parameters_changed`. -/
def init {θ : Type} (fresh : Bool) (h : Store θ) (first second : ℕ) (p : Sig) : Obj × Store θ :=
  let c1 := h.copy fresh first
  let c2 := c1.2.copy fresh second
  (⟨first, second, c1.1, c2.1, p, p, p⟩, c2.2)

/-- Writing one of the parameters the optimiser sees. -/
inductive Write (θ : Type)
  | branch1 (t : θ) | branch2 (t : θ) | loc (x : ℝ) | slope (x : ℝ) | width (x : ℝ)

/-- `parameters_changed`, `changeOperators.py:49-51, 112-114`. -/
def changed (o : Obj) : Obj := { o with sig := o.own, sigR := o.own }

/-- A write through the change kernel, with the notification that follows it. -/
def write {θ : Type} (s : Obj × Store θ) : Write θ → Obj × Store θ
  | .branch1 t => (changed s.1, s.2.set s.1.link1 t)
  | .branch2 t => (changed s.1, s.2.set s.1.link2 t)
  | .loc x => (changed { s.1 with own := { s.1.own with loc := x } }, s.2)
  | .slope x => (changed { s.1 with own := { s.1.own with slope := x } }, s.2)
  | .width x => (changed { s.1 with own := { s.1.own with width := x } }, s.2)

/-- The basis function of a sigmoid (`SigmoidalKernel` for changepoints, `SigmoidalIndicatorKernel` for
changewindows). -/
noncomputable def basis (c : CC) (rev : Bool) (p : Sig) : ℝ → ℝ :=
  match c with
  | .CP => Kern.phiS p.loc p.slope rev
  | .CW => Kern.phiSI p.loc p.slope p.width rev

/-- `ChangeKernelBase.K`, `changeOperators.py:54-55`: uses `first`, `second` and the two sigmoids. -/
noncomputable def K {θ : Type} (c : CC) (kern : ℕ → θ → Cov) (s : Obj × Store θ) : Cov :=
  Kern.changeK (kern 1 (s.2.get s.1.first)) (kern 2 (s.2.get s.1.second)) (basis c false s.1.sig) (basis c true s.1.sigR)

end ChangeObj
end GPyABCD
