import Verif.Model.Gradients

/-!
# Three-part change windows

`Kernels/changeWindowThreePart.py` (`ChangeWindowIndependentBase`) and `Kernels/changeWindowShiftedSides.py`
(`ChangeWindowShiftedSidesBase`): diagonals, gradients, and how the kernel's own parameters get to the three sigmoids in it.
`K` is in `Model/Gradients.lean`. `X2 = None` throughout. `update_parameter_bounds` (`changeWindowThreePart.py:75-92`), which
only assigns parameters to themselves under other constraints, is left out.
-/

namespace GPyABCD.Kern

/-- `Kdiag` of a sigmoid kernel of variance 1 (GPy's `BasisFuncKernel.Kdiag`: the square of the basis function). -/
noncomputable def sigDiag {n : ℕ} (phi : ℝ → ℝ) (X : Fin n → ℝ) : Fin n → ℝ := fun i => 1 * phi (X i) ^ 2

/-- `ChangeWindowIndependentBase.Kdiag`, `changeWindowThreePart.py:68-70`. -/
noncomputable def threePartKdiag {n : ℕ} (d1 d2 d3 : Fin n → ℝ) (l s w : ℝ) (X : Fin n → ℝ) : Fin n → ℝ := fun i =>
  d1 i * sigDiag (phiS l s true) X i + d2 i * sigDiag (phiSI l s w false) X i + d3 i * sigDiag (phiS (l + w) s false) X i

/-- `ChangeWindowShiftedSidesBase.Kdiag`, `changeWindowShiftedSides.py:71-74`. -/
noncomputable def shiftedSidesKdiag {n : ℕ} (d1 d2 : Fin n → ℝ) (shift l s w : ℝ) (X : Fin n → ℝ) : Fin n → ℝ := fun i =>
  d1 i * sigDiag (phiS l s true) X i + d2 i * sigDiag (phiSI l s w false) X i + (d1 i + shift) * sigDiag (phiS (l + w) s false) X i

/-- The covariance of one of the sigmoids on the data. -/
noncomputable def sigK {n : ℕ} (phi : ℝ → ℝ) (X : Fin n → ℝ) : Fin n → Fin n → ℝ := matK (basisK 1 phi) X X

/-- What a call of `ChangeWindowIndependentBase.update_gradients_full` does, `changeWindowThreePart.py:94-108`: the matrices that the three
branches are given in place of `dL_dK`, and the values written to the kernel's own gradients (the slope's unless it is fixed). -/
structure ThreeGrad (n : ℕ) where
  /-- given to `first` -/
  first : Fin n → Fin n → ℝ
  /-- given to `second` -/
  second : Fin n → Fin n → ℝ
  /-- given to `third` -/
  third : Fin n → Fin n → ℝ
  /-- `location.gradient` -/
  loc : ℝ
  /-- `slope.gradient` -/
  slope : Option ℝ
  /-- `width.gradient` -/
  width : ℝ

/-- `ChangeWindowIndependentBase.update_gradients_full`, `changeWindowThreePart.py:94-108`: only the indicator's gradients are used. -/
noncomputable def threePartGrad {n : ℕ} (l s w : ℝ) (fixed : Bool) (second : Cov) (dL : Fin n → Fin n → ℝ) (X : Fin n → ℝ) : ThreeGrad n :=
  let g := gradSI 1 l s w false false (fun i j => dL i j * second (X i) (X j)) X none
  { first := fun i j => dL i j * sigK (phiS l s true) X i j
    second := fun i j => dL i j * sigK (phiSI l s w false) X i j
    third := fun i j => dL i j * sigK (phiS (l + w) s false) X i j
    loc := g.1
    slope := if fixed then none else g.2.1
    width := g.2.2 }

/-- What a call of `ChangeWindowShiftedSidesBase.update_gradients_full` does, `changeWindowShiftedSides.py:98-114`. -/
structure ShiftGrad (n : ℕ) where
  /-- given to `first` -/
  first : Fin n → Fin n → ℝ
  /-- given to `second` -/
  second : Fin n → Fin n → ℝ
  /-- `shift_variance.gradient` -/
  shift : ℝ
  /-- `location.gradient` -/
  loc : ℝ
  /-- `slope.gradient` -/
  slope : Option ℝ
  /-- `width.gradient` -/
  width : ℝ

/-- `ChangeWindowShiftedSidesBase.update_gradients_full`, `changeWindowShiftedSides.py:98-114`. -/
noncomputable def shiftedSidesGrad {n : ℕ} (l s w : ℝ) (fixed : Bool) (second : Cov) (dL : Fin n → Fin n → ℝ) (X : Fin n → ℝ) : ShiftGrad n :=
  let g := gradSI 1 l s w false false (fun i j => dL i j * second (X i) (X j)) X none
  { first := fun i j => dL i j * (sigK (phiS l s true) X i j + sigK (phiS (l + w) s false) X i j)
    second := fun i j => dL i j * sigK (phiSI l s w false) X i j
    shift := msum dL (sigK (phiS (l + w) s false) X)
    loc := g.1
    slope := if fixed then none else g.2.1
    width := g.2.2 }

/-- The gradients that the three sigmoids would have, were the commented-out calls of `changeWindowThreePart.py:101, 104` made: location and slope of
the reversed sigmoid, then of the sigmoid after the window. -/
noncomputable def outerGrads {n : ℕ} (l s w : ℝ) (first third : Cov) (dL : Fin n → Fin n → ℝ) (X : Fin n → ℝ) : (ℝ × Option ℝ) × (ℝ × Option ℝ) :=
  (gradS 1 l s true false (fun i j => dL i j * first (X i) (X j)) X none,
   gradS 1 (l + w) s false false (fun i j => dL i j * third (X i) (X j)) X none)

/-- Location and width gradients with the commented-out summands of `changeWindowThreePart.py:106, 108`. -/
noncomputable def commentedGrad {n : ℕ} (l s w : ℝ) (first second third : Cov) (dL : Fin n → Fin n → ℝ) (X : Fin n → ℝ) : ℝ × ℝ :=
  let g := threePartGrad l s w false second dL X
  let o := outerGrads l s w first third dL X
  (g.loc + o.1.1 + (o.2.1 - g.width), g.width + (o.2.1 - g.loc))

/-! ## Own parameters -/

/-- Location, slope and width; `none` is `nan`. -/
structure Own where
  /-- `location` -/
  loc : Option ℝ
  /-- `slope` -/
  slope : Option ℝ
  /-- `width` -/
  width : Option ℝ

/-- `x + y` of numbers that may be `nan`. -/
noncomputable def nanAdd : Option ℝ → Option ℝ → Option ℝ
  | some x, some y => some (x + y)
  | _, _ => none

/-- A three-part window: its own parameters, `last_parameter_values`, and the parameters of the three sigmoids. -/
structure Win where
  /-- `self.location`, `self.slope`, `self.width` -/
  own : Own
  /-- `self.last_parameter_values` -/
  last : Own
  /-- `sigmoidal_indicator` -/
  ind : Own
  /-- `sigmoidal_reverse`: location and slope -/
  rev : Option ℝ × Option ℝ
  /-- `sigmoidal`: location and slope -/
  sig : Option ℝ × Option ℝ

/-- `__init__`, `changeWindowThreePart.py:30-39`: all sigmoids at the location. -/
def Win.init (p : Own) : Win := ⟨p, p, p, (p.loc, p.slope), (p.loc, p.slope)⟩

/-- Handing the own parameters to the sigmoids, `changeWindowThreePart.py:59-62`, `changeWindowShiftedSides.py:60-63`. -/
noncomputable def Win.handOn (x : Win) : Win :=
  { x with ind := x.own, rev := (x.own.loc, x.own.slope), sig := (nanAdd x.own.loc x.own.width, x.own.slope) }

/-- `if np.isnan(v): v = last else: last = v`, `changeWindowThreePart.py:52-57`: the value and the remembered one. -/
def nanGuard (v last : Option ℝ) : Option ℝ × Option ℝ :=
  match v with
  | none => (last, last)
  | some x => (some x, some x)

/-- `ChangeWindowIndependentBase.parameters_changed`, `changeWindowThreePart.py:51-62`. Assigning a parameter makes paramz call
`parameters_changed` again, which finds the value it has just got and ends in the same state. -/
noncomputable def Win.changed3 (x : Win) : Win :=
  let l := nanGuard x.own.loc x.last.loc
  let s := nanGuard x.own.slope x.last.slope
  let w := nanGuard x.own.width x.last.width
  Win.handOn { x with own := ⟨l.1, s.1, w.1⟩, last := ⟨l.2, s.2, w.2⟩ }

/-- `ChangeWindowShiftedSidesBase.parameters_changed`, `changeWindowShiftedSides.py:52-63`: no guards. -/
noncomputable def Win.changedS (x : Win) : Win := x.handOn

/-- The optimiser writes parameters, and `parameters_changed` is called; first of all it is called after construction. -/
noncomputable def Win.run (changed : Win → Win) (p : Own) (ws : List Own) : Win :=
  ws.foldl (fun x p => changed { x with own := p }) (changed (Win.init p))

end GPyABCD.Kern
