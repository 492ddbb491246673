import Verif.Model.KernelTree

/-!
# Saving kernels

`to_dict` of the kernels that `to_kernel` makes (`Params.GK`) and `_build_from_input_dict` of the linear ones.

Sources: `Kernels/linearKernel.py:56-66`, `Kernels/linearOffsetKernel.py:45-55`, `Kernels/periodicKernel.py:86-92`, `Kernels/changeOperators.py:39-47`.
(The change windows behind flags save in the same words: `changeWindowThreePart.py:41-49`, `changeWindowShiftedSides.py:42-50`.)

Assumed of GPy, which is not in the repository:
* `Kern._save_to_input_dict` saves the name and things that are the same for all kernels here (one input, no GPU); those are left out;
* `CombinationKernel._save_to_input_dict` adds the entry `parts`, the dictionaries of the parts in order;
* `Add.to_dict` and `Prod.to_dict` add the class;
* `White`, `Bias` and `RBF` save variance and lengthscale; other kernels raise `NotImplementedError`, in particular the sigmoids, which do not
  override `to_dict`.

Simplification: the parts of a change kernel are copies of the branches it was given, made in the constructor; here they are those branches (C55).
-/

namespace GPyABCD
namespace Saved
open Params Sops Kern

/-- A value in a dictionary. -/
inductive Val
  /-- `….values.tolist()`: a list of numbers. -/
  | floats (l : List ℝ)
  /-- A truth value. -/
  | flag (b : Bool)
  /-- A parameter object of paramz, which is a numpy array. -/
  | param (v : ℝ)

/-- What `to_dict` returns: the entries `class`, `name` and `parts` (empty if there is none), and the other entries. -/
inductive SD
  | mk (cls : String) (name : Str) (fields : List (String × Val)) (parts : List SD)

/-- `to_dict` of a base kernel: `linearKernel.py:56-61`, `linearOffsetKernel.py:45-50`, `periodicKernel.py:86-92`; the others are GPy's. `none`: `NotImplementedError`. -/
noncomputable def savedBase (cfg : Cfg) (b : Base) (p : PD ℝ) : Option SD :=
  let name := (baseName cfg b).getD []
  match b with
  | .WN => some (.mk "GPy.kern.White" name [("variance", .floats [varOf p])] [])
  | .C => some (.mk "GPy.kern.Bias" name [("variance", .floats [varOf p])] [])
  | .SE => some (.mk "GPy.kern.RBF" name [("variance", .floats [varOf p]), ("lengthscale", .floats [p.lengthscale.getD 1])] [])
  | .LIN =>
    if cfg.linOffset then some (.mk "LinearWithOffset" name [("variance", .floats [varOf p]), ("offset", .param (p.offset.getD 0))] [])
    else some (.mk "GPy.kern.Linear" name [("variance", .floats [varOf p]), ("ARD", .flag false)] [])
  | .PER => some (.mk "BesselShiftedPeriodic" name
      [("variance", .floats [varOf p]), ("period", .floats [p.period.getD 1]), ("lengthscale", .floats [p.lengthscale.getD 1])] [])
  | _ => none

/-- The class GPy's `Add` and `Prod` save. -/
def combClass : Op → String
  | .sum => "GPy.kern.Add"
  | .prod => "GPy.kern.Prod"

mutual
/-- `to_dict`; change kernels: `changeOperators.py:39-47`. -/
noncomputable def saved (cfg : Cfg) : GK ℝ → Option SD
  | .base b p => savedBase cfg b p
  | .comb op parts => (savedL cfg parts).map fun ds => .mk (combClass op) (combName op) [] ds
  | .change c _ l r => do
    let a ← saved cfg l
    let b ← saved cfg r
    return .mk "ChangeKernel" (kerName c) [] [a, b]
/-- Over a list. -/
noncomputable def savedL (cfg : Cfg) : List (GK ℝ) → Option (List SD)
  | [] => some []
  | k :: ks => do
    let a ← saved cfg k
    let as ← savedL cfg ks
    return a :: as
end

/-- An entry that is one number, as a constructor takes it: a list of one number or an array of one number. -/
def number (fields : List (String × Val)) (key : String) : Option ℝ :=
  match fields.lookup key with
  | some (.floats [v]) => some v
  | some (.param v) => some v
  | _ => none

/-- `_build_from_input_dict` of the linear kernels: `linearKernel.py:63-66, 36-54` and `linearOffsetKernel.py:52-55, 32-43`. With an ARD entry that is true there would be
one variance per input, of which there is one. `none`: the constructor does not take the entries. -/
noncomputable def buildLin (cfg : Cfg) : SD → Option (GK ℝ)
  | .mk _ _ fields _ =>
    if cfg.linOffset then
      match number fields "variance", number fields "offset" with
      | some v, some o => some (.base .LIN { variance := some v, offset := some o })
      | _, _ => none
    else
      match number fields "variance" with
      | some v => some (.base .LIN { variance := some v })
      | none => none

end Saved
end GPyABCD
