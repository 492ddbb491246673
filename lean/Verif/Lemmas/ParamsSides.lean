import Verif.Model.Params

/-!
# Names and parameters of kernels are those in the tables of expressions
-/

namespace GPyABCD
namespace Params

@[simp] theorem kerName_eq (c : CC) : kerName c = changeName c := by cases c <;> rfl

@[simp] theorem kerPars_eq (cfg : Cfg) (c : CC) : kerPars cfg c = changePars cfg c := by cases c <;> rfl

@[simp] theorem combName_eq (op : Op) : combName op = opName op := by cases op <;> rfl

end Params
end GPyABCD
