import Verif.Spec.Interp

/-!
# Specification: which ends and slopes a description may tell
-/

namespace GPyABCD
namespace Interp
open Sops

variable {α : Type} [Add α]

/-- A sigmoid with these parameters switches on at `s`. -/
def SwitchesOn (b : Base) (p : PD α) (s : α) : Prop :=
  match b with
  | .S | .SI => p.location = some s
  | .SIr => ∃ l w, p.location = some l ∧ p.width = some w ∧ s = l + w
  | _ => False

/-- A sigmoid with these parameters switches off at `e`. -/
def SwitchesOff (b : Base) (p : PD α) (e : α) : Prop :=
  match b with
  | .Sr | .SIr => p.location = some e
  | .SI => ∃ l w, p.location = some l ∧ p.width = some w ∧ e = l + w
  | _ => False

/-- Every end that is told is one of a sigmoid among the factors. -/
def EndsOf (fs : List (Base × PD α)) : IvlText α → Prop
  | .until e _ => ∃ f ∈ fs, SwitchesOff f.1 f.2 e
  | .from s _ => ∃ f ∈ fs, SwitchesOn f.1 f.2 s
  | .between s e _ => (∃ f ∈ fs, SwitchesOn f.1 f.2 s) ∧ ∃ f ∈ fs, SwitchesOff f.1 f.2 e

/-- Every slope that is told is that of a sigmoid with the end it is told with; `slope` gives the slopes. -/
def SlopesOf (slope : PD α → Option α) (fs : List (Base × PD α)) : IvlText α → Prop
  | .until e a => ∀ x ∈ a, ∃ f ∈ fs, SwitchesOff f.1 f.2 e ∧ slope f.2 = some x
  | .from s a => ∀ x ∈ a, ∃ f ∈ fs, SwitchesOn f.1 f.2 s ∧ slope f.2 = some x
  | .between _ _ .none => True
  | .between s e (.same x) => (∃ f ∈ fs, SwitchesOn f.1 f.2 s ∧ slope f.2 = some x) ∧ ∃ f ∈ fs, SwitchesOff f.1 f.2 e ∧ slope f.2 = some x
  | .between s e (.two x y) => (∃ f ∈ fs, SwitchesOn f.1 f.2 s ∧ slope f.2 = some x) ∧ ∃ f ∈ fs, SwitchesOff f.1 f.2 e ∧ slope f.2 = some y

/-- A slope is told for every end. -/
def AllTold : IvlText α → Prop
  | .until _ a => a.isSome
  | .from _ a => a.isSome
  | .between _ _ a => a ≠ .none

/-- The factors in dictionaries of parameters. -/
def factors (ps : PDict α) : List (Base × PD α) := ps.flatMap (fun e => e.2.map (fun p => (e.1, p)))

end Interp
end GPyABCD
