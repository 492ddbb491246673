import Verif.Model.Intervals
import Mathlib.Data.Set.Basic

/-!
# Specification: the region of the line where sigmoids are on
-/

namespace GPyABCD
namespace Interval

variable {α : Type} [LinearOrder α]

/-- The points an interval description covers. -/
def covers (i : Ivl α) (x : α) : Prop := (∀ s ∈ i.start, s < x) ∧ (∀ e ∈ i.stop, x < e)

/-- The points a list of interval descriptions covers; a `None` covers nothing. -/
def coversL (l : List (Option (Ivl α))) (x : α) : Prop := ∃ i, some i ∈ l ∧ covers i x

/-- The points where a group of sigmoids is on: all of them must be. -/
def Group.on [Add α] (x : α) : Group α → Prop
  | .S ps => ∀ p ∈ ps, p.loc < x
  | .Sr ps => ∀ p ∈ ps, x < p.loc
  | .SI ps => ∀ p ∈ ps, p.loc < x ∧ x < p.loc + p.width
  | .SIr ps => ∀ p ∈ ps, x < p.loc ∨ p.loc + p.width < x

/-- Windows have non-negative width. -/
def Group.widths [Add α] : Group α → Prop
  | .SIr ps => ∀ p ∈ ps, p.loc ≤ p.loc + p.width
  | _ => True

/-- A sigmoid of the group switches on at `s` with slope `a`. -/
def Group.startsAt [Add α] (s a : α) : Group α → Prop
  | .S ps => ∃ p ∈ ps, p.loc = s ∧ p.slope = a
  | .Sr _ => False
  | .SI ps => ∃ p ∈ ps, p.loc = s ∧ p.slope = a
  | .SIr ps => ∃ p ∈ ps, p.loc + p.width = s ∧ p.slope = a

/-- A sigmoid of the group switches off at `e` with slope `a`. -/
def Group.stopsAt [Add α] (e a : α) : Group α → Prop
  | .S _ => False
  | .Sr ps => ∃ p ∈ ps, p.loc = e ∧ p.slope = a
  | .SI ps => ∃ p ∈ ps, p.loc + p.width = e ∧ p.slope = a
  | .SIr ps => ∃ p ∈ ps, p.loc = e ∧ p.slope = a

/-- A gap between windows: it goes from the end of one to the start of another, and no window meets it. -/
def Gap [Add α] (qs : List (SigP α)) (s e : α) : Prop :=
  s < e ∧ (∃ a ∈ qs, a.loc + a.width = s) ∧ (∃ b ∈ qs, b.loc = e) ∧ ∀ q ∈ qs, q.loc + q.width ≤ s ∨ e ≤ q.loc

/-- A window that may follow others: it does not start before the first of them, and neither starts nor ends in a gap between them. -/
def Fits [Add α] (qs : List (SigP α)) (p : SigP α) : Prop :=
  (∀ f ∈ qs.head?, f.loc ≤ p.loc) ∧
    ∀ s e, Gap qs s e → ¬ (s < p.loc ∧ p.loc ≤ e) ∧ ¬ (s ≤ p.loc + p.width ∧ p.loc + p.width < e)

/-- A bounded piece of a region: it goes from one point outside to the next. -/
def Piece (R : α → Prop) (a b : α) : Prop := a < b ∧ (∀ x, a < x → x < b → R x) ∧ ¬ R a ∧ ¬ R b

/-- A group of reversed windows. -/
def Group.reversed : Group α → Bool
  | .SIr _ => true
  | _ => false

/-- A group of windows. -/
def Group.window : Group α → Bool
  | .SI _ => true
  | _ => false

/-- A group that may follow others: reversed windows only where all of those are on somewhere, windows only if they are on somewhere together
(unless the others never are), and every bounded piece overlaps every bounded piece of the others. -/
def Meets [Add α] (qs : List (Group α)) (g : Group α) : Prop :=
  (g.reversed = true → ∃ x, ∀ q ∈ qs, q.on x) ∧ (g.window = true → (∃ x, ∀ q ∈ qs, q.on x) → ∃ x, g.on x) ∧
    ∀ a b c d, Piece (fun x => ∀ q ∈ qs, q.on x) a b → Piece (fun x => g.on x) c d → ∃ x, (a < x ∧ x < b) ∧ c < x ∧ x < d

/-- Reversed windows are listed so that each fits those before it. -/
def Group.fitted [Add α] : Group α → Prop
  | .SIr ps => ∀ qs p rest, ps = qs ++ p :: rest → qs ≠ [] → Fits qs p
  | _ => True

/-- A group that is not empty. -/
def Group.nonempty : Group α → Prop
  | .S ps => ps ≠ []
  | .Sr ps => ps ≠ []
  | .SI ps => ps ≠ []
  | .SIr ps => ps ≠ []

end Interval
end GPyABCD
