import Verif.Model.Interp

/-!
# Specification: sentences with other numbers

`Rel R`: the same sentence but for the numbers, which are related by `R` place by place.
-/

namespace GPyABCD
namespace Interp

/-- The characters of printed numbers. -/
def numC (c : Char) : Bool := c.isDigit || c == '-' || c == '.'

/-- Numbers are printed with the characters of numbers. -/
def Plain {α : Type} (fmt : α → String) : Prop := ∀ v, (fmt v).toList ≠ [] ∧ ∀ c ∈ (fmt v).toList, numC c = true

variable {α β : Type}

/-- Change slopes. -/
inductive Slopes.Rel (R : α → β → Prop) : Slopes α → Slopes β → Prop
  | none : Rel R .none .none
  | same {a b} : R a b → Rel R (.same a) (.same b)
  | two {a b a' b'} : R a b → R a' b' → Rel R (.two a a') (.two b b')

/-- Intervals. -/
inductive IvlText.Rel (R : α → β → Prop) : IvlText α → IvlText β → Prop
  | until {a b s t} : R a b → Option.Rel R s t → Rel R (.until a s) (.until b t)
  | from {a b s t} : R a b → Option.Rel R s t → Rel R (.from a s) (.from b t)
  | between {a b a' b' s t} : R a b → R a' b' → Slopes.Rel R s t → Rel R (.between a a' s) (.between b b' t)

/-- First terms. -/
inductive First.Rel (R : α → β → Prop) : First α → First β → Prop
  | noise : Rel R .noise .noise
  | constant : Rel R .constant .constant
  | smooth {a b} : R a b → Rel R (.smooth a) (.smooth b)
  | periodic {a b a' b'} : R a b → R a' b' → Rel R (.periodic a a') (.periodic b b')
  | periodics {p q l m} : R p.1 q.1 → R p.2 q.2 → List.Forall₂ (fun p q => R p.1 q.1 ∧ R p.2 q.2) l m → Rel R (.periodics p l) (.periodics q m)
  | linear {a b} : Option.Rel R a b → Rel R (.linear a) (.linear b)
  | polynomial {n l m} : Option.Rel (List.Forall₂ R) l m → Rel R (.polynomial n l) (.polynomial n m)

/-- Modifiers. -/
inductive Modifier.Rel (R : α → β → Prop) : Modifier α → Modifier β → Prop
  | smooth {a b} : R a b → Rel R (.smooth a) (.smooth b)
  | linear {a b} : Option.Rel R a b → Rel R (.linear a) (.linear b)
  | polynomial {n l m} : Option.Rel (List.Forall₂ R) l m → Rel R (.polynomial n l) (.polynomial n m)
  | intervals {l m} : List.Forall₂ (IvlText.Rel R) l m → Rel R (.intervals l) (.intervals m)

/-- Sentences. -/
structure Sentence.Rel (R : α → β → Prop) (s : Sentence α) (t : Sentence β) : Prop where
  /-- first terms -/
  first : First.Rel R s.first t.first
  /-- modifiers -/
  mods : List.Forall₂ (Modifier.Rel R) s.mods t.mods
  /-- whether there are sigmoids -/
  bounded : s.bounded = t.bounded
  /-- variances -/
  var : R s.var t.var

end Interp
end GPyABCD
