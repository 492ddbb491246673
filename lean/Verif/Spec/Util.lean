import Mathlib.Data.List.Perm.Basic

/-!
# Specifications for the generic utilities
-/

namespace GPyABCD

/-- A consumption run: repeatedly take the first element satisfying `c`, fold it in with `f` and update what
is left with `g`, until no element satisfies `c`. From elements and accumulator to final accumulator and
leftover elements. -/
inductive Consume {α β : Type} (f : β → α → β) (g : β → α → List α → List α) (c : α → Bool) :
    List α → β → β → List α → Prop
  | stop {xs : List α} {acc : β} (h : ∀ x ∈ xs, c x = false) : Consume f g c xs acc acc xs
  | take {l1 l2 rest : List α} {x : α} {acc acc' : β} (h1 : ∀ z ∈ l1, c z = false) (h2 : c x = true)
      (h3 : Consume f g c (g acc x (l1 ++ l2)) (f acc x) acc' rest) : Consume f g c (l1 ++ x :: l2) acc acc' rest

/-- A dependency order: all the nodes, each once, every dependency before its dependents. -/
def IsTopo {α : Type} (xs : List (α × List α)) (l : List α) : Prop :=
  l.Perm (xs.map Prod.fst) ∧ ∀ p ∈ xs, ∀ l1 l2, l = l1 ++ p.1 :: l2 → ∀ d ∈ p.2, d ∈ l1

end GPyABCD
