import Verif.Model.Sops
import Mathlib.Algebra.BigOperators.Group.List.Basic
import Mathlib.Algebra.Ring.Defs

/-!
# Specification: the covariance of a fitted expression

Parameters have values in a type `α` with a multiplication; `φ` sends them to a commutative ring, and `shape b p` is the covariance, at some fixed
pair of inputs, of the base kernel `b` with parameters `p` and variance one. A fitted expression is then an element of the ring:
terms of a sum are added, factors multiplied, and a change operator weighs its branches by its two sigmoids.
-/

namespace GPyABCD
namespace Sops

variable {α : Type}

/-- The sigmoid that weighs the first branch of a change operator: it falls at a changepoint, and is low inside a window. Named here
again, so that nothing said about the covariance rests on the names the code chose (`Props/Sops.lean` ties them to the change kernels). -/
def firstWeight : CC → Base
  | .CP => .Sr
  | .CW => .SIr

/-- The sigmoid that weighs the second branch: it rises at a changepoint, and is high inside a window. -/
def secondWeight : CC → Base
  | .CP => .S
  | .CW => .SI

section
variable {R : Type} [CommRing R] (φ : α → R) (shape : Base → PD α → R)

/-- A variance, one if there is none. -/
def varVal (v : Option α) : R := (v.map φ).getD 1

/-- One term: its variance times its shape. -/
def termVal (b : Base) (p : PD α) : R := varVal φ p.variance * shape b p.noVar

mutual
/-- The covariance of a fitted expression, read off its parameters. -/
def eval : PKE α → R
  | .leaf b p => termVal φ shape b p
  | .comm .sum _ ps _ cts => (ps.map (fun e => (e.2.map (termVal φ shape e.1)).sum)).sum + evalSum cts
  | .comm .prod _ ps pv cts => varVal φ pv * (ps.map (fun e => (e.2.map (termVal φ shape e.1)).prod)).prod * evalProd cts
  | .change c p l r => eval l * termVal φ shape (firstWeight c) p + eval r * termVal φ shape (secondWeight c) p
/-- Sum over the composite terms. -/
def evalSum : List (PKE α) → R
  | [] => 0
  | k :: ks => eval k + evalSum ks
/-- Product over the composite terms. -/
def evalProd : List (PKE α) → R
  | [] => 1
  | k :: ks => eval k * evalProd ks
end

/-- What is true of the base kernels: a constant has shape one, and white noise is not changed by multiplying it with a
stationary shape (which is one where the noise is not zero). -/
structure ShapeLaws [Mul α] [One α] : Prop where
  /-- variances multiply -/
  one : φ 1 = 1
  /-- variances multiply -/
  mul : ∀ a b, φ (a * b) = φ a * φ b
  /-- constant -/
  const : ∀ p, shape .C p = 1
  /-- noise absorbs stationary shapes -/
  noise : ∀ b p q, b = .C ∨ b = .SE ∨ b = .PER → shape .WN p * shape b q = shape .WN p

/-- The product of two `SE` is the `SE` with the combined lengthscale; `P` is a condition on lengthscales. -/
structure SELaw (comb : α → α → α) (P : α → Prop) : Prop where
  /-- closed -/
  closed : ∀ a b, P a → P b → P (comb a b)
  /-- product -/
  mul : ∀ p q a b, p.lengthscale = some a → q.lengthscale = some b → P a → P b →
    shape .SE p * shape .SE q = shape .SE { lengthscale := some (comb a b) }

end

/-- A component: a list of variances and a list of factors, each a base kernel with its parameters. -/
structure Comp (α : Type) where
  /-- the variances -/
  vars : List α
  /-- the factors -/
  fs : List (Base × PD α)
  deriving Repr, DecidableEq

namespace Comp

/-- How often a base kernel is a factor. -/
def count (c : Comp α) (b : Base) : Int := (c.fs.countP (fun f => decide (f.1 = b)) : Nat)

/-- Product of two components. -/
def mul (c d : Comp α) : Comp α := ⟨c.vars ++ d.vars, c.fs ++ d.fs⟩

/-- A component of one factor. -/
def one (b : Base) (p : PD α) : Comp α := ⟨p.variance.toList, [(b, p.noVar)]⟩

/-- Its covariance. -/
def val {R : Type} [CommRing R] (φ : α → R) (shape : Base → PD α → R) (c : Comp α) : R :=
  (c.vars.map φ).prod * (c.fs.map (fun f => shape f.1 f.2)).prod

/-- No noise meets `LIN`. -/
def Clean (c : Comp α) : Prop := c.count .WN = 0 ∨ c.count .LIN = 0

end Comp

mutual
/-- The components of an expression, multiplied out and not simplified. -/
def comps : PKE α → List (Comp α)
  | .leaf b p => [Comp.one b p]
  | .comm .sum _ ps _ cts => (ps.flatMap (fun e => e.2.map (Comp.one e.1))).reverse ++ compsSum cts
  | .comm .prod _ ps pv cts =>
    (compsProd cts).map (Comp.mul ⟨pv.toList, ps.flatMap (fun e => e.2.map (fun p => (e.1, p)))⟩)
  | .change c p l r => (comps l).map (fun x => x.mul (Comp.one (firstWeight c) p)) ++ (comps r).map (fun x => x.mul (Comp.one (secondWeight c) p))
/-- Those of the terms of a sum. -/
def compsSum : List (PKE α) → List (Comp α)
  | [] => []
  | k :: ks => comps k ++ compsSum ks
/-- Those of a product: every choice of one component per factor. -/
def compsProd : List (PKE α) → List (Comp α)
  | [] => [⟨[], []⟩]
  | k :: ks => (comps k).flatMap (fun x => (compsProd ks).map (fun y => x.mul y))
end

/-- What is left of the factors of a component: noise absorbs the stationary kernels and itself, a constant disappears beside
any other kernel, repeated `SE` become one. -/
def normal (f : Base → Int) (b : Base) : Int :=
  if 0 < f .WN then
    if b = .WN then 1 else if b = .C ∨ b = .SE ∨ b = .PER then 0 else f b
  else if b = .C then (if f .LIN = 0 ∧ f .SE = 0 ∧ f .PER = 0 then min (f .C) 1 else 0)
  else if b = .SE then min (f .SE) 1
  else f b

/-- The parameters of a node agree with its base terms: `P` holds of the lengthscales. -/
structure NodeFit (P : α → Prop) (bts : Counter) (ps : PDict α) : Prop where
  /-- one dictionary per occurrence, in the order of the base terms -/
  aligned : bts = ps.map (fun e => (e.1, (e.2.length : Int)))
  /-- distinct names -/
  nodup : (ps.map (fun e => e.1)).Nodup
  /-- no empty entries -/
  ne : ∀ e ∈ ps, e.2 ≠ []
  /-- no sigmoids (they only arise in the sum-of-products form) -/
  plain : ∀ e ∈ ps, e.1.isSigmoid = false
  /-- `SE` has a lengthscale -/
  ls : ∀ e ∈ ps, e.1 = .SE → ∀ p ∈ e.2, ∃ x, p.lengthscale = some x ∧ P x

mutual
/-- A fitted expression as `match_up_fit_parameters` leaves it. -/
def Fitted (P : α → Prop) : PKE α → Prop
  | .leaf b p => b.isSigmoid = false ∧ (b = .SE → ∃ x, p.lengthscale = some x ∧ P x)
  | .comm .sum bts ps pv cts => NodeFit P bts ps ∧ pv = none ∧ FittedL P cts
  | .comm .prod bts ps pv cts => NodeFit P bts ps ∧ (ps = [] ↔ pv = none) ∧ (∀ e ∈ ps, ∀ p ∈ e.2, p.variance = none) ∧
      (cts = [] → ∀ b, normal bts.get b = bts.get b) ∧ FittedL P cts
  | .change _ p l r => p.variance = none ∧ Fitted P l ∧ Fitted P r
/-- Composite terms are fitted and no bare strings. -/
def FittedL (P : α → Prop) : List (PKE α) → Prop
  | [] => True
  | k :: ks => (asLeaf k = none ∧ Fitted P k) ∧ FittedL P ks
end

mutual
/-- Every sum and product node has base terms of its own. -/
def OwnTerms : PKE α → Prop
  | .leaf _ _ => True
  | .comm _ _ ps _ cts => ps ≠ [] ∧ OwnTermsL cts
  | .change _ _ l r => OwnTerms l ∧ OwnTerms r
/-- In a list. -/
def OwnTermsL : List (PKE α) → Prop
  | [] => True
  | k :: ks => OwnTerms k ∧ OwnTermsL ks
end

mutual
/-- The number of components. -/
def count : PKE α → Nat
  | .leaf _ _ => 1
  | .comm .sum bts _ _ cts => bts.elements.length + countSum cts
  | .comm .prod _ _ _ cts => countProd cts
  | .change _ _ l r => count l + count r
/-- Added over the terms of a sum. -/
def countSum : List (PKE α) → Nat
  | [] => 0
  | k :: ks => count k + countSum ks
/-- Multiplied over the factors of a product. -/
def countProd : List (PKE α) → Nat
  | [] => 1
  | k :: ks => count k * countProd ks
end

/-- The factors of a product and its dictionaries agree: one dictionary per base term (one or more for noise, which has no
parameters but its variance). -/
def Agrees (bts : Counter) (ps : PDict α) : Prop :=
  ∀ b, if b = .WN then (0 < bts.get b ↔ ps.get b ≠ []) else ((ps.get b).length : Int) = bts.get b

end Sops
end GPyABCD
