import Verif.Model.Interp
import Verif.Spec.Sops
import Verif.Spec.Intervals

/-!
# Specification: what a description should say
-/

namespace GPyABCD
namespace Sops

variable {α : Type}

mutual
/-- Every term of a fitted expression, with its parameters, satisfies `Q`; the parameters of a change operator stand for both its
sigmoids. -/
def EveryTerm (Q : Base → PD α → Prop) : PKE α → Prop
  | .leaf b p => Q b p
  | .comm _ _ ps _ cts => (∀ e ∈ ps, ∀ p ∈ e.2, Q e.1 p) ∧ EveryTermL Q cts
  | .change c p l r => Q (firstWeight c) p ∧ Q (secondWeight c) p ∧ EveryTerm Q l ∧ EveryTerm Q r
/-- In a list. -/
def EveryTermL (Q : Base → PD α → Prop) : List (PKE α) → Prop
  | [] => True
  | k :: ks => EveryTerm Q k ∧ EveryTermL Q ks
end

end Sops

namespace Interp
open Sops Interval

variable {α : Type}

/-- The parameters a term must have (`base_k_param_names`, `kernelOperations.py:8-17`), besides the variance. -/
def Keys (cfg : Cfg) (b : Base) (p : PD α) : Prop :=
  match b with
  | .WN | .C => True
  | .SE => p.lengthscale.isSome
  | .PER => p.period.isSome ∧ p.lengthscale.isSome
  | .LIN => cfg.linOffset = true → p.offset.isSome
  | .S | .Sr => p.location.isSome ∧ (cfg.fixSlope = false → p.slope.isSome)
  | .SI | .SIr => p.location.isSome ∧ (cfg.fixSlope = false → p.slope.isSome) ∧ p.width.isSome

/-- The numbers to be told of a term. -/
def told (cfg : Cfg) (b : Base) (p : PD α) : List α :=
  match b with
  | .SE => p.lengthscale.toList
  | .PER => p.period.toList ++ p.lengthscale.toList
  | .LIN => if cfg.linOffset then p.offset.toList else []
  | _ => []

/-- What the first term of a sentence says: base kernels with numbers. -/
def First.facts : First α → List (Base × List α)
  | .noise => [(.WN, [])]
  | .constant => [(.C, [])]
  | .smooth l => [(.SE, [l])]
  | .periodic p l => [(.PER, [p, l])]
  | .periodics m more => (m :: more).map (fun x => (.PER, [x.1, x.2]))
  | .linear o => [(.LIN, o.toList)]
  | .polynomial n none => List.replicate n (.LIN, [])
  | .polynomial _ (some r) => r.map (fun o => (.LIN, [o]))

/-- What a modifier says. -/
def Modifier.facts : Modifier α → List (Base × List α)
  | .smooth l => [(.SE, [l])]
  | .linear o => [(.LIN, o.toList)]
  | .polynomial n none => List.replicate n (.LIN, [])
  | .polynomial _ (some r) => r.map (fun o => (.LIN, [o]))
  | .intervals _ => []

/-- What a sentence says. -/
def Sentence.facts (s : Sentence α) : List (Base × List α) := s.first.facts ++ s.mods.flatMap Modifier.facts

/-- The intervals a sentence says. -/
def Sentence.ivls (s : Sentence α) : List (IvlText α) :=
  s.mods.flatMap (fun m => match m with
    | .intervals l => l
    | _ => [])

/-- The order of a polynomial is the number of its roots, and there is more than one. -/
def Sentence.Orders (s : Sentence α) : Prop :=
  (∀ n r, s.first = .polynomial n r → 1 < n ∧ ∀ l, r = some l → l.length = n) ∧
    ∀ n r, .polynomial n r ∈ s.mods → 1 < n ∧ ∀ l, r = some l → l.length = n

/-- Several periods are told in decreasing order. -/
def Sentence.Decreasing [LE α] (s : Sentence α) : Prop :=
  ∀ m more, s.first = .periodics m more → more ≠ [] ∧ (m :: more).Pairwise (fun a b => b.1 ≤ a.1)

/-- The points of an interval that is told. -/
def IvlText.covers [LT α] (x : α) : IvlText α → Prop
  | .until e _ => x < e
  | .from s _ => s < x
  | .between s e _ => s < x ∧ x < e

/-- Where a sigmoid with these parameters is on. -/
def SigOn [LT α] [Add α] (x : α) (b : Base) (p : PD α) : Prop :=
  match b with
  | .S => ∀ l ∈ p.location, l < x
  | .Sr => ∀ l ∈ p.location, x < l
  | .SI => ∀ l ∈ p.location, ∀ w ∈ p.width, l < x ∧ x < l + w
  | .SIr => ∀ l ∈ p.location, ∀ w ∈ p.width, x < l ∨ l + w < x
  | _ => True

/-- A sentence says of a component where it applies. -/
structure Located [LinearOrder α] [Add α] (c : Comp α) (s : Sentence α) : Prop where
  /-- it is said to be bounded exactly if there are sigmoids -/
  bounded : s.bounded = true ↔ ∃ f ∈ c.fs, f.1.isSigmoid = true
  /-- the intervals are where all sigmoids are on -/
  region : s.bounded = true → ∀ x, (∃ t ∈ s.ivls, t.covers x) ↔ ∀ f ∈ c.fs, SigOn x f.1 f.2
  /-- otherwise none is told -/
  free : s.bounded = false → s.ivls = []

/-- A sentence says of a component everything it should, and nothing else. -/
structure Describes [LinearOrder α] [Add α] (cfg : Cfg) (c : Comp α) (s : Sentence α) : Prop extends Located c s where
  /-- what is left of every base kernel is mentioned as often as it occurs (`normal`) -/
  counts : ∀ b, b.isSigmoid = false → ((s.facts.filter (fun f => decide (f.1 = b))).length : Int) = normal c.count b
  /-- sigmoids are not mentioned as terms -/
  plain : ∀ f ∈ s.facts, f.1.isSigmoid = false
  /-- the numbers are those of the factors, unless noise has absorbed them or several `SE` have been merged -/
  numbers : ∀ b, b = .PER ∨ b = .LIN ∨ b = .SE ∧ c.count .SE ≤ 1 → c.count .WN = 0 →
    (s.facts.filter (fun f => decide (f.1 = b))).Perm ((c.fs.filter (fun f => decide (f.1 = b))).map (fun f => (b, told cfg b f.2)))
  /-- orders of polynomials -/
  orders : s.Orders
  /-- several periods are sorted -/
  decreasing : s.Decreasing

/-- A term as the kernel fitted by GPy has it: all its parameters, and windows that end no earlier than they start. -/
def Sensible [LinearOrder α] [Add α] (cfg : Cfg) (b : Base) (p : PD α) : Prop :=
  Keys cfg b p ∧ (b = .SI ∨ b = .SIr → ∀ l ∈ p.location, ∀ w ∈ p.width, l ≤ l + w)

/-- What a sentence says of a component: always where it applies, and everything else too unless noise meets `LIN` in it. -/
def Relates [LinearOrder α] [Add α] (cfg : Cfg) (c : Comp α) (s : Sentence α) : Prop := Located c s ∧ (c.Clean → Describes cfg c s)

/-- A component whose intervals can be told: it has no windows, or it has one sigmoid only and its window is not empty, or it has no reversed windows and there
is a point where all its sigmoids are on. -/
def Tellable [LT α] [Add α] (c : Comp α) : Prop :=
  (∀ f ∈ c.fs, f.1 ≠ .SI ∧ f.1 ≠ .SIr) ∨
  ((c.fs.filter (fun f => f.1.isSigmoid)).length ≤ 1 ∧ ∀ f ∈ c.fs, f.1 = .SI → ∀ l ∈ f.2.location, ∀ w ∈ f.2.width, l < l + w) ∨
  ((∀ f ∈ c.fs, f.1 ≠ .SIr) ∧ ∃ x, ∀ f ∈ c.fs, SigOn x f.1 f.2)

mutual
/-- No change window. -/
def NoWindow : PKE α → Prop
  | .leaf _ _ => True
  | .comm _ _ _ _ cts => NoWindowL cts
  | .change c _ l r => c = .CP ∧ NoWindow l ∧ NoWindow r
/-- In a list. -/
def NoWindowL : List (PKE α) → Prop
  | [] => True
  | k :: ks => NoWindow k ∧ NoWindowL ks
end

end Interp
end GPyABCD
