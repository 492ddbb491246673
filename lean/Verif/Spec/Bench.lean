import Verif.Model.Bench

/-!
# What a benchmark table should say
-/

namespace GPyABCD
namespace Bench

variable {K : Type} [Field K] [LinearOrder K]

/-- A line reports a function: its name, the mean of its times, that of all but the first, and the first three. -/
def Reports (f : String × List K) (l : Line K) : Prop :=
  l.name = f.1 ∧ l.mean * f.2.length = f.2.sum ∧ l.mean1 * (f.2.length - 1) + l.t0 = f.2.sum ∧ [l.t0, l.t1, l.t2] = f.2.take 3

/-- The lines from the fastest to the slowest. -/
def Ordered (ls : List (Line K)) : Prop := ls.Pairwise (fun a b => a.mean ≤ b.mean)

/-- The ratios are those of the means in the table: `best` to the first line, `next` to the line before, one in the first line. -/
structure Compared (ls : List (Line K)) : Prop where
  best : ∀ a ∈ ls.head?, ∀ b ∈ ls, b.best * a.mean = b.mean ∧ b.best1 * a.mean1 = b.mean1
  next : ∀ (i : Nat) (a b : Line K), ls[i]? = some a → ls[i + 1]? = some b → b.next * a.mean = b.mean ∧ b.next1 * a.mean1 = b.mean1
  first : ∀ a ∈ ls.head?, a.next = 1 ∧ a.next1 = 1

/-- The compiled versions for one signature. -/
def eagers {S T : Type} (parallel : Bool) (s : S) : List (Version S T) := .eager s :: if parallel then [.parallelEager s] else []

/-- The versions a choice of arguments asks for. -/
def wanted {S T : Type} (c : Choice S T) : List (Version S T) :=
  (if c.f then [.base, .lazy] ++ (if c.parallel then [.parallel] else []) ++ (c.sig.toList ++ c.seps).flatMap (eagers c.parallel) else []) ++
    if c.scalar then .vecLazy :: (c.sigs.toList ++ c.sepss).map .vecEager else []

end Bench
end GPyABCD
