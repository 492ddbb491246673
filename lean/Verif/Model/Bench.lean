import Mathlib.Algebra.Order.Field.Basic
import Mathlib.Data.List.Sort

/-!
# Benchmark tables

Models `/repo/GPy_ABCD/Util/benchmarking.py`. Running a function and reading the clock are not modelled: what `timethis` (lines 9-16) returns for
a function is an input, its list of `n` times. Times and means are elements of an ordered field instead of floats. `wait`, `verbose`, printing and the
`DataFrame` around the list of rows are left out.
-/

namespace GPyABCD
namespace Bench

variable {K : Type} [Field K] [LinearOrder K]

/-- The exceptions the modelled functions can raise. -/
inductive BErr where
  | assertion
  | index
  | zeroDivision
  deriving DecidableEq

/-- A row of the first `table` of `compare_implementations`, `benchmarking.py:33` and `:45`. -/
structure Row (K : Type) where
  name : String
  mean : K
  mean1 : K
  t0 : K
  t1 : K
  t2 : K

/-- A row of the finished table, `benchmarking.py:51` (the columns of `:56`). -/
structure Line (K : Type) where
  name : String
  mean : K
  mean1 : K
  best : K
  best1 : K
  next : K
  next1 : K
  t0 : K
  t1 : K
  t2 : K

/-- Python's `a / b`. -/
def pyDiv (a b : K) : Except BErr K := if b = 0 then .error .zeroDivision else .ok (a / b)

/-- `table.append([name, sum(times) / len(times), sum(times[1:]) / (len(times)-1), times[0], times[1], times[2]])`, `benchmarking.py:33` and `:45`. -/
def row (f : String × List K) : Except BErr (Row K) :=
  match f.2 with
  | t0 :: t1 :: t2 :: ts => do
    let m ← pyDiv f.2.sum (f.2.length : K)
    let m1 ← pyDiv f.2.tail.sum ((f.2.length - 1 : Nat) : K)
    .ok ⟨f.1, m, m1, t0, t1, t2⟩
  | _ => .error .index

/-- Both loops, `benchmarking.py:26-46`: first the functions with shared arguments, then those with their own. -/
def rows : List (String × List K) → Except BErr (List (Row K))
  | [] => .ok []
  | f :: fs => do
    let r ← row f
    let rs ← rows fs
    .ok (r :: rs)

/-- The list comprehension with its four filters, `benchmarking.py:51-54`. A filter that is a number drops the row when it is zero; the assignments
of the filters before it have been made by then. `first` is `table[0]`, the still old table. -/
def ratios (first : Row K) (last last1 : K) : List (Row K) → Except BErr (List (Line K))
  | [] => .ok []
  | r :: rs => do
    let next ← pyDiv r.mean last
    if next = 0 then ratios first last last1 rs
    else do
      let next1 ← pyDiv r.mean1 last1
      if next1 = 0 then ratios first last last1 rs
      else if r.mean = 0 then ratios first r.mean last1 rs
      else if r.mean1 = 0 then ratios first r.mean r.mean1 rs
      else do
        let best ← pyDiv r.mean first.mean
        let best1 ← pyDiv r.mean1 first.mean1
        let ls ← ratios first r.mean r.mean1 rs
        .ok (⟨r.name, r.mean, r.mean1, best, best1, next, next1, r.t0, r.t1, r.t2⟩ :: ls)

/-- `table = sorted(table, key = lambda row: row[1])` and the rest, `benchmarking.py:48-54`. `sorted` is stable, as `insertionSort` is. -/
def finish (rs : List (Row K)) : Except BErr (List (Line K)) :=
  match rs.insertionSort (fun a b => a.mean ≤ b.mean) with
  | [] => .error .index
  | r :: rs => ratios r r.mean r.mean1 (r :: rs)

/-- `compare_implementations`, `benchmarking.py:19-58`: `shared` and `own` are the items of `fs_with_shared_args` and of `fs_with_own_args` with the `n`
times measured for each. -/
def compare (n : Nat) (shared own : List (String × List K)) : Except BErr (List (Line K)) :=
  if n < 3 then .error .assertion
  else do
    let rs ← rows (shared ++ own)
    finish rs

/-- The `next` columns of `merge_bench_tables`, `benchmarking.py:94-95`: the mean over that of the row before (`shift`). -/
def shifted (last last1 : K) : List (Line K) → List (Line K)
  | [] => []
  | l :: ls => { l with next := l.mean / last, next1 := l.mean1 / last1 } :: shifted l.mean l.mean1 ls

/-- `merge_bench_tables`, `benchmarking.py:90-98`. `sort` is pandas' `sort_values(by = 'mean')`, which may order equal means in any way.
Pandas divides by zero without an exception (`inf`, `nan`); here that gives zero, so zero means are outside the theorems. -/
def merge (sort : List (Line K) → List (Line K)) (tables : List (List (Line K))) : Except BErr (List (Line K)) :=
  match sort tables.flatten with
  | [] => .error .index
  | l :: ls =>
    let t := (l :: ls).map fun x => { x with best := x.mean / l.mean, best1 := x.mean1 / l.mean1 }
    match t with
    | [] => .error .index
    | x :: xs => .ok ({ x with next := 1, next1 := 1 } :: shifted x.mean x.mean1 xs)

/-- The functions `numba_comparisons` makes: `f`, `njit(f)`, `njit(parallel = True)(f)`, `njit(sig)(f)`, `njit(sig, parallel = True)(f)`,
`vectorize(f_scalar)` and `vectorize(sigs)(f_scalar)`. Compiling them is not modelled. -/
inductive Version (S T : Type) where
  | base
  | lazy
  | parallel
  | eager (sig : S)
  | parallelEager (sig : S)
  | vecLazy
  | vecEager (sigs : T)
  deriving DecidableEq

/-- `d[k] = v` on a dictionary, as the list of its items: an old key keeps its place. -/
def setItem {α : Type} (d : List (String × α)) (k : String) (v : α) : List (String × α) :=
  if d.any (fun x => x.1 == k) then d.map (fun x => if x.1 == k then (k, v) else x) else d ++ [(k, v)]

/-- The arguments of `numba_comparisons`, `benchmarking.py:61-64`, that choose the versions: whether `f`, `f_scalar` are given, and the signatures (`none`
for arguments that are missing or empty). -/
structure Choice (S T : Type) where
  f : Bool
  sig : Option S
  seps : List S
  scalar : Bool
  sigs : Option T
  sepss : List T
  parallel : Bool

/-- `'Eager' + str(i)` and the like. -/
def numbered (s : String) (i : Nat) : String := s ++ String.ofList (Nat.toDigits 10 i)

/-- The loop over `separate_numba_signatures`, `benchmarking.py:77-80`. -/
def sepLoop {S T : Type} (parallel : Bool) : Nat → List S → List (String × Version S T) → List (String × Version S T)
  | _, [], d => d
  | i, s :: ss, d =>
    let d := setItem d (numbered "Eager" (i + 2)) (.eager s)
    let d := if parallel then setItem d (numbered "Parallel Eager" (i + 2)) (.parallelEager s) else d
    sepLoop parallel (i + 1) ss d

/-- The loop over `separate_numba_signaturess_scalar`, `benchmarking.py:85`. -/
def sepsLoop {S T : Type} : Nat → List T → List (String × Version S T) → List (String × Version S T)
  | _, [], d => d
  | i, s :: ss, d => sepsLoop (i + 1) ss (setItem d (numbered "Vec Eager" (i + 2)) (.vecEager s))

/-- `f_dict`, `benchmarking.py:70-86`; `pre` is `prefix`, empty if missing. -/
def fDict {S T : Type} (c : Choice S T) (pre : String) : List (String × Version S T) :=
  let d := []
  let d := if c.f then
      let d := setItem (setItem d "Base" .base) "Lazy" .lazy
      let d := if c.parallel then setItem d "Parallel" .parallel else d
      let d := match c.sig with
        | none => d
        | some s =>
          let d := setItem d "Eager" (.eager s)
          if c.parallel then setItem d "Parallel Eager" (.parallelEager s) else d
      sepLoop c.parallel 0 c.seps d
    else d
  let d := if c.scalar then
      let d := setItem d "Vec Lazy" .vecLazy
      let d := match c.sigs with
        | none => d
        | some s => setItem d "Vec Eager" (.vecEager s)
      sepsLoop 0 c.sepss d
    else d
  if pre = "" then d else d.foldl (fun e x => setItem e (pre ++ x.1) x.2) []

/-- `numba_comparisons`, `benchmarking.py:61-87`; `time` is what is measured for each version. -/
def numbaComparisons {S T : Type} (n : Nat) (time : Version S T → List K) (c : Choice S T) (pre : String) (own : List (String × List K)) :
    Except BErr (List (Line K)) := compare n ((fDict c pre).map fun x => (x.1, time x.2)) own

end Bench
end GPyABCD
