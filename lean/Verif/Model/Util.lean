/-!
# Generic utilities

Models `/repo/GPy_ABCD/Util/genericUtil.py`. Python's `==` on the elements is a parameter `eqv`
(`x in seen` and `list.remove` test identity or `==`; with a reflexive `eqv` that is `eqv`).
-/

namespace GPyABCD
namespace Util

variable {α β γ : Type}

/-- Loop of `unique`, `genericUtil.py:94-96`: `seen` grows with every kept element. -/
def uniqueGo (eqv : α → α → Bool) (seen : List α) : List α → List α
  | [] => []
  | x :: xs => if seen.any (fun z => eqv x z) then uniqueGo eqv seen xs else x :: uniqueGo eqv (seen ++ [x]) xs

/-- `unique(xs)`, `genericUtil.py:94-96`. -/
def unique (eqv : α → α → Bool) (xs : List α) : List α := uniqueGo eqv [] xs

/-- `ys.remove(x)`: drop the first element equal to `x`; `none` is `ValueError`. -/
def remove (eqv : α → α → Bool) (x : α) : List α → Option (List α)
  | [] => none
  | y :: ys => if eqv x y then some ys else (remove eqv x ys).map (y :: ·)

/-- `eq_elems(xs, ys)`, `genericUtil.py:100-105`. -/
def eqElems (eqv : α → α → Bool) : List α → List α → Bool
  | [], ys => ys.isEmpty
  | x :: xs, ys =>
    match remove eqv x ys with
    | none => false
    | some ys' => eqElems eqv xs ys'

/-- `diff(xs, ys)`, `genericUtil.py:109-114`: the loop stops at the first `ValueError`. -/
def diff (eqv : α → α → Bool) (xs : List α) : List α → List α
  | [] => xs
  | y :: ys =>
    match remove eqv y xs with
    | none => xs
    | some xs' => diff eqv xs' ys

/-- `full_step` of `foldq` up to the calls of `f` and `g`, `genericUtil.py:30-36`: the first element
satisfying `c` and the list without it. -/
def firstSat (c : α → Bool) : List α → Option (α × List α)
  | [] => none
  | x :: xs => if c x then some (x, xs) else (firstSat c xs).map (fun p => (p.1, x :: p.2))

/-- `foldq(f, g, c, xs, acc)`, `genericUtil.py:14-40`. The `while` loop is unfolded `fuel` times
(`none`: not finished); `g` may return any list, so the loop need not terminate. -/
def foldqF (f : β → α → β) (g : β → α → List α → List α) (c : α → Bool) : Nat → List α → β → Option (β × List α)
  | 0, _, _ => none
  | n + 1, xs, acc =>
    if xs.isEmpty then some (acc, xs)
    else match firstSat c xs with
      | none => some (acc, xs)
      | some (x, rest) => foldqF f g c n (g acc x rest) (f acc x)

/-- `foldq_`, `genericUtil.py:42-47`; inner `none` is `ValueError`. -/
def foldqStrictF (f : β → α → β) (g : β → α → List α → List α) (c : α → Bool) (n : Nat) (xs : List α) (acc : β) :
    Option (Option β) :=
  (foldqF f g c n xs acc).map (fun r => if r.2.isEmpty then some r.1 else none)

/-- `topological_sort(nodes_incoming_edges_tuples)`, `genericUtil.py:77-81`, on `fuel` loop unfoldings. -/
def topoF [DecidableEq α] (n : Nat) (xs : List (α × List α)) : Option (Option (List α)) :=
  foldqStrictF (fun acc x => acc ++ [x.1])
    (fun _ x xs => xs.map (fun p => (p.1, p.2.filter (fun d => decide (d ≠ x.1)))))
    (fun x => x.2.isEmpty) n xs []

/-- `partition(p, xs)`, `genericUtil.py:50-54`. -/
def partition (p : α → Bool) (xs : List α) : List α × List α :=
  xs.foldl (fun acc x => if p x then (acc.1 ++ [x], acc.2) else (acc.1, acc.2 ++ [x])) ([], [])

/-- A Python dict as an insertion-ordered association list: `d[k]`. -/
def lookup [DecidableEq β] (k : β) : List (β × γ) → Option γ
  | [] => none
  | (k', v) :: r => if k' = k then some v else lookup k r

/-- `d[k] = v`. -/
def insert [DecidableEq β] (k : β) (v : γ) : List (β × γ) → List (β × γ)
  | [] => [(k, v)]
  | (k', w) :: r => if k' = k then (k', v) :: r else (k', w) :: insert k v r

/-- `group_by(f, xs)`, `genericUtil.py:57-61`: `acc` is a `defaultdict(list)`. -/
def groupBy [DecidableEq β] (f : α → β) (xs : List α) : List (β × List α) :=
  xs.foldl (fun acc x => insert (f x) (((lookup (f x) acc).getD []) ++ [x]) acc) []

/-- `flatten`, `genericUtil.py:84`. -/
def flatten (xss : List (List α)) : List α := xss.flatMap id

/-- `chunk(xs, n)`, `genericUtil.py:118`: slices `xs[i:i+n]` for `i in range(0, len(xs), n)`; `range` raises
`ValueError` for step 0. -/
def chunk (xs : List α) (n : Nat) : Option (List (List α)) :=
  if n = 0 then none
  else some ((List.range ((xs.length + n - 1) / n)).map (fun j => (xs.drop (j * n)).take n))

/-- `update_dict_with(d0, d1, f)`, `genericUtil.py:129-134`. -/
def updateDictWith [DecidableEq β] (f : γ → γ → γ) (d0 d1 : List (β × γ)) : List (β × γ) :=
  d1.foldl (fun d p => insert p.1 (match lookup p.1 d with | some v => f v p.2 | none => p.2) d) d0

/-- `first(c, xs, default)`, `genericUtil.py:70`. -/
def first (c : α → Bool) (xs : List α) (default : Option α) : Option α :=
  match xs.find? c with
  | some x => some x
  | none => default

/-- `zip(*rows)` for a list of rows: row after row of heads while no row is exhausted, `genericUtil.py:87-88`;
`fuel` is the length of the shortest row, which bounds the result. -/
def unzipF : Nat → List (List α) → List (List α)
  | 0, _ => []
  | n + 1, rows =>
    if rows.isEmpty || rows.any (fun r => r.isEmpty) then []
    else rows.filterMap List.head? :: unzipF n (rows.map List.tail)

/-- `unzip(list_of_ntuples)`, `genericUtil.py:87`. -/
def unzip (rows : List (List α)) : List (List α) := unzipF ((rows.map List.length).foldr min (rows.head?.map List.length |>.getD 0)) rows

end Util
end GPyABCD
