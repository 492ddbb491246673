import Verif.Model.Search

/-!
# Searches with any scoring function

`explore_model_space` (`/repo/GPy_ABCD/Models/modelSearch.py:83-131`) once more, with scoring functions that may raise, that may
have no `__name__`, and whose values need not be comparable (`nan`), and therefore with `sorted` itself instead of a sorting
function for total orders. `sorted` is CPython's `list.sort` up to version 3.12 (`Objects/listobject.c`: `count_run`, `binarysort`) for lists of less
than 64 elements, which it sorts as one run; for longer ones, which are merged from runs, it is a parameter.
A scoring function gives the same value when called on the same model again (`modelSearch.py:89` scores the start models a second time).
-/

namespace GPyABCD
namespace Search

/-! ## `sorted` -/

section Sorting
variable {α : Type}

/-- The strictly descending run at the start of `prev :: xs`, `prev` already taken: its further elements and the rest. -/
def runDown (lt : α → α → Bool) : α → List α → List α × List α
  | _, [] => ([], [])
  | prev, x :: xs => if lt x prev then let r := runDown lt x xs; (x :: r.1, r.2) else ([], x :: xs)

/-- The run without descents at the start of `prev :: xs`. -/
def runUp (lt : α → α → Bool) : α → List α → List α × List α
  | _, [] => ([], [])
  | prev, x :: xs => if lt x prev then ([], x :: xs) else let r := runUp lt x xs; (x :: r.1, r.2)

/-- `count_run`, and `reverse_slice` for a descending run: the first run in ascending order, and the rest. -/
def countRun (lt : α → α → Bool) : List α → List α × List α
  | [] => ([], [])
  | [x] => ([x], [])
  | x :: y :: xs =>
    if lt y x then let r := runDown lt y xs; ((x :: y :: r.1).reverse, r.2)
    else let r := runUp lt y xs; (x :: y :: r.1, r.2)

/-- The binary search of `binarysort` for the place of `pivot` between `l` and `r`. -/
def place? (lt : α → α → Bool) (xs : List α) (pivot : α) (l r : Nat) : Nat :=
  if l < r then
    let p := l + (r - l) / 2
    match xs[p]? with
    | none => l
    | some y => if lt pivot y then place? lt xs pivot l p else place? lt xs pivot (p + 1) r
  else l
termination_by r - l
decreasing_by all_goals omega

/-- `binarysort`: the rest is inserted one by one into the sorted part. -/
def binarySort (lt : α → α → Bool) (done : List α) : List α → List α
  | [] => done
  | x :: xs =>
    let i := place? lt done x 0 done.length
    binarySort lt (done.take i ++ x :: done.drop i) xs

/-- `sorted(xs)` by `<`; `big` for 64 elements or more. -/
def pySorted (big : List α → List α) (lt : α → α → Bool) (xs : List α) : List α :=
  if xs.length < 64 then let r := countRun lt xs; binarySort lt r.1 r.2 else big xs

end Sorting

/-! ## The search -/

/-- Errors of a fit or a scoring function, and the `AttributeError` for `score_f.__name__`, `model.py:73`, `modelSearch.py:85`. -/
inductive ScoreErr (ε : Type)
  | fit (e : ε)
  | score (e : ε)
  | noName
  deriving DecidableEq

/-- What such a search depends on. -/
structure SEnv (K D R ε : Type) where
  /-- `==` on kernel expressions -/
  eqv : K → K → Bool
  /-- `expand(kex, p_rules)` -/
  expand : K → List K
  /-- `<` on utilities -/
  lt : R → R → Bool
  /-- `utility_function` on a fitted model -/
  score : D → Except ε R
  /-- has `utility_function` a `__name__`? -/
  named : Bool
  /-- the outcome of the `n`-th fit -/
  fit : Nat → K → Except ε D
  /-- `sorted` for lists of 64 elements or more -/
  big : List (Mod K D R) → List (Mod K D R)

variable {K D R ε : Type}

/-- `model_list_fitter(...)`, one after the other (`modelSearch.py:36-38`): all fits, before any scoring. -/
def fitOnly (E : SEnv K D R ε) (n : Nat) : List K → Except (Err (ScoreErr ε)) (List (Nat × K × D))
  | [] => .ok []
  | k :: ks =>
    match E.fit n k with
    | .error e => .error (.fit (.fit e))
    | .ok d =>
      match fitOnly E (n + 1) ks with
      | .error e => .error e
      | .ok ms => .ok ((n, k, d) :: ms)

/-- `score(m)` for every model in turn, as `sorted(..., key = score)` does before it compares anything; `compute_utility`,
`model.py:71-74`, raises if the function does, and then if it has no name. -/
def scoreOnly (E : SEnv K D R ε) : List (Nat × K × D) → Except (Err (ScoreErr ε)) (List (Mod K D R))
  | [] => .ok []
  | (n, k, d) :: ms =>
    match E.score d with
    | .error e => .error (.fit (.score e))
    | .ok u =>
      if E.named then
        match scoreOnly E ms with
        | .error e => .error e
        | .ok r => .ok (⟨n, k, d, u⟩ :: r)
      else .error (.fit .noName)

/-- `sorted(ms, key = cached utility)`. -/
def sortS (E : SEnv K D R ε) (ms : List (Mod K D R)) : List (Mod K D R) :=
  pySorted E.big (fun a b => E.lt a.cached b.cached) ms

/-- `sorted(model_list_fitter(...), key = score)`, `modelSearch.py:88, 122`. -/
def fitSorted (E : SEnv K D R ε) (n : Nat) (ks : List K) : Except (Err (ScoreErr ε)) (List (Mod K D R)) := do
  let fitted ← fitOnly E n ks
  let scored ← scoreOnly E fitted
  return sortS E scored

/-- `new_k_exprs`, `modelSearch.py:121`. -/
def newKexsS (E : SEnv K D R ε) (b : Int) (s : St K D R) : List K :=
  (Util.unique E.eqv (Util.flatten ((slice s.notExpanded b).map (fun m => E.expand m.kex)))).filter
    (fun k => !s.ktested.any (fun t => E.eqv k t))

/-- One round, `modelSearch.py:121-127`. -/
def roundStepS (E : SEnv K D R ε) (b : Int) (s : St K D R) : Except (Err (ScoreErr ε)) (St K D R) := do
  let new := newKexsS E b s
  let ms ← fitSorted E s.next new
  let tested := s.tested ++ [ms]
  let sorted := sortS E (Util.flatten tested)
  let expanded := s.expanded ++ slice s.notExpanded b
  return { sorted := sorted, tested := tested, ktested := s.ktested ++ new, expanded := expanded,
           notExpanded := Util.diff sameMod sorted expanded, next := s.next + new.length }

/-- The loop of `model_search_rounds`, `modelSearch.py:120-129`. -/
def roundsGoS (E : SEnv K D R ε) (verbose : Bool) (beam0 : Int) : Nat → List Int → St K D R → Except (Err (ScoreErr ε)) (St K D R)
  | _, [], s => .ok s
  | r, b :: bs, s => do
    let s' ← roundStepS E b s
    if verbose then printRound r beam0 b s'
    roundsGoS E verbose beam0 (r + 1) bs s'

/-- The state before the first round, `modelSearch.py:88-91`. -/
def startStS (E : SEnv K D R ε) (starts : List K) : Except (Err (ScoreErr ε)) (St K D R) := do
  let ms ← fitSorted E 0 starts
  let sorted := sortS E (Util.flatten [ms])
  return { sorted := sorted, tested := [ms], ktested := starts, expanded := [], notExpanded := sorted, next := starts.length }

/-- `explore_model_space`, `modelSearch.py:83-106`. The first verbose line (`modelSearch.py:85`) names the scoring function after listing the start
kernels. -/
def exploreS (E : SEnv K D R ε) (verbose : Bool) (starts : List K) (rounds : Int) (beam : BeamArg) :
    Except (Err (ScoreErr ε)) (St K D R) := do
  if verbose then
    printList starts
    if !E.named then throw (.fit .noName)
  let s ← startStS E starts
  let bs ← handleBeam rounds beam
  if verbose then printStart bs s
  let s' ← roundsGoS E verbose (bs.headD 0) 1 (bs.take rounds.toNat) s
  if verbose then printEnd bs s'
  return s'

end Search
end GPyABCD
