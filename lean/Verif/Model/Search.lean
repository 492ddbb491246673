import Verif.Model.Util
import Mathlib.Data.List.Sort

/-!
# Model search

Models `/repo/GPy_ABCD/Models/modelSearch.py`. Kernel expressions are an arbitrary type `K` with `==` and
`expand`; the data, the optimiser and GPy are an oracle `fit` from the running number of the fit and the
expression to a fitted model (type `D`) or an exception. `fit_one_model` with its retries, and parallel fitting, are
modelled separately below and are one way to obtain such an oracle. Models are compared by identity in the code
(`GPModel` has no `__eq__`); the running number of the fit is the identity. Scores are compared by `le`
(floats: a total order without NaN).
-/

namespace GPyABCD
namespace Search

/-- What the search depends on. -/
structure Env (K D R ε : Type) where
  /-- `==` on kernel expressions -/
  eqv : K → K → Bool
  /-- `expand(kex, p_rules)` -/
  expand : K → List K
  /-- `<=` on utilities -/
  le : R → R → Bool
  /-- `utility_function` on a fitted model -/
  score : D → R
  /-- the outcome of the `n`-th fit -/
  fit : Nat → K → Except ε D

/-- A fitted `GPModel` with its cached utility, `Models/model.py:10-19, 71-74`. -/
structure Mod (K D R : Type) where
  /-- identity -/
  uid : Nat
  /-- `kernel_expression` -/
  kex : K
  /-- `model` -/
  data : D
  /-- `cached_utility_function` -/
  cached : R

/-- Exceptions: of a fit, `TypeError`, `IndexError`. -/
inductive Err (ε : Type)
  | fit (e : ε)
  | type
  | index
  deriving DecidableEq

variable {K D R ε : Type}

/-- `xs[:b]` for an integer `b`. -/
def slice {α : Type} (xs : List α) (b : Int) : List α :=
  if 0 ≤ b then xs.take b.toNat else xs.take (xs.length - (-b).toNat)

/-- `fit_mods_not_parallel`, `modelSearch.py:36-38`, from fit number `n` on; every model is then scored by the key of
`sorted`, `modelSearch.py:86, 88, 118, 122`. -/
def fitAll (E : Env K D R ε) (n : Nat) : List K → Except (Err ε) (List (Mod K D R))
  | [] => .ok []
  | k :: ks =>
    match E.fit n k with
    | .error e => .error (.fit e)
    | .ok d =>
      match fitAll E (n + 1) ks with
      | .error e => .error e
      | .ok ms => .ok (⟨n, k, d, E.score d⟩ :: ms)

/-- `sorted(ms, key = cached utility)`: stable, increasing. -/
def sortMods (E : Env K D R ε) (ms : List (Mod K D R)) : List (Mod K D R) := 
  ms.insertionSort (fun a b => E.le a.cached b.cached = true)

/-- The variables of the search (and the number of fits so far). -/
structure St (K D R : Type) where
  /-- `sorted_models` -/
  sorted : List (Mod K D R)
  /-- `tested_models` -/
  tested : List (List (Mod K D R))
  /-- `tested_k_exprs` -/
  ktested : List K
  /-- `expanded` -/
  expanded : List (Mod K D R)
  /-- `not_expanded` -/
  notExpanded : List (Mod K D R)
  /-- number of fits made -/
  next : Nat

/-- Identity of models. -/
def sameMod (a b : Mod K D R) : Bool := decide (a.uid = b.uid)

/-- `new_k_exprs`, `modelSearch.py:121`. -/
def newKexs (E : Env K D R ε) (b : Int) (s : St K D R) : List K :=
  (Util.unique E.eqv (Util.flatten ((slice s.notExpanded b).map (fun m => E.expand m.kex)))).filter
    (fun k => !s.ktested.any (fun t => E.eqv k t))

/-- The body of the loop of `model_search_rounds` without the printing, `modelSearch.py:121-127`. -/
def roundStep (E : Env K D R ε) (b : Int) (s : St K D R) : Except (Err ε) (St K D R) :=
  let new := newKexs E b s
  match fitAll E s.next new with
  | .error e => .error e
  | .ok ms =>
    let tested := s.tested ++ [sortMods E ms]
    let sorted := sortMods E (Util.flatten tested)
    let expanded := s.expanded ++ slice s.notExpanded b
    .ok { sorted := sorted, tested := tested, ktested := s.ktested ++ new, expanded := expanded,
          notExpanded := Util.diff sameMod sorted expanded, next := s.next + new.length }

/-- `print_k_list(xs)`, `modelSearch.py:22-23`: `xs[0]` raises `IndexError` on an empty list. -/
def printList {α : Type} (xs : List α) : Except (Err ε) Unit := if xs.isEmpty then .error .index else .ok ()

/-- The models reported as the new ones of round `r`, `tested_models[r]`, `modelSearch.py:129`. -/
def reported (r : Nat) (s : St K D R) : Option (List (Mod K D R)) := s.tested[r]?

/-- The verbose line of a round, `modelSearch.py:129`. -/
def printRound (r : Nat) (beam0 b : Int) (s : St K D R) : Except (Err ε) Unit :=
  match reported r s with
  | none => .error .index
  | some t => do printList (slice t beam0); printList (slice s.sorted beam0); printList (slice s.notExpanded b)

/-- The loop of `model_search_rounds`, `modelSearch.py:120-129`. -/
def roundsGo (E : Env K D R ε) (verbose : Bool) (beam0 : Int) : Nat → List Int → St K D R → Except (Err ε) (St K D R)
  | _, [], s => .ok s
  | r, b :: bs, s =>
    match roundStep E b s with
    | .error e => .error e
    | .ok s' =>
      match (if verbose then printRound r beam0 b s' else .ok ()) with
      | .error e => .error e
      | .ok () => roundsGo E verbose beam0 (r + 1) bs s'

/-- `model_search_rounds`, `modelSearch.py:110-131`: `zip(range(1, rounds + 1), beam)`. -/
def searchRounds (E : Env K D R ε) (verbose : Bool) (rounds : Int) (beam : List Int) (s : St K D R) : Except (Err ε) (St K D R) :=
  roundsGo E verbose (beam.headD 0) 1 (beam.take rounds.toNat) s

/-- The `beam` argument: an integer, a list of integers, or anything else. -/
inductive BeamArg
  | int (b : Int)
  | list (bs : List Int)
  | other
  deriving DecidableEq

/-- Beam handling, `modelSearch.py:93-97`; `[b] * n` is empty for negative `n`. -/
def handleBeam (rounds : Int) : BeamArg → Except (Err ε) (List Int)
  | .list bs =>
    if rounds - bs.length > 0 then
      match bs.getLast? with
      | none => .error .index
      | some b => .ok (bs ++ List.replicate (rounds - bs.length).toNat b)
    else .ok (slice bs rounds)
  | .int b => .ok (List.replicate rounds.toNat b)
  | .other => .error .type

/-- The state before the first round, `modelSearch.py:88-91`. -/
def startSt (E : Env K D R ε) (starts : List K) : Except (Err ε) (St K D R) :=
  match fitAll E 0 starts with
  | .error e => .error e
  | .ok ms =>
    let tested := [sortMods E ms]
    let sorted := sortMods E (Util.flatten tested)
    .ok { sorted := sorted, tested := tested, ktested := starts, expanded := [], notExpanded := sorted, next := starts.length }

/-- The verbose line after round 0, `modelSearch.py:99`. -/
def printStart (beam : List Int) (s : St K D R) : Except (Err ε) Unit :=
  match beam with
  | [] => .error .index
  | b :: _ => printList (slice s.notExpanded b)

/-- The last verbose line, `modelSearch.py:105`. -/
def printEnd (beam : List Int) (s : St K D R) : Except (Err ε) Unit :=
  match beam with
  | [] => .error .index
  | b :: _ => printList (slice s.sorted b)

/-- `explore_model_space`, `modelSearch.py:83-106`, with `starts` the result of `make_simple_kexs` (`KE.makeSimpleKexs`). -/
def explore (E : Env K D R ε) (verbose : Bool) (starts : List K) (rounds : Int) (beam : BeamArg) : Except (Err ε) (St K D R) := do
  if verbose then printList starts
  let s ← startSt E starts
  let bs ← handleBeam rounds beam
  if verbose then printStart bs s
  let s' ← searchRounds E verbose rounds bs s
  if verbose then printEnd bs s'
  return s'

/-! ## Fitting one model and lists of models -/

/-- What an observer sees of `fit_one_model`: the outcome, how many fits were attempted, and the warnings, each with its
retry number and error. -/
structure FitOut (D ε : Type) where
  /-- returned model or raised error -/
  out : Except ε D
  /-- fits attempted -/
  attempts : Nat
  /-- warnings issued -/
  warns : List (Int × ε)

/-- The loop of `fit_one_model`, `modelSearch.py:26-34`; `att i` is the outcome of the `i`-th attempt. -/
def fitLoop (att : Nat → Except ε D) (maxRetries retry : Int) (i : Nat) (warns : List (Int × ε)) : FitOut D ε :=
  match att i with
  | .ok d => ⟨.ok d, i + 1, warns⟩
  | .error e =>
    if retry < maxRetries then fitLoop att maxRetries (retry + 1) (i + 1) (warns ++ [(retry + 1, e)])
    else ⟨.error e, i + 1, warns⟩
termination_by (maxRetries - retry).toNat
decreasing_by omega

/-- `fit_one_model`, `modelSearch.py:26-34`. -/
def fitOneModel (att : Nat → Except ε D) (maxRetries : Int) : FitOut D ε := fitLoop att maxRetries 0 0 []

/-- `[f(k) for k in ks]` where `f` may raise: `fit_mods_not_parallel`, `modelSearch.py:38`. -/
def mapSeq {α β : Type} (f : α → Except ε β) : List α → Except ε (List β)
  | [] => .ok []
  | x :: xs =>
    match f x with
    | .error e => .error e
    | .ok y =>
      match mapSeq f xs with
      | .error e => .error e
      | .ok ys => .ok (y :: ys)

/-- The chunk size `int(len(k_exprs) / cpu_count()) + 1`, `modelSearch.py:45`. -/
def chunkSize (n cpus : Nat) : Nat := n / cpus + 1

/-- `value[i * size : (i + 1) * size] = result`, the assignment of a finished chunk in `multiprocessing.pool.MapResult._set`. -/
def place {β : Type} (size i : Nat) (result value : List β) : List β :=
  value.take (i * size) ++ result ++ value.drop ((i + 1) * size)

/-- `pool.starmap_async(f, ks, size).get()`, `modelSearch.py:45`: chunks finish in the order given by `sched`
(chunk indices); a chunk is one `mapSeq`; the first failing chunk to finish makes the whole call raise its error. -/
def poolRun {α β : Type} (f : α → Except ε β) (size : Nat) (ks : List α) : List Nat → List (Option β) → Except ε (List (Option β))
  | [], value => .ok value
  | i :: sched, value =>
    match mapSeq f ((ks.drop (i * size)).take size) with
    | .error e => .error e
    | .ok r => poolRun f size ks sched (place size i (r.map some) value)

/-- `fit_mods_parallel_processes`, `modelSearch.py:39-45`, on `cpus` processors with completion order `sched`. -/
def parallel {α β : Type} (f : α → Except ε β) (cpus : Nat) (sched : List Nat) (ks : List α) : Except ε (List (Option β)) :=
  poolRun f (chunkSize ks.length cpus) ks sched (List.replicate ks.length none)

end Search
end GPyABCD
