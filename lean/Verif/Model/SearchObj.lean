import Verif.Model.Search
import Verif.Model.Objects
import Verif.Spec.Refine

/-!
# Model search over expression objects

Models `/repo/GPy_ABCD/Models/modelSearch.py` once more, now with the kernel expressions as the objects of
`Verif.Model.Objects`: `expand`, `==`, `unique`, `deepcopy` and `make_simple_kexs` run in the store, the search keeps addresses,
and models that come back from other processes hold copies of their expressions. `Verif.Model.Search` is the same search with
expressions as plain values.

A fit reads the expression of its model (`to_kernel`, `print`) and changes nothing in the store; what it does with it is the
oracle `fit`, as in `Verif.Model.Search`. Reading a shared or cyclic structure without end is a `RecursionError`.
-/

namespace GPyABCD
namespace SearchObj
open Search (Mod St slice sameMod)

/-- What the search depends on. -/
structure Env (D R ε : Type) where
  /-- configuration -/
  cfg : Cfg
  /-- iteration orders of the sets of bases -/
  orders : KE.Orders
  /-- `p_rules` -/
  rules : List KE.RuleName
  /-- `<=` on utilities -/
  le : R → R → Bool
  /-- `utility_function` on a fitted model -/
  score : D → R
  /-- the outcome of the `n`-th fit -/
  fit : Nat → KE → Except ε D
  /-- `cpu_count()` for `fit_mods_parallel_processes`; `none` for `fit_mods_not_parallel` -/
  cpus : Option Nat

/-- Exceptions: of the expression classes, or of the search. -/
inductive Err (ε : Type)
  | obj (e : Objects.Err)
  | search (e : Search.Err ε)

/-- A computation with the store that may raise; changes made before an exception stay. -/
def P (ε α : Type) := Objects.Heap → Except (Err ε) α × Objects.Heap

variable {D R ε : Type}

instance : Monad (P ε) where
  pure x := fun h => (.ok x, h)
  bind m f := fun h =>
    match m h with
    | (.ok x, h') => f x h'
    | (.error e, h') => (.error e, h')

/-- A method of the expression classes. -/
def run {α : Type} (m : Objects.M α) : P ε α := fun h =>
  match m h with
  | (.ok x, h') => (.ok x, h')
  | (.error e, h') => (.error (.obj e), h')

/-- A step of the search that does not touch the store. -/
def lift {α : Type} (x : Except (Search.Err ε) α) : P ε α := fun h =>
  match x with
  | .ok y => (.ok y, h)
  | .error e => (.error (.search e), h)

/-- `fit_mods_not_parallel`, `modelSearch.py:36-38`, from fit number `n` on; the model keeps the expression object it is given,
`Models/model.py:10-19`. -/
def fitAll (E : Env D R ε) (n : Nat) : List Nat → P ε (List (Mod Nat D R))
  | [] => pure []
  | a :: as => do
    let v ← run (Objects.ask (fun h => Objects.valueAt h a))
    let d ← lift (match E.fit n v with
      | .error e => .error (.fit e)
      | .ok d => .ok d)
    let ms ← fitAll E (n + 1) as
    pure (⟨n, a, d, E.score d⟩ :: ms)

/-- The models of a chunk as they come back from the process that fitted them: one pickle of the list, in which an object occurs
once however often it is referred to. Simplification: the pickling of the expressions on the way out, whose copies the parent process
never sees, is left out. -/
def pickle (ms : List (Mod Nat D R)) : Objects.M (List (Mod Nat D R)) := do
  let f ← Objects.deepcopy (ms.map (·.kex))
  pure (ms.map (fun m => { m with kex := f m.kex }))

/-- The chunks of `starmap_async`, `modelSearch.py:45`. -/
def chunks {α : Type} (size : Nat) (xs : List α) : List (List α) :=
  (List.range ((xs.length + size - 1) / size)).map (fun j => (xs.drop (j * size)).take size)

/-- `model_list_fitter`, `modelSearch.py:36-45`. Simplification: in which order the chunks run and finish is modelled in
`Search.parallel` only. -/
def fitMods (E : Env D R ε) (n : Nat) (as : List Nat) : P ε (List (Mod Nat D R)) := do
  let ms ← fitAll E n as
  match E.cpus with
  | none => pure ms
  | some c => do
    let cs ← run (Objects.collect pickle (chunks (Search.chunkSize as.length c) ms))
    pure cs.flatten

/-- `sorted(ms, key = cached utility)`, `modelSearch.py:88-89, 122, 124`. -/
def sortMods (E : Env D R ε) (ms : List (Mod Nat D R)) : List (Mod Nat D R) :=
  ms.insertionSort (fun a b => E.le a.cached b.cached = true)

/-- `k in ts`. -/
def isIn (h : Objects.Heap) (k : Nat) : List Nat → Option Bool
  | [] => some false
  | t :: ts =>
    match Objects.eqO h k t with
    | none => none
    | some true => some true
    | some false => isIn h k ts

/-- `[kex for kex in ks if kex not in ts]`. -/
def notIn (h : Objects.Heap) (ts : List Nat) : List Nat → Option (List Nat)
  | [] => some []
  | k :: ks =>
    match isIn h k ts with
    | none => none
    | some true => notIn h ts ks
    | some false => (notIn h ts ks).map (k :: ·)

/-- `new_k_exprs`, `modelSearch.py:121`. -/
def newKexs (E : Env D R ε) (b : Int) (s : St Nat D R) : Objects.M (List Nat) := do
  let rs ← Objects.collect (fun m : Mod Nat D R => Objects.expand E.cfg E.orders E.rules m.kex) (slice s.notExpanded b)
  let us ← Objects.uniqueM rs.flatten
  Objects.ask (fun h => notIn h s.ktested us)

/-- The body of the loop of `model_search_rounds` without the printing, `modelSearch.py:121-127`. -/
def roundStep (E : Env D R ε) (b : Int) (s : St Nat D R) : P ε (St Nat D R) := do
  let new ← run (newKexs E b s)
  let ms ← fitMods E s.next new
  let tested := s.tested ++ [sortMods E ms]
  let sorted := sortMods E tested.flatten
  let expanded := s.expanded ++ slice s.notExpanded b
  pure { sorted := sorted, tested := tested, ktested := s.ktested ++ new, expanded := expanded,
         notExpanded := Util.diff sameMod sorted expanded, next := s.next + new.length }

/-- The loop of `model_search_rounds`, `modelSearch.py:120-129`. -/
def roundsGo (E : Env D R ε) (verbose : Bool) (beam0 : Int) : Nat → List Int → St Nat D R → P ε (St Nat D R)
  | _, [], s => pure s
  | r, b :: bs, s => do
    let s' ← roundStep E b s
    lift (if verbose then Search.printRound r beam0 b s' else .ok ())
    roundsGo E verbose beam0 (r + 1) bs s'

/-- `model_search_rounds`, `modelSearch.py:110-131`. -/
def searchRounds (E : Env D R ε) (verbose : Bool) (rounds : Int) (beam : List Int) (s : St Nat D R) : P ε (St Nat D R) :=
  roundsGo E verbose (beam.headD 0) 1 (beam.take rounds.toNat) s

/-- The state before the first round, `modelSearch.py:88-91`: the tested expressions are copies of the start expressions. -/
def startSt (E : Env D R ε) (starts : List Nat) : P ε (St Nat D R) := do
  let ms ← fitMods E 0 starts
  let tested := [sortMods E ms]
  let sorted := sortMods E tested.flatten
  let f ← run (Objects.deepcopy starts)
  pure { sorted := sorted, tested := tested, ktested := starts.map f, expanded := [], notExpanded := sorted, next := starts.length }

/-- `explore_model_space` after `make_simple_kexs`, `modelSearch.py:85-106`. -/
def exploreFrom (E : Env D R ε) (verbose : Bool) (starts : List Nat) (rounds : Int) (beam : Search.BeamArg) : P ε (St Nat D R) := do
  lift (if verbose then Search.printList starts else .ok ())
  let s ← startSt E starts
  let bs ← lift (Search.handleBeam rounds beam)
  lift (if verbose then Search.printStart bs s else .ok ())
  let s' ← searchRounds E verbose rounds bs s
  lift (if verbose then Search.printEnd bs s' else .ok ())
  pure s'

/-- `explore_model_space`, `modelSearch.py:83-106`, from the start kernels given by the user. -/
def explore (E : Env D R ε) (verbose : Bool) (given : List Objects.Given) (rounds : Int) (beam : Search.BeamArg) : P ε (St Nat D R) := do
  let starts ← run (Objects.makeSimpleKexs E.cfg given)
  exploreFrom E verbose starts rounds beam

end SearchObj
end GPyABCD
