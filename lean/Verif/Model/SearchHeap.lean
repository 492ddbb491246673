import Verif.Model.Search

/-!
# The lists of the search as Python objects

`Model/Search.lean` treats the lists as values. Here they are objects in a heap, so that in-place changes
(`tested_models.append`, `expanded +=`, `tested_k_exprs +=`) can be told from rebinding (`sorted_models =`, `not_expanded =`).
Not modelled: the fitted models themselves as mutable objects; printing.
-/

namespace GPyABCD
namespace Search

variable {K D R ε : Type}

/-- List objects by kind; a reference is an index. -/
structure Heap (K D R : Type) where
  /-- lists of lists of models -/
  tested : List (List (List (Mod K D R)))
  /-- lists of expressions -/
  kexs : List (List K)
  /-- lists of models -/
  mods : List (List (Mod K D R))

/-- The five references held by a caller, and the number of fits made so far (for the fitting oracle). -/
structure Refs where
  /-- `sorted_models` -/
  sorted : Nat
  /-- `tested_models` -/
  tested : Nat
  /-- `tested_k_exprs` -/
  ktested : Nat
  /-- `expanded` -/
  expanded : Nat
  /-- `not_expanded` -/
  notExpanded : Nat
  /-- number of fits made -/
  next : Nat
  deriving DecidableEq

/-- What the caller sees through the references. -/
def Heap.view (h : Heap K D R) (r : Refs) : St K D R :=
  { sorted := h.mods.getD r.sorted [], tested := h.tested.getD r.tested [], ktested := h.kexs.getD r.ktested [],
    expanded := h.mods.getD r.expanded [], notExpanded := h.mods.getD r.notExpanded [], next := r.next }

/-- The body of the loop, `modelSearch.py:121-127`, statement by statement. On an exception of a fit the heap is as it was at
the beginning of the round (`modelSearch.py:122` raises before appending). -/
def roundStepH (E : Env K D R ε) (b : Int) (h : Heap K D R) (r : Refs) : Heap K D R × Except (Err ε) Refs :=
  let new := newKexs E b (h.view r)
  match fitAll E r.next new with
  | .error e => (h, .error e)
  | .ok ms =>
    -- tested_models.append(...)
    let tested := (h.tested.getD r.tested []) ++ [sortMods E ms]
    let heapTested := h.tested.set r.tested tested
    -- sorted_models = sorted(...)
    let mods1 := h.mods ++ [sortMods E (Util.flatten tested)]
    let sortedRef := h.mods.length
    -- expanded += not_expanded[:b]
    let expanded := (mods1.getD r.expanded []) ++ slice (mods1.getD r.notExpanded []) b
    let mods2 := mods1.set r.expanded expanded
    -- not_expanded = diff(sorted_models, expanded)
    let mods3 := mods2 ++ [Util.diff sameMod (mods2.getD sortedRef []) (mods2.getD r.expanded [])]
    let notExpandedRef := mods2.length
    -- tested_k_exprs += new_k_exprs
    let heapKexs := h.kexs.set r.ktested ((h.kexs.getD r.ktested []) ++ new)
    (⟨heapTested, heapKexs, mods3⟩,
      .ok { r with sorted := sortedRef, notExpanded := notExpandedRef, next := r.next + new.length })

/-- The loop of `model_search_rounds`, `modelSearch.py:120-131`. -/
def roundsH (E : Env K D R ε) : List Int → Heap K D R → Refs → Heap K D R × Except (Err ε) Refs
  | [], h, r => (h, .ok r)
  | b :: bs, h, r =>
    match roundStepH E b h r with
    | (h', .error e) => (h', .error e)
    | (h', .ok r') => roundsH E bs h' r'

/-- The objects made by `explore_model_space` before its loop, `modelSearch.py:88-91`: `sorted_models` and `not_expanded` are
one object. -/
def startH (E : Env K D R ε) (starts : List K) : Except (Err ε) (Heap K D R × Refs) :=
  match fitAll E 0 starts with
  | .error e => .error e
  | .ok ms => .ok (⟨[[sortMods E ms]], [starts], [sortMods E (Util.flatten [sortMods E ms]), []]⟩,
      { sorted := 0, tested := 0, ktested := 0, expanded := 1, notExpanded := 0, next := starts.length })

/-- `explore_model_space` with silent printing, `modelSearch.py:83-106`. -/
def exploreH (E : Env K D R ε) (starts : List K) (rounds : Int) (beam : BeamArg) : Except (Err ε) (Heap K D R × Refs) :=
  match startH E starts with
  | .error e => .error e
  | .ok (h, r) =>
    match handleBeam (ε := ε) rounds beam with
    | .error e => .error e
    | .ok bs =>
      match roundsH E (bs.take rounds.toNat) h r with
      | (_, .error e) => .error e
      | (h', .ok r') => .ok (h', r')

end Search
end GPyABCD
