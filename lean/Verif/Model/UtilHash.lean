import Verif.Model.Util
import Mathlib.Data.Finset.Basic
import Mathlib.Data.Finset.Lattice.Basic
import Mathlib.Data.Finset.SDiff

/-!
# Utilities for hashable elements

The `_h` versions in `/repo/GPy_ABCD/Util/genericUtil.py` and `zip_maps`. A Python set is a `Finset`; the order in which a set is gone through is an argument.
-/

namespace GPyABCD
namespace Util

variable {α β γ : Type}

/-- `unique_h(xs)`, `genericUtil.py:97`. -/
def uniqueH [DecidableEq α] (xs : List α) : Finset α := xs.toFinset

/-- `eq_elems_h(xs, ys)`, `genericUtil.py:106`. -/
def eqElemsH [DecidableEq α] (xs ys : List α) : Bool := decide (xs.toFinset = ys.toFinset)

/-- `diff_h(xs, ys)`, `genericUtil.py:115`. -/
def diffH [DecidableEq α] (xs ys : List α) : Finset α := xs.toFinset \ ys.toFinset

/-- `reduce(set.intersection, map(set, maps))`, `genericUtil.py:91`: `none` is the `TypeError` of `reduce` without maps. -/
def commonKeys [DecidableEq β] : List (List (β × γ)) → Option (Finset β)
  | [] => none
  | m :: ms => some (ms.foldl (fun s d => s ∩ (d.map Prod.fst).toFinset) (m.map Prod.fst).toFinset)

/-- `tuple(map(op.itemgetter(key), maps))`: `none` is `KeyError`. -/
def valuesAt [DecidableEq β] (k : β) : List (List (β × γ)) → Option (List γ)
  | [] => some []
  | m :: ms =>
    match lookup k m, valuesAt k ms with
    | some v, some vs => some (v :: vs)
    | _, _ => none

/-- The loop of `zip_maps`, `genericUtil.py:91`, over the keys in the order `ks`. -/
def zipLoop [DecidableEq β] (maps : List (List (β × γ))) : List β → Option (List (β × List γ))
  | [] => some []
  | k :: ks =>
    match valuesAt k maps, zipLoop maps ks with
    | some vs, some r => some ((k, vs) :: r)
    | _, _ => none

/-- `list(zip_maps(*maps))`, `genericUtil.py:90-91`; `order` is the order in which Python goes through the set of common keys. -/
def zipMaps [DecidableEq β] (order : Finset β → List β) (maps : List (List (β × γ))) : Option (List (β × List γ)) :=
  match commonKeys maps with
  | none => none
  | some s => zipLoop maps (order s)

end Util
end GPyABCD
