import Verif.Model.SearchObj

/-!
# Specification: a search over objects shows a search over values
-/

namespace GPyABCD
namespace SearchObj
open Objects Links
open Search (Mod St)

variable {D R ε : Type}

/-- The same model: its expression is the root of a well-linked tree with the value that the other has. -/
structure ShowsMod (h : Heap) (m : Mod Nat D R) (m' : Mod KE D R) : Prop where
  /-- same fit -/
  uid : m.uid = m'.uid
  /-- same expression -/
  kex : RootAt h m.kex m'.kex
  /-- same fitted model -/
  data : m.data = m'.data
  /-- same utility -/
  cached : m.cached = m'.cached

/-- The same models and expressions in the same places. -/
structure Shows (h : Heap) (s : St Nat D R) (s' : St KE D R) : Prop where
  /-- `sorted_models` -/
  sorted : List.Forall₂ (ShowsMod h) s.sorted s'.sorted
  /-- `tested_models` -/
  tested : List.Forall₂ (List.Forall₂ (ShowsMod h)) s.tested s'.tested
  /-- `tested_k_exprs` -/
  ktested : List.Forall₂ (RootAt h) s.ktested s'.ktested
  /-- `expanded` -/
  expanded : List.Forall₂ (ShowsMod h) s.expanded s'.expanded
  /-- `not_expanded` -/
  notExpanded : List.Forall₂ (ShowsMod h) s.notExpanded s'.notExpanded
  /-- number of fits -/
  next : s.next = s'.next

/-- These objects are the roots of well-linked trees of which no two have a node in common, and all of whose nodes are at `lo` or above. -/
def Apart (lo : Nat) (h : Heap) (as : List Nat) : Prop :=
  ∃ ts : List LK, ts.map addr = as ∧ (∀ t ∈ ts, Stored h t ∧ WellLinked t) ∧ (idsL ts).Nodup ∧ ∀ a ∈ idsL ts, lo ≤ a

/-- A search over objects, which began in the store `h`, ends as a search over values does: with the same exception, or with the same lists, where
no two models have a node in common and none has one below `lo`, and no two of the tested expressions have a node in common and none has one below `klo`.
Nothing is changed that was there before the search and is not one of the objects `own`. -/
def EndsAs (own : List Nat) (lo klo : Nat) (h : Heap) (r : Except (Err ε) (St Nat D R) × Heap) (x : Except (Search.Err ε) (St KE D R)) : Prop :=
  (∀ a < h.length, a ∉ own → r.2[a]? = h[a]?) ∧
  match r.1, x with
  | .error (.search e), .error e' => e = e'
  | .ok s, .ok s' => Shows r.2 s s' ∧ Apart lo r.2 (s.tested.flatten.map (·.kex)) ∧ Apart klo r.2 s.ktested
  | _, _ => False

end SearchObj
end GPyABCD
