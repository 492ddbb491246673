import Verif.Lemmas.SearchHeap
import Verif.Props.Search

/-!
# The search's lists as objects (C68)
-/

namespace GPyABCD
open Search

variable {K D R ε : Type}

/-- C68: as far as its returned lists are concerned, the search with its in-place changes is the search on values that the
other theorems are about. -/
theorem C68_refines (E : Env K D R ε) (starts : List K) (rounds : Int) (beam : BeamArg) :
    (exploreH E starts rounds beam).map (fun p => p.1.view p.2) = explore E false starts rounds beam := by
  have h := exploreH_spec (E := E) (starts := starts) (rounds := rounds) (beam := beam)
  cases he : explore E false starts rounds beam with
  | error e => rw [he] at h; simp only at h; rw [h]; rfl
  | ok s =>
    rw [he] at h
    obtain ⟨h', r, h1, h2, _⟩ := h
    rw [h1, Except.map, h2]

/-- C68 (partial: the other three lists do change, `C68_changes_earlier`): continuing a search leaves the sorted and
the not-expanded list of the earlier result as they were; the tested models, tested expressions and expanded models of the
earlier result become those of the new result, of which they were a beginning. -/
theorem C68_continue_partial (E : Env K D R ε) (starts : List K) (rounds : Int) (beam : BeamArg) (h : Heap K D R) (r : Refs)
    (h0 : exploreH E starts rounds beam = .ok (h, r)) (bs : List Int) (h' : Heap K D R) (r' : Refs) (hc : roundsH E bs h r = (h', .ok r')) :
    (h'.view r).sorted = (h.view r).sorted ∧ (h'.view r).notExpanded = (h.view r).notExpanded ∧
      (h'.view r).tested = (h'.view r').tested ∧ (h'.view r).ktested = (h'.view r').ktested ∧ (h'.view r).expanded = (h'.view r').expanded ∧
      (h.view r).tested <+: (h'.view r').tested := by
  have hr : RefsOK h r := by
    have hs := exploreH_spec (E := E) (starts := starts) (rounds := rounds) (beam := beam)
    cases he : explore E false starts rounds beam with
    | error e => rw [he] at hs; simp only at hs; rw [h0] at hs; simp at hs
    | ok s =>
      rw [he] at hs
      obtain ⟨h1, r1, g1, _, g3⟩ := hs
      rw [h0] at g1
      simp only [Except.ok.injEq, Prod.mk.injEq] at g1
      obtain ⟨rfl, rfl⟩ := g1
      exact g3
  have hsp := roundsH_spec (E := E) (bs := bs) hr
  cases hg : roundsGo E false 0 0 bs (h.view r) with
  | error e => rw [hg] at hsp; obtain ⟨x, hx⟩ := hsp; rw [hc] at hx; simp at hx
  | ok s' =>
    rw [hg] at hsp
    obtain ⟨h1, r1, g1, g2, _, g4, g5, g6, g7⟩ := hsp
    rw [hc] at g1
    simp only [Prod.mk.injEq, Except.ok.injEq] at g1
    obtain ⟨rfl, rfl⟩ := g1
    refine ⟨(g7 r.sorted hr.sorted (Ne.symm hr.ne1)).2, (g7 r.notExpanded hr.notExpanded (Ne.symm hr.ne2)).2, ?_, ?_, ?_, ?_⟩
    · simp only [Heap.view, g4]
    · simp only [Heap.view, g5]
    · simp only [Heap.view, g6]
    · rw [g2]; exact roundsGo_prefix hg

/-- C68 is false: continuing changes the lists of tested models, tested expressions and expanded models of the earlier result. -/
theorem C68_changes_earlier : ∃ (E : Env Nat Nat Nat Unit) (h : Heap Nat Nat Nat) (r : Refs) (h' : Heap Nat Nat Nat) (r' : Refs),
    exploreH E [3] 0 (.int 1) = .ok (h, r) ∧ roundsH E [1] h r = (h', .ok r') ∧
      (h'.view r).tested.length = 2 ∧ (h.view r).tested.length = 1 ∧
      (h'.view r).ktested = [3, 4, 6, 0] ∧ (h.view r).ktested = [3] ∧
      (h'.view r).expanded.length = 1 ∧ (h.view r).expanded.length = 0 :=
  ⟨toyEnv, _, _, _, _, rfl, rfl, rfl, rfl, rfl, rfl, rfl, rfl⟩

/-- C68: when a fit of a later round gives up during a continued search, the caller is left with lists that contradict each
other: a model is listed both as expanded and as not expanded. -/
theorem C68_failed_continue : ∃ (E : Env Nat Nat Nat Unit) (h : Heap Nat Nat Nat) (r : Refs) (h' : Heap Nat Nat Nat) (e : Err Unit),
    exploreH E [3] 0 (.int 1) = .ok (h, r) ∧ roundsH E [1, 1] h r = (h', .error e) ∧
      (h'.view r).expanded.map (·.uid) = [0] ∧ (h'.view r).notExpanded.map (·.uid) = [0] :=
  ⟨{ toyEnv with fit := fun n k => if n < 4 then .ok k else .error () }, _, _, _, _, rfl, rfl, rfl, rfl⟩

end GPyABCD
