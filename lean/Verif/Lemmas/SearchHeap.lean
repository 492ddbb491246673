import Verif.Model.SearchHeap
import Verif.Lemmas.Search

/-!
# Lemmas about the heap model of the search
-/

namespace GPyABCD
namespace Search

variable {K D R ε : Type}

/-- The references exist, and the list changed in place is neither of the other two lists of models. -/
structure RefsOK (h : Heap K D R) (r : Refs) : Prop where
  tested : r.tested < h.tested.length
  ktested : r.ktested < h.kexs.length
  sorted : r.sorted < h.mods.length
  expanded : r.expanded < h.mods.length
  notExpanded : r.notExpanded < h.mods.length
  ne1 : r.expanded ≠ r.sorted
  ne2 : r.expanded ≠ r.notExpanded

theorem getD_set_self {α : Type} {l : List α} {i : Nat} {a d : α} (h : i < l.length) : (l.set i a).getD i d = a := by
  simp [List.getD_eq_getElem?_getD, h]

theorem getD_set_ne {α : Type} {l : List α} {i j : Nat} {a d : α} (h : i ≠ j) : (l.set i a).getD j d = l.getD j d := by
  simp [List.getD_eq_getElem?_getD, List.getElem?_set_ne h]

theorem getD_append_left {α : Type} {l m : List α} {i : Nat} {d : α} (h : i < l.length) : (l ++ m).getD i d = l.getD i d := by
  simp [List.getD_eq_getElem?_getD, List.getElem?_append_left h]

theorem getD_append_len {α : Type} {l : List α} {a d : α} : (l ++ [a]).getD l.length d = a := by
  simp [List.getD_eq_getElem?_getD]

theorem getD_append_len' {α : Type} {l : List α} {n : Nat} {a d : α} (h : l.length = n) : (l ++ [a]).getD n d = a := by
  subst h; exact getD_append_len

/-- One round on the heap is one round on values; the kept objects change in place, the old sorted and not-expanded objects do
not change. -/
theorem roundStepH_spec {E : Env K D R ε} {b : Int} {h : Heap K D R} {r : Refs} (hr : RefsOK h r) :
    match roundStep E b (h.view r) with
    | .error e => roundStepH E b h r = (h, .error e)
    | .ok s' => ∃ h' r', roundStepH E b h r = (h', .ok r') ∧ h'.view r' = s' ∧ RefsOK h' r' ∧
        r'.tested = r.tested ∧ r'.ktested = r.ktested ∧ r'.expanded = r.expanded ∧
        (∀ i, i < h.mods.length → i ≠ r.expanded → i < h'.mods.length ∧ h'.mods.getD i [] = h.mods.getD i []) := by
  simp only [roundStep]
  have hnext : (h.view r).next = r.next := rfl
  rw [hnext]
  cases hf : fitAll E r.next (newKexs E b (h.view r)) with
  | error e => simp only [roundStepH, hf]
  | ok ms =>
    simp only
    refine ⟨_, _, by simp only [roundStepH, hf]; rfl, ?_⟩
    refine ⟨?_, ?_, rfl, rfl, rfl, ?_⟩
    · have e1 : (h.mods ++ [sortMods E (Util.flatten (h.tested.getD r.tested [] ++ [sortMods E ms]))]).getD r.expanded [] = h.mods.getD r.expanded [] :=
        getD_append_left hr.expanded
      have e2 : (h.mods ++ [sortMods E (Util.flatten (h.tested.getD r.tested [] ++ [sortMods E ms]))]).getD r.notExpanded [] = h.mods.getD r.notExpanded [] :=
        getD_append_left hr.notExpanded
      have hne := hr.expanded
      simp only [Heap.view, e1, e2]
      congr 1
      · rw [getD_append_left (by simp), getD_set_ne (by omega), getD_append_len]
      · rw [getD_set_self hr.tested]
      · rw [getD_set_self hr.ktested]
      · rw [getD_append_left (by simp; omega), getD_set_self (by simp; omega)]
      · rw [getD_append_len]
        congr 1
        · rw [getD_set_ne (by omega), getD_append_len]
        · rw [getD_set_self (by simp; omega)]
    · have h1 := hr.tested; have h2 := hr.ktested; have h3 := hr.expanded
      refine ⟨?_, ?_, ?_, ?_, ?_, ?_, ?_⟩ <;> simp <;> omega
    · intro i hi hne
      refine ⟨by simp; omega, ?_⟩
      rw [getD_append_left (by simp; omega), getD_set_ne (Ne.symm hne), getD_append_left hi]

/-- The loop on the heap. -/
theorem roundsH_spec {E : Env K D R ε} : ∀ {bs : List Int} {h : Heap K D R} {r : Refs}, RefsOK h r →
    match roundsGo E false 0 0 bs (h.view r) with
    | .error e => ∃ h', roundsH E bs h r = (h', .error e)
    | .ok s' => ∃ h' r', roundsH E bs h r = (h', .ok r') ∧ h'.view r' = s' ∧ RefsOK h' r' ∧
        r'.tested = r.tested ∧ r'.ktested = r.ktested ∧ r'.expanded = r.expanded ∧
        (∀ i, i < h.mods.length → i ≠ r.expanded → i < h'.mods.length ∧ h'.mods.getD i [] = h.mods.getD i []) := by
  intro bs
  induction bs with
  | nil => intro h r hr; exact ⟨h, r, rfl, rfl, hr, rfl, rfl, rfl, fun i hi _ => ⟨hi, rfl⟩⟩
  | cons b bs ih =>
    intro h r hr
    have h1 := roundStepH_spec (E := E) (b := b) hr
    simp only [roundsGo, Bool.false_eq_true, if_false]
    cases hs : roundStep E b (h.view r) with
    | error e =>
      rw [hs] at h1
      simp only at h1 ⊢
      exact ⟨h, by simp only [roundsH, h1]⟩
    | ok s1 =>
      rw [hs] at h1
      obtain ⟨h', r', g1, g2, g3, g4, g5, g6, g7⟩ := h1
      have h2 := ih (h := h') (r := r') g3
      rw [g2] at h2
      simp only
      rw [roundsGo_irrel (b0' := 0) (r' := 0)]
      cases hg : roundsGo E false 0 0 bs s1 with
      | error e =>
        rw [hg] at h2
        obtain ⟨h'', hh⟩ := h2
        exact ⟨h'', by simp only [roundsH, g1, hh]⟩
      | ok s2 =>
        rw [hg] at h2
        obtain ⟨h'', r'', k1, k2, k3, k4, k5, k6, k7⟩ := h2
        refine ⟨h'', r'', by simp only [roundsH, g1, k1], k2, k3, k4.trans g4, k5.trans g5, k6.trans g6, ?_⟩
        intro i hi hne
        obtain ⟨a1, a2⟩ := g7 i hi hne
        obtain ⟨b1, b2⟩ := k7 i a1 (by rw [g6]; exact hne)
        exact ⟨b1, b2.trans a2⟩

theorem exploreH_spec {E : Env K D R ε} {starts : List K} {rounds : Int} {beam : BeamArg} :
    match explore E false starts rounds beam with
    | .error e => exploreH E starts rounds beam = .error e
    | .ok s => ∃ h r, exploreH E starts rounds beam = .ok (h, r) ∧ h.view r = s ∧ RefsOK h r := by
  simp only [explore, exploreH, startH, startSt, bind, Except.bind, pure, Except.pure, Bool.false_eq_true, if_false]
  cases hf : fitAll E 0 starts with
  | error e => rfl
  | ok ms =>
    simp only
    cases hb : handleBeam (ε := ε) rounds beam with
    | error e => rfl
    | ok bs =>
      simp only [searchRounds]
      have hr : RefsOK (⟨[[sortMods E ms]], [starts], [sortMods E (Util.flatten [sortMods E ms]), []]⟩ : Heap K D R)
          { sorted := 0, tested := 0, ktested := 0, expanded := 1, notExpanded := 0, next := starts.length } := by
        constructor <;> simp
      have h1 := roundsH_spec (E := E) (bs := bs.take rounds.toNat) hr
      simp only [Heap.view, List.getD_cons_zero, List.getD_cons_succ] at h1
      rw [roundsGo_irrel (b0' := 0) (r' := 0)]
      cases hg : roundsGo E false 0 0 (bs.take rounds.toNat)
          ({ sorted := sortMods E (Util.flatten [sortMods E ms]), tested := [sortMods E ms], ktested := starts, expanded := [],
             notExpanded := sortMods E (Util.flatten [sortMods E ms]), next := starts.length } : St K D R) with
      | error e =>
        rw [hg] at h1
        obtain ⟨h', hh⟩ := h1
        simp only [hh]
      | ok s =>
        rw [hg] at h1
        obtain ⟨h', r', g1, g2, g3, _⟩ := h1
        exact ⟨h', r', by simp only [g1], g2, g3⟩

end Search
end GPyABCD
