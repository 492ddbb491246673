import Verif.Model.UtilHash
import Verif.Props.Util
import Mathlib.Data.Finset.Card
import Mathlib.Data.Finset.Sort
import Mathlib.Data.Finset.Dedup

/-!
# Property C101: the versions for hashable elements, and `zip_maps`
-/

namespace GPyABCD
open Util

variable {α β γ : Type}

/-- Python's `==` of hashable elements. -/
private abbrev same [DecidableEq α] : α → α → Bool := fun a b => decide (a = b)

private theorem same_eqv [DecidableEq α] : IsEqv (same (α := α)) := ⟨by simp, by simp [eq_comm], by simp⟩

/-- C101: `unique_h` has the elements of `unique`, and as many. -/
theorem C101_unique [DecidableEq α] (xs : List α) :
    (∀ a, a ∈ uniqueH xs ↔ a ∈ unique (fun a b => decide (a = b)) xs) ∧ (uniqueH xs).card = (unique (fun a b => decide (a = b)) xs).length := by
  obtain ⟨h1, h2, h3⟩ := C57_unique _ (same_eqv (α := α)) xs
  have hn : (unique (fun a b : α => decide (a = b)) xs).Nodup := h2.imp (by simp)
  have hm : ∀ a, a ∈ uniqueH xs ↔ a ∈ unique (fun a b => decide (a = b)) xs := by
    intro a
    simp only [uniqueH, List.mem_toFinset]
    refine ⟨fun h => ?_, fun h => h1.subset h⟩
    obtain ⟨y, hy, e, _⟩ := h3 a h
    simp only [decide_eq_true_eq] at e
    exact e ▸ hy
  refine ⟨hm, ?_⟩
  rw [← List.toFinset_card_of_nodup hn]
  congr 1
  ext a
  rw [hm, List.mem_toFinset]

/-- C101 (partial: the two differ on lists with repetitions, `C101_eq_elems_differ`). Lists with equal elements are so for `eq_elems_h` too, and the two agree
exactly when lists with the same elements have them equally often. -/
theorem C101_eq_elems_partial [DecidableEq α] (xs ys : List α) :
    (eqElems (fun a b => decide (a = b)) xs ys = true → eqElemsH xs ys = true) ∧
      (eqElemsH xs ys = eqElems (fun a b => decide (a = b)) xs ys ↔
        ((∀ a, a ∈ xs ↔ a ∈ ys) → ∀ a, xs.count a = ys.count a)) := by
  have hH : eqElemsH xs ys = true ↔ ∀ a, a ∈ xs ↔ a ∈ ys := by
    simp only [eqElemsH, decide_eq_true_eq, Finset.ext_iff, List.mem_toFinset]
  have hE := C58_eq_elems_perm xs ys
  have hi : (∀ a, xs.count a = ys.count a) → ∀ a, a ∈ xs ↔ a ∈ ys := by
    intro h a
    rw [← List.count_pos_iff, ← List.count_pos_iff, h a]
  refine ⟨fun h => hH.2 (hi (hE.1 h)), ?_⟩
  rw [Bool.eq_iff_iff, hH, hE]
  exact ⟨fun h => h.1, fun h => ⟨h, hi⟩⟩

/-- C101: in particular they agree on lists without repetitions. -/
theorem C101_eq_elems_nodup [DecidableEq α] (xs ys : List α) (hx : xs.Nodup) (hy : ys.Nodup) :
    eqElemsH xs ys = eqElems (fun a b => decide (a = b)) xs ys := by
  refine (C101_eq_elems_partial xs ys).2.2 fun h a => ?_
  by_cases ha : a ∈ xs
  · rw [List.count_eq_one_of_mem hx ha, List.count_eq_one_of_mem hy ((h a).1 ha)]
  · rw [List.count_eq_zero_of_not_mem ha, List.count_eq_zero_of_not_mem fun hb => ha ((h a).2 hb)]

/-- C101: they do differ. -/
theorem C101_eq_elems_differ : eqElemsH [1, 1, 2] [1, 2] = true ∧ eqElems (fun a b : Nat => decide (a = b)) [1, 1, 2] [1, 2] = false := by
  decide

/-- C101 (partial: see `C101_diff_differ`). `diff` keeps all of `diff_h`; the two have the same elements exactly when none of the second list is left. -/
theorem C101_diff_partial [DecidableEq α] (xs ys : List α) :
    (∀ a ∈ diffH xs ys, a ∈ diff (fun a b => decide (a = b)) xs ys) ∧
      ((∀ a, a ∈ diffH xs ys ↔ a ∈ diff (fun a b => decide (a = b)) xs ys) ↔ ∀ a ∈ ys, a ∉ diff (fun a b => decide (a = b)) xs ys) := by
  obtain ⟨p, q, zs, e, hf, hp, hs, _⟩ := C58_diff (fun a b : α => decide (a = b)) xs ys
  simp only [decide_eq_true_eq, List.forall₂_eq_eq_eq] at hf
  subst hf
  have h1 : ∀ a ∈ diffH xs ys, a ∈ diff (fun a b => decide (a = b)) xs ys := by
    intro a ha
    simp only [diffH, Finset.mem_sdiff, List.mem_toFinset] at ha
    have := hp.subset ha.1
    rw [List.mem_append] at this
    rcases this with h | h
    · exact absurd (by rw [e]; exact List.mem_append_left _ h) ha.2
    · exact h
  refine ⟨h1, fun h a ha hd => ?_, fun h a => ⟨h1 a, fun hd => ?_⟩⟩
  · have := (h a).2 hd
    simp only [diffH, Finset.mem_sdiff, List.mem_toFinset] at this
    exact this.2 ha
  · simp only [diffH, Finset.mem_sdiff, List.mem_toFinset]
    exact ⟨hs.subset hd, fun ha => h a ha hd⟩

/-- C101: in particular for a list without repetitions and a part of it. -/
theorem C101_diff_nodup [DecidableEq α] (xs ys : List α) (hx : xs.Nodup) (hy : ys.Nodup) (h : ∀ a ∈ ys, a ∈ xs) (a : α) :
    a ∈ diffH xs ys ↔ a ∈ diff (fun a b => decide (a = b)) xs ys := by
  refine (C101_diff_partial xs ys).2.2 (fun b hb hd => ?_) a
  have hc := C58_diff_count xs ys (fun c => by
    by_cases hc : c ∈ ys
    · rw [List.count_eq_one_of_mem hy hc, List.count_eq_one_of_mem hx (h c hc)]
    · rw [List.count_eq_zero_of_not_mem hc]; exact Nat.zero_le _) b
  rw [List.count_eq_one_of_mem hy hb, List.count_eq_one_of_mem hx (h b hb)] at hc
  exact List.count_eq_zero.1 hc hd

/-- C101: they do differ: one of two is left, and after an element that is not there nothing more is taken away. -/
theorem C101_diff_differ : (diffH [1, 1] [1] = ∅ ∧ diff (fun a b : Nat => decide (a = b)) [1, 1] [1] = [1]) ∧
    (diffH [1, 2] [3, 2] = {1} ∧ diff (fun a b : Nat => decide (a = b)) [1, 2] [3, 2] = [1, 2]) := by
  decide

private theorem mem_commonKeys [DecidableEq β] (maps : List (List (β × γ))) (s : Finset β) (h : commonKeys maps = some s) (k : β) :
    k ∈ s ↔ ∀ m ∈ maps, (lookup k m).isSome = true := by
  have hl : ∀ m : List (β × γ), (lookup k m).isSome = true ↔ k ∈ m.map Prod.fst := by
    intro m
    induction m with
    | nil => simp [lookup]
    | cons x xs ih =>
      obtain ⟨a, b⟩ := x
      rw [lookup]
      split
      · rename_i e; simp [e]
      · rename_i e; simpa [ih, Ne.symm e] using ih
  cases maps with
  | nil => simp [commonKeys] at h
  | cons m ms =>
    simp only [commonKeys, Option.some.injEq] at h
    subst h
    have : ∀ (ms : List (List (β × γ))) (t : Finset β), k ∈ ms.foldl (fun s d => s ∩ (d.map Prod.fst).toFinset) t ↔
        k ∈ t ∧ ∀ m ∈ ms, (lookup k m).isSome = true := by
      intro ms
      induction ms with
      | nil => simp
      | cons d ds ih =>
        intro t
        rw [List.foldl_cons, ih, Finset.mem_inter, List.mem_toFinset, List.forall_mem_cons, hl, and_assoc]
    rw [this, List.mem_toFinset, List.forall_mem_cons, hl]

private theorem valuesAt_iff [DecidableEq β] (k : β) (maps : List (List (β × γ))) (vs : List γ) :
    valuesAt k maps = some vs ↔ List.Forall₂ (fun m v => lookup k m = some v) maps vs := by
  induction maps generalizing vs with
  | nil => cases vs <;> simp [valuesAt]
  | cons m ms ih =>
    rw [valuesAt]
    cases vs with
    | nil => cases lookup k m <;> cases valuesAt k ms <;> simp
    | cons v vs =>
      rw [List.forall₂_cons, ← ih]
      cases lookup k m <;> cases valuesAt k ms <;> simp

private theorem valuesAt_some [DecidableEq β] (k : β) (maps : List (List (β × γ))) (h : ∀ m ∈ maps, (lookup k m).isSome = true) :
    ∃ vs, valuesAt k maps = some vs := by
  induction maps with
  | nil => exact ⟨[], rfl⟩
  | cons m ms ih =>
    obtain ⟨v, hv⟩ := Option.isSome_iff_exists.1 (h m (by simp))
    obtain ⟨vs, hvs⟩ := ih fun m hm => h m (by simp [hm])
    exact ⟨v :: vs, by rw [valuesAt, hv, hvs]⟩

/-- C101: `zip_maps` gives every key that all maps have once, in whatever order sets are gone through, with its values in the order of the maps, and no other
key. Without maps it raises, otherwise never. -/
theorem C101_zip_maps [DecidableEq β] (order : Finset β → List β) (ho : ∀ s, (order s).Nodup ∧ ∀ k, k ∈ order s ↔ k ∈ s) (maps : List (List (β × γ))) :
    (zipMaps order maps = none ↔ maps = []) ∧ ∀ r, zipMaps order maps = some r →
      (r.map Prod.fst).Nodup ∧ (∀ k, k ∈ r.map Prod.fst ↔ ∀ m ∈ maps, (lookup k m).isSome = true) ∧
        ∀ e ∈ r, List.Forall₂ (fun m v => lookup e.1 m = some v) maps e.2 := by
  have hz : ∀ ks : List β, (∀ k ∈ ks, ∀ m ∈ maps, (lookup k m).isSome = true) → ∃ r, zipLoop maps ks = some r ∧ r.map Prod.fst = ks ∧
      ∀ e ∈ r, List.Forall₂ (fun m v => lookup e.1 m = some v) maps e.2 := by
    intro ks
    induction ks with
    | nil => exact fun _ => ⟨[], rfl, rfl, by simp⟩
    | cons k ks ih =>
      intro h
      obtain ⟨vs, hv⟩ := valuesAt_some k maps (h k (by simp))
      obtain ⟨r, h1, h2, h3⟩ := ih fun k hk => h k (by simp [hk])
      refine ⟨(k, vs) :: r, by rw [zipLoop, hv, h1], by simp [h2], ?_⟩
      intro e he
      rcases List.mem_cons.1 he with rfl | he
      · exact (valuesAt_iff _ _ _).1 hv
      · exact h3 e he
  cases hc : commonKeys maps with
  | none =>
    have hm : maps = [] := by cases maps <;> simp [commonKeys] at hc ⊢
    subst hm
    exact ⟨by simp [zipMaps, hc], by simp [zipMaps, hc]⟩
  | some s =>
    have hm : maps ≠ [] := by rintro rfl; simp [commonKeys] at hc
    obtain ⟨r, h1, h2, h3⟩ := hz (order s) fun k hk => (mem_commonKeys maps s hc k).1 (((ho s).2 k).1 hk)
    have e : zipMaps order maps = some r := by rw [zipMaps, hc]; exact h1
    refine ⟨by simp [e, hm], fun r' hr' => ?_⟩
    rw [e, Option.some.injEq] at hr'
    subst hr'
    rw [h2]
    exact ⟨(ho s).1, fun k => by rw [(ho s).2, mem_commonKeys maps s hc], h3⟩

example : zipMaps (fun s => ["b", "a", "c"].filter (· ∈ s)) [[("a", 1), ("b", 2), ("c", 3)], [("c", 4), ("b", 5)], [("b", 6), ("c", 7), ("d", 8)]] =
    some [("b", [2, 5, 6]), ("c", [3, 4, 7])] := by decide +kernel

-- an order of sets
example (s : Finset Nat) : s.sort.Nodup ∧ ∀ k, k ∈ s.sort ↔ k ∈ s := ⟨s.sort_nodup _, fun _ => Finset.mem_sort _⟩

example : ([1, 2, 3] : List Nat).Nodup ∧ ([3, 1] : List Nat).Nodup ∧ (∀ a ∈ [3, 1], a ∈ [1, 2, 3]) ∧ diffH [1, 2, 3] [3, 1] = {2} ∧
    eqElemsH [1, 2, 3] [3, 1, 2] = true := by decide

end GPyABCD
