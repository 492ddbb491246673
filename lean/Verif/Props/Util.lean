import Verif.Lemmas.Util
import Verif.Spec.Util
import Verif.Model.Interval
import Mathlib.MeasureTheory.Measure.Lebesgue.Basic

/-!
# Generic utilities (C57-C62)

Element equality `eqv` is Python's `==`, any equivalence (`Util.IsEqv`).
-/

namespace GPyABCD
open Util

variable {α β γ : Type}

/-! ## C57 -/

/-- C57: `unique` returns, in order, elements of its input, no two equal; every input element is represented
by the first input element equal to it. -/
theorem C57_unique (eqv : α → α → Bool) (h : IsEqv eqv) (xs : List α) :
    (unique eqv xs).Sublist xs ∧ (unique eqv xs).Pairwise (fun a b => eqv a b = false) ∧
      ∀ x ∈ xs, ∃ y ∈ unique eqv xs, eqv x y = true ∧ xs.find? (fun z => eqv x z) = some y := by
  refine ⟨uniqueGo_sublist _ _ _, uniqueGo_pairwise h.symm _ _, ?_⟩
  intro x hx
  rcases uniqueGo_repr h [] xs x hx with ⟨z, hz, _⟩ | ⟨y, hy, e⟩
  · simp at hz
  · exact ⟨y, hy, by simpa using List.find?_some e, e⟩

/-- C57: that determines the result: any list with these three features is `unique`'s. -/
theorem C57_unique_determined [DecidableEq α] (xs ys : List α) (h1 : ys.Sublist xs) (h2 : ys.Nodup)
    (h3 : ∀ x ∈ xs, x ∈ ys) : ys.Perm (unique (fun a b => decide (a = b)) xs) := by
  have h : IsEqv (fun a b : α => decide (a = b)) := ⟨by simp, by simp [eq_comm], by simp⟩
  obtain ⟨g1, g2, g3⟩ := C57_unique _ h xs
  have g2' : (unique (fun a b => decide (a = b)) xs).Nodup := g2.imp (by simp)
  refine (List.perm_ext_iff_of_nodup h2 g2').2 fun a => ⟨fun ha => ?_, fun ha => h3 a (g1.subset ha)⟩
  obtain ⟨y, hy, e, _⟩ := g3 a (h1.subset ha)
  simp only [decide_eq_true_eq] at e
  exact e ▸ hy

-- equality modulo 3 keeps the first of every class
example : IsEqv (fun a b : Nat => decide (a % 3 = b % 3)) ∧
    unique (fun a b : Nat => decide (a % 3 = b % 3)) [4, 1, 2, 5, 7] = [4, 2] :=
  ⟨⟨by simp, by simp [eq_comm], by simp; intro a b c; exact Eq.trans⟩, by decide⟩

/-! ## C58 -/

/-- C58: `eq_elems` is True exactly when the second list can be rearranged to match the first one element by
element. -/
theorem C58_eq_elems (eqv : α → α → Bool) (h : IsEqv eqv) (xs ys : List α) :
    eqElems eqv xs ys = true ↔ ∃ zs, List.Forall₂ (fun a b => eqv a b = true) xs zs ∧ zs.Perm ys :=
  eqElems_iff h xs ys

/-- C58: with literal equality, `eq_elems` is equality of multisets. -/
theorem C58_eq_elems_perm [DecidableEq α] (xs ys : List α) :
    eqElems (fun a b => decide (a = b)) xs ys = true ↔ ∀ a, xs.count a = ys.count a := by
  have h : IsEqv (fun a b : α => decide (a = b)) := ⟨by simp, by simp [eq_comm], by simp⟩
  rw [eqElems_iff h, ← List.perm_iff_count]
  simp only [decide_eq_true_eq, List.forall₂_eq_eq_eq]
  exact ⟨fun ⟨zs, e, hp⟩ => e ▸ hp, fun hp => ⟨xs, rfl, hp⟩⟩

/-- C58: `diff` removes from the first list, keeping the order of the rest, one equal element for every
element of a prefix of the second list; the prefix is everything, or ends before the first element that has
no equal left. -/
theorem C58_diff (eqv : α → α → Bool) (xs ys : List α) :
    ∃ p q zs, ys = p ++ q ∧ List.Forall₂ (fun a b => eqv a b = true) p zs ∧ xs.Perm (zs ++ diff eqv xs ys) ∧
      (diff eqv xs ys).Sublist xs ∧ (q = [] ∨ ∃ y q', q = y :: q' ∧ ∀ x ∈ diff eqv xs ys, eqv y x = false) :=
  diff_spec eqv xs ys

/-- C58: with literal equality and a second list contained in the first (as a multiset), `diff` is the multiset
difference. -/
theorem C58_diff_count [DecidableEq α] (xs ys : List α) (h : ∀ a, ys.count a ≤ xs.count a) (a : α) :
    (diff (fun a b => decide (a = b)) xs ys).count a = xs.count a - ys.count a := by
  obtain ⟨p, q, zs, e, hf, hp, _, hq⟩ := diff_spec (fun a b : α => decide (a = b)) xs ys
  simp only [decide_eq_true_eq, List.forall₂_eq_eq_eq] at hf
  subst hf
  have hc := fun b => hp.count_eq b
  simp only [List.count_append] at hc
  rcases hq with rfl | ⟨y, q', rfl, hq⟩
  · have := hc a; rw [List.append_nil] at e; subst e; omega
  · exfalso
    have h1 : (diff (fun a b => decide (a = b)) xs ys).count y = 0 := by
      rw [List.count_eq_zero]; intro hm; simpa using hq y hm
    have h2 := h y
    have h3 := hc y
    rw [e, List.count_append, List.count_cons_self] at h2
    omega

example : eqElems (fun a b : Nat => decide (a = b)) [1, 2, 1] [2, 1, 1] = true ∧
    eqElems (fun a b : Nat => decide (a = b)) [1, 2, 1] [2, 1, 2] = false ∧
    diff (fun a b : Nat => decide (a = b)) [1, 2, 1, 3] [1, 3] = [2, 1] ∧
    diff (fun a b : Nat => decide (a = b)) [1, 2, 3] [1, 9, 2] = [2, 3] := by decide

/-! ## C59 -/

/-- C59: on nodes with distinct names `topological_sort` ends, within one loop round per node plus one. -/
theorem C59_topological_sort_ends [DecidableEq α] (xs : List (α × List α)) (n : Nat) (h : xs.length < n) :
    ∃ r, topoF n xs = some r := by
  obtain ⟨r, hr⟩ := foldqF_total (f := fun (acc : List α) (x : α × List α) => acc ++ [x.1])
    (g := fun _ x xs => xs.map (fun p => (p.1, p.2.filter (fun d => decide (d ≠ x.1)))))
    (c := fun x => x.2.isEmpty) (by intro acc x xs; simp) n xs [] h
  exact ⟨_, by simp only [topoF, foldqStrictF, hr, Option.map_some]; rfl⟩

/-- C59: a returned list is a dependency order of the nodes. -/
theorem C59_topological_sort_sound [DecidableEq α] (xs : List (α × List α)) (hnd : (xs.map Prod.fst).Nodup)
    (n : Nat) (l : List α) (h : topoF n xs = some (some l)) : IsTopo xs l := by
  simp only [topoF, foldqStrictF, Option.map_eq_some_iff] at h
  obtain ⟨r, hr, e⟩ := h
  obtain ⟨ms, e1, e2, e3, _⟩ := topo_step n xs [] r hnd hr
  split at e
  · rename_i he
    simp only [Option.some.injEq] at e
    simp only [List.isEmpty_iff] at he
    rw [List.nil_append] at e1
    rw [← e, e1]
    rw [he] at e2
    exact ⟨by simpa using e2, e3⟩
  · simp at e

/-- C59: an error (`ValueError`) is raised only when there is no dependency order. -/
theorem C59_topological_sort_complete [DecidableEq α] (xs : List (α × List α)) (hnd : (xs.map Prod.fst).Nodup)
    (n : Nat) (h : topoF n xs = some none) : ¬ ∃ l, IsTopo xs l := by
  rintro ⟨L, hL, hdep⟩
  simp only [topoF, foldqStrictF, Option.map_eq_some_iff] at h
  obtain ⟨r, hr, e⟩ := h
  have hleft := foldqF_left _ _ _ _ hr
  obtain ⟨ms, e1, e2, e3, e4⟩ := topo_step n xs [] r hnd hr
  split at e
  · simp at e
  · rename_i he
    simp only [List.isEmpty_iff] at he
    -- the first element of the order that was left over
    obtain ⟨q0, hq0⟩ := List.exists_mem_of_ne_nil _ he
    have hex : ∃ a ∈ L, decide (a ∈ r.2.map Prod.fst) = true := by
      refine ⟨q0.1, hL.symm.subset (e2.subset (List.mem_append_right _ (List.mem_map.2 ⟨_, hq0, rfl⟩))), ?_⟩
      simpa using ⟨q0.2, hq0⟩
    obtain ⟨a, ha⟩ : ∃ a, L.find? (fun a => decide (a ∈ r.2.map Prod.fst)) = some a := by
      rw [← Option.isSome_iff_exists, List.find?_isSome]; exact hex
    obtain ⟨hmem, l1, l2, hsplit, hfirst⟩ := List.find?_eq_some_iff_append.1 ha
    simp only [decide_eq_true_eq, List.mem_map] at hmem
    obtain ⟨q, hq, rfl⟩ := hmem
    obtain ⟨p, hp, hpq, hf⟩ := e4 q hq
    have hne : q.2 ≠ [] := by
      have := hleft q hq
      simpa using this
    obtain ⟨d, hd⟩ := List.exists_mem_of_ne_nil _ hne
    rw [hf] at hd
    simp only [List.mem_filter, decide_eq_true_eq] at hd
    have hdl1 : d ∈ l1 := hdep p hp l1 l2 (by rw [hpq]; exact hsplit) d hd.1
    have hdL : d ∈ L := by rw [hsplit]; exact List.mem_append_left _ hdl1
    have : d ∈ ms ++ r.2.map Prod.fst := e2.symm.subset (hL.subset hdL)
    have hdr := (List.mem_append.1 this).resolve_left hd.2
    have := hfirst d hdl1
    simp only [hdr, decide_true, Bool.not_true] at this
    exact absurd this (by simp)

example : topoF 4 [(3, [2, 1]), (2, [1]), (1, [])] = some (some [1, 2, 3]) ∧
    topoF 4 [(3, [2, 1]), (2, [3]), (1, [])] = some none ∧ topoF 4 [(3, [9]), (1, [])] = some none ∧
    ([(3, [2, 1]), (2, [1]), (1, [])].map Prod.fst).Nodup := by decide

/-! ## C60 -/

/-- C60: `foldq` with an always-true condition and no update is the left fold and consumes everything. -/
theorem C60_foldq_fold (f : β → α → β) (xs : List α) (n : Nat) (acc : β) (h : xs.length < n) :
    foldqF f (fun _ _ xs => xs) (fun _ => true) n xs acc = some (xs.foldl f acc, []) := foldqF_fold xs n acc h

/-- C60: `foldq` is the consumption run of its description: its loop ends exactly when the run does, with the
run's outcome. -/
theorem C60_foldq_run (f : β → α → β) (g : β → α → List α → List α) (c : α → Bool) (xs : List α) (acc : β)
    (r : β × List α) : (∃ n, foldqF f g c n xs acc = some r) ↔ Consume f g c xs acc r.1 r.2 := by
  constructor
  · rintro ⟨n, h⟩
    induction n generalizing xs acc with
    | zero => simp [foldqF] at h
    | succ n ih =>
      simp only [foldqF] at h
      split at h
      · rename_i he
        simp only [Option.some.injEq] at h; subst h
        simp only [List.isEmpty_iff] at he; subst he
        exact Consume.stop (by simp)
      · split at h
        · rename_i hf
          simp only [Option.some.injEq] at h; subst h
          exact Consume.stop (firstSat_none.1 hf)
        · rename_i x rest hf
          obtain ⟨l1, l2, rfl, rfl, h2, h1⟩ := firstSat_some hf
          exact Consume.take h1 h2 (ih _ _ h)
  · intro h
    have : ∀ {xs acc acc' rest}, Consume f g c xs acc acc' rest → ∃ n, foldqF f g c n xs acc = some (acc', rest) := by
      intro xs acc acc' rest h
      induction h with
      | @stop xs acc h =>
        refine ⟨1, ?_⟩
        simp only [foldqF, firstSat_none.2 h]
        split <;> rfl
      | @take l1 l2 rest x acc acc' h1 h2 h3 ih =>
        obtain ⟨n, hn⟩ := ih
        refine ⟨n + 1, ?_⟩
        have hf : firstSat c (l1 ++ x :: l2) = some (x, l1 ++ l2) := by
          clear hn h3
          induction l1 with
          | nil => simp [firstSat, h2]
          | cons a l1 ih =>
            have ha := h1 a (by simp)
            simp only [List.cons_append, firstSat, ha, Bool.false_eq_true, if_false,
              ih (fun z hz => h1 z (List.mem_cons_of_mem _ hz)), Option.map_some]
        simp only [foldqF, hf]
        simpa using hn
    exact this h

/-- C60: everything consumed satisfies the condition, the result is the fold of what was consumed, and what is
left over satisfies it nowhere. -/
theorem C60_foldq_consumed (f : β → α → β) (g : β → α → List α → List α) (c : α → Bool) (xs : List α) (acc : β)
    (n : Nat) (r : β × List α) (h : foldqF f g c n xs acc = some r) :
    (∃ ms : List α, (∀ x ∈ ms, c x = true) ∧ r.1 = ms.foldl f acc) ∧ ∀ x ∈ r.2, c x = false := by
  have hc := (C60_foldq_run f g c xs acc r).1 ⟨n, h⟩
  refine ⟨?_, foldqF_left _ _ _ _ h⟩
  clear h
  generalize r.1 = a, r.2 = rest at hc
  induction hc with
  | stop h => exact ⟨[], by simp, rfl⟩
  | @take l1 l2 rest x acc acc' h1 h2 h3 ih =>
    obtain ⟨ms, hm, e⟩ := ih
    exact ⟨x :: ms, by simpa [h2] using hm, e⟩

/-- C60: `foldq_` returns exactly when the run leaves nothing, and raises exactly when it leaves something. -/
theorem C60_foldq_strict (f : β → α → β) (g : β → α → List α → List α) (c : α → Bool) (xs : List α) (acc : β) :
    (∀ a, (∃ n, foldqStrictF f g c n xs acc = some (some a)) ↔ Consume f g c xs acc a []) ∧
    ((∃ n, foldqStrictF f g c n xs acc = some none) ↔ ∃ a rest, rest ≠ [] ∧ Consume f g c xs acc a rest) := by
  constructor
  · intro a
    rw [← C60_foldq_run f g c xs acc (a, [])]
    constructor
    · rintro ⟨n, h⟩
      simp only [foldqStrictF, Option.map_eq_some_iff] at h
      obtain ⟨r, hr, e⟩ := h
      split at e
      · rename_i he
        simp only [Option.some.injEq] at e
        simp only [List.isEmpty_iff] at he
        exact ⟨n, by rw [hr, ← e, ← he]⟩
      · simp at e
    · rintro ⟨n, h⟩
      exact ⟨n, by simp [foldqStrictF, h]⟩
  · constructor
    · rintro ⟨n, h⟩
      simp only [foldqStrictF, Option.map_eq_some_iff] at h
      obtain ⟨r, hr, e⟩ := h
      split at e
      · simp at e
      · rename_i he
        exact ⟨r.1, r.2, by simpa using he, (C60_foldq_run f g c xs acc r).1 ⟨n, hr⟩⟩
    · rintro ⟨a, rest, hne, h⟩
      obtain ⟨n, hn⟩ := (C60_foldq_run f g c xs acc (a, rest)).2 h
      exact ⟨n, by simp [foldqStrictF, hn, hne]⟩

-- consume even numbers, halving what is left
example : foldqF (fun acc x => acc + x) (fun _ _ xs => xs.map (· / 2)) (fun x => decide (x % 2 = 0)) 9 [3, 4, 8] 0 =
      some (8, []) ∧
    foldqF (fun acc x => acc + x) (fun _ _ xs => xs) (fun x => decide (x % 2 = 0)) 9 [3, 4, 8] 0 = some (12, [3]) ∧
    foldqStrictF (fun acc x => acc + x) (fun _ _ xs => xs) (fun x => decide (x % 2 = 0)) 9 [3, 4, 8] 0 = some none := by
  decide

/-! ## C61 -/

/-- C61: `partition` splits into the satisfying and the other elements, both in order. -/
theorem C61_partition (p : α → Bool) (xs : List α) :
    partition p xs = (xs.filter p, xs.filter (fun x => !p x)) := partition_eq p xs

/-- C61: `group_by` has one entry per key, holding exactly the elements with that key, in order. -/
theorem C61_group_by [DecidableEq β] (f : α → β) (xs : List α) :
    ((groupBy f xs).map Prod.fst).Nodup ∧
      ∀ k, lookup k (groupBy f xs) = if k ∈ xs.map f then some (xs.filter (fun x => decide (f x = k))) else none :=
  ⟨nodup_groupBy f xs, lookup_groupBy f xs⟩

/-- C61: the chunks joined are the list; they are non-empty, at most of the requested size, and all but the
last have exactly it. Size zero is an error. -/
theorem C61_chunk (xs : List α) (n : Nat) :
    (chunk xs n = none ↔ n = 0) ∧ ∀ cs, chunk xs n = some cs →
      flatten cs = xs ∧ (∀ c ∈ cs, c ≠ [] ∧ c.length ≤ n) ∧ ∀ c ∈ cs.dropLast, c.length = n := by
  unfold chunk
  split
  · rename_i h; exact ⟨by simp [h], by simp⟩
  · rename_i h
    refine ⟨by simp [h], ?_⟩
    intro cs hcs
    simp only [Option.some.injEq] at hcs
    subst hcs
    have hn : 0 < n := Nat.pos_of_ne_zero h
    have hm : xs.length ≤ (xs.length + n - 1) / n * n := by
      have := Nat.div_add_mod (xs.length + n - 1) n
      have := Nat.mod_lt (xs.length + n - 1) hn
      rw [Nat.mul_comm]; omega
    have hm2 : ∀ j, j < (xs.length + n - 1) / n → j * n < xs.length := by
      intro j hj
      have h1 : (j + 1) * n ≤ xs.length + n - 1 := (Nat.le_div_iff_mul_le hn).1 hj
      rw [Nat.succ_mul] at h1; omega
    refine ⟨?_, ?_, ?_⟩
    · have := flatten_chunk xs n _ hm
      simpa [flatten, List.flatMap_id] using this
    · intro c hc
      obtain ⟨j, hj, rfl⟩ := List.mem_map.1 hc
      have := hm2 j (List.mem_range.1 hj)
      refine ⟨?_, List.length_take_le ..⟩
      intro e
      have := congrArg List.length e
      simp only [List.length_take, List.length_drop, List.length_nil] at this
      omega
    · intro c hc
      rw [← List.map_dropLast] at hc
      obtain ⟨j, hj, rfl⟩ := List.mem_map.1 hc
      have hj' : j + 1 < (xs.length + n - 1) / n := by
        generalize (xs.length + n - 1) / n = m at hj
        cases m with
        | zero => simp at hj
        | succ m =>
          rw [List.range_succ, List.dropLast_concat] at hj
          have := List.mem_range.1 hj; omega
      have := hm2 _ hj'
      rw [Nat.succ_mul] at this
      simp only [List.length_take, List.length_drop]; omega

/-- C61: `update_dict_with` combines the values at common keys and otherwise keeps or takes the only value. -/
theorem C61_update_dict_with [DecidableEq β] (f : γ → γ → γ) (d0 d1 : List (β × γ)) (h : (d1.map Prod.fst).Nodup)
    (k : β) : lookup k (updateDictWith f d0 d1) =
      match lookup k d0, lookup k d1 with
      | some v, some w => some (f v w)
      | some v, none => some v
      | none, w => w := lookup_updateDictWith f d0 d1 h k

example : partition (fun x : Nat => decide (x % 2 = 0)) [1, 2, 3, 4] = ([2, 4], [1, 3]) ∧
    groupBy (fun x : Nat => x % 3) [1, 2, 4, 3, 5] = [(1, [1, 4]), (2, [2, 5]), (0, [3])] ∧
    chunk [1, 2, 3, 4, 5] 2 = some [[1, 2], [3, 4], [5]] ∧
    updateDictWith (fun a b : Nat => a + b) [(1, 10), (2, 20)] [(2, 5), (3, 7)] = [(1, 10), (2, 25), (3, 7)] := by decide

/-! ## C62 -/

/-- C62: `interval_overlap` is the length of the intersection of the two closed intervals. -/
theorem C62_interval_overlap_length (a b : ℝ × ℝ) :
    MeasureTheory.volume (Set.Icc a.1 a.2 ∩ Set.Icc b.1 b.2) = ENNReal.ofReal (intervalOverlap a b) := by
  rw [Set.Icc_inter_Icc, Real.volume_Icc]
  unfold intervalOverlap
  rcases le_total 0 (min a.2 b.2 - max a.1 b.1) with h | h
  · rw [max_eq_right h]
  · rw [max_eq_left h, ENNReal.ofReal_of_nonpos h, ENNReal.ofReal_zero]

/-- C62: it is symmetric, non-negative, at most either length, and zero exactly when the interiors do not meet. -/
theorem C62_interval_overlap_bounds (a b : ℝ × ℝ) (ha : a.1 ≤ a.2) (hb : b.1 ≤ b.2) :
    intervalOverlap a b = intervalOverlap b a ∧ 0 ≤ intervalOverlap a b ∧
      intervalOverlap a b ≤ a.2 - a.1 ∧ intervalOverlap a b ≤ b.2 - b.1 ∧
      (intervalOverlap a b = 0 ↔ Set.Ioo a.1 a.2 ∩ Set.Ioo b.1 b.2 = ∅) := by
  refine ⟨?_, le_max_left _ _, ?_, ?_, ?_⟩
  · simp only [intervalOverlap, min_comm, max_comm]
  · refine max_le (by linarith) ?_
    have := min_le_left a.2 b.2; have := le_max_left a.1 b.1; linarith
  · refine max_le (by linarith) ?_
    have := min_le_right a.2 b.2; have := le_max_right a.1 b.1; linarith
  · rw [Set.Ioo_inter_Ioo, Set.Ioo_eq_empty_iff]
    simp only [intervalOverlap, max_eq_left_iff, not_lt, sub_nonpos]

example : intervalOverlap (0, 3) (1, 5) = 2 ∧ intervalOverlap (0, 1) (2, 5) = 0 := by
  norm_num [intervalOverlap]

end GPyABCD
