import Verif.Lemmas.Bench
import Verif.Lemmas.BenchNames
import Mathlib.Data.Rat.Cast.Order

/-!
# Properties of benchmark tables (C97, C98)
-/

namespace GPyABCD
open Bench

variable {K : Type} [Field K] [LinearOrder K] [IsStrictOrderedRing K]

/-- C97, times that may be zero. Either the table has a line for every function some run of which after the first took time, and for no others, from the
fastest to the slowest with the right ratios; or a fastest function took no time after its first run, and the comparison raises `ZeroDivisionError`. -/
theorem C97_kept (n : Nat) (hn : 3 ≤ n) (shared own : List (String × List K)) (hne : shared ++ own ≠ []) (hl : ∀ f ∈ shared ++ own, f.2.length = n)
    (hp : ∀ f ∈ shared ++ own, ∀ t ∈ f.2, 0 ≤ t) :
    (∃ ls fs, Bench.compare n shared own = .ok ls ∧ fs.Perm ((shared ++ own).filter fun f => f.2.tail.any (fun t => decide (t ≠ 0))) ∧
        List.Forall₂ Reports fs ls ∧ Ordered ls ∧ Compared ls) ∨
      (Bench.compare n shared own = .error .zeroDivision ∧ ∃ f ∈ shared ++ own, (∀ t ∈ f.2.tail, t = 0) ∧ ∀ g ∈ shared ++ own, f.2.sum ≤ g.2.sum) := by
  have h3 : ∀ f ∈ shared ++ own, 3 ≤ f.2.length := fun f hf => by rw [hl f hf]; exact hn
  obtain ⟨f, fs, hperm, hs, -, he⟩ := finish_rows _ hne h3 hp
  have hc : Bench.compare n shared own = finish ((shared ++ own).map summary) := by
    simp only [Bench.compare, if_neg (not_lt.2 hn), rows_ok h3]; rfl
  have hf : f ∈ shared ++ own := hperm.subset (by simp)
  rw [hc, he]
  by_cases h0 : (summary f).mean1 = 0
  · rw [if_pos h0]
    refine .inr ⟨rfl, f, hf, (mean1_zero (h3 f hf) (hp f hf)).1 h0, fun g hg => ?_⟩
    rcases List.mem_cons.1 (hperm.symm.subset hg) with rfl | hg'
    · exact le_refl _
    · have := List.rel_of_pairwise_cons hs (List.mem_map_of_mem hg')
      simp only [summary, hl f hf, hl g hg] at this
      exact (div_le_div_iff_of_pos_right (Nat.cast_pos.2 (by omega))).1 this
  · rw [if_neg h0]
    refine .inl ⟨_, (f :: fs).filter fun g => decide ((summary g).mean1 ≠ 0), rfl, ?_, ?_, ?_, ?_⟩
    · refine (hperm.filter _).trans (.of_eq (List.filter_congr fun g hg => ?_))
      rw [Bool.eq_iff_iff, decide_eq_true_iff, ne_eq, mean1_zero (h3 g hg) (hp g hg)]
      simp
    · exact forall_reports (fun g hg => h3 g (hperm.subset (List.mem_of_mem_filter hg))) (lines_row _ _ _ _)
    · refine ordered_of_rows ?_
      rw [lines_row]
      exact hs.sublist (List.filter_sublist.map _)
    · rw [List.filter_cons_of_pos (by simpa using h0)]
      refine compared_lines fun x hx => ?_
      rw [← List.map_cons, ← List.filter_cons_of_pos (p := fun g => decide ((summary g).mean1 ≠ 0)) (by simpa using h0)] at hx
      obtain ⟨g, hg, rfl⟩ := List.mem_map.1 hx
      have hg' := hperm.subset (List.mem_of_mem_filter hg)
      have h2 : (summary g).mean1 ≠ 0 := by simpa using (List.mem_filter.1 hg).2
      exact ⟨fun e => h2 (mean_zero (h3 g hg') (hp g hg') e), h2⟩

/-- C97. If every run takes time, the table has one line for every function, from the fastest to the slowest with the right ratios. -/
theorem C97_table (n : Nat) (hn : 3 ≤ n) (shared own : List (String × List K)) (hne : shared ++ own ≠ []) (hl : ∀ f ∈ shared ++ own, f.2.length = n)
    (hp : ∀ f ∈ shared ++ own, ∀ t ∈ f.2, 0 < t) :
    ∃ ls fs, Bench.compare n shared own = .ok ls ∧ fs.Perm (shared ++ own) ∧ List.Forall₂ Reports fs ls ∧ Ordered ls ∧ Compared ls := by
  have h1 : ∀ f ∈ shared ++ own, ¬ ∀ t ∈ f.2.tail, t = 0 := fun f hf h =>
    mean1_pos (by rw [hl f hf]; exact hn) (hp f hf) ((mean1_zero (by rw [hl f hf]; exact hn) (fun t ht => (hp f hf t ht).le)).2 h)
  rcases C97_kept n hn shared own hne hl (fun f hf t ht => (hp f hf t ht).le) with ⟨ls, fs, h, hperm, hr, ho, hc⟩ | ⟨-, f, hf, h, -⟩
  · refine ⟨ls, fs, h, ?_, hr, ho, hc⟩
    rwa [List.filter_eq_self.2] at hperm
    intro f hf
    have := h1 f hf
    simpa using this
  · exact absurd h (h1 f hf)

/-- C97. In such a table nothing is faster than the best, and the ratios to the line before multiply up to the ratio to the best. -/
theorem C97_chain (ls : List (Line K)) (ho : Ordered ls) (hc : Compared ls) (hp : ∀ l ∈ ls, 0 < l.mean) (i : Nat) (l : Line K) (h : ls[i]? = some l) :
    1 ≤ l.next ∧ 1 ≤ l.best ∧ l.best = ((ls.take (i + 1)).map (·.next)).prod := by
  induction i generalizing l with
  | zero =>
    match ls, h with
    | a :: ls, h =>
      simp only [List.getElem?_cons_zero, Option.some.injEq] at h
      subst h
      have h1 := hc.first a (by simp)
      have h2 := (hc.best a (by simp) a (by simp)).1
      have h3 := hp a (by simp)
      have h4 : a.best = 1 := mul_right_cancel₀ h3.ne' (by rw [h2, one_mul])
      simp [h1.1, h4]
  | succ i IH =>
    have hi : i + 1 < ls.length := (List.getElem?_eq_some_iff.1 h).1
    have ha : ls[i]? = some ls[i] := List.getElem?_eq_getElem (by omega)
    obtain ⟨-, i2, i3⟩ := IH _ ha
    have h1 := (hc.next i _ _ ha h).1
    have hm := List.mem_of_getElem? ha
    have hm' := List.mem_of_getElem? h
    obtain ⟨b, hb⟩ : ∃ b, b ∈ ls.head? := by
      match ls, hi with
      | b :: _, _ => exact ⟨b, rfl⟩
    have hbm : b ∈ ls := List.mem_of_mem_head? hb
    have e1 := (hc.best b hb _ hm).1
    have e2 := (hc.best b hb l hm').1
    have h3 := hp _ hm
    have h0 := hp b hbm
    have e : l.best = l.next * ls[i].best := mul_right_cancel₀ h0.ne' (by rw [e2, ← h1, mul_assoc, e1])
    have hle : ls[i].mean ≤ l.mean := by
      have := List.pairwise_iff_getElem.1 ho i (i + 1) (by omega) hi (by omega)
      rwa [(List.getElem?_eq_some_iff.1 h).2] at this
    have hn : 1 ≤ l.next := by
      rw [← h1] at hle
      by_contra hlt
      have := mul_lt_of_lt_one_left h3 (not_le.1 hlt)
      exact absurd hle (not_le.2 this)
    refine ⟨hn, ?_, ?_⟩
    · rw [e]; exact one_le_mul_of_one_le_of_one_le hn i2
    · rw [List.take_add_one, h, List.map_append, List.prod_append, ← i3, e]
      simp [mul_comm]

/-- C97. Merging tables gives the table of all their functions compared at once: with the functions of each part timed `n` times, means all different, and
however `sort_values` orders equal means. -/
theorem C97_merge (n : Nat) (hn : 3 ≤ n) (sort : List (Line K) → List (Line K)) (hsort : ∀ l, (sort l).Perm l ∧ Ordered (sort l))
    (parts : List (List (String × List K))) (tables : List (List (Line K))) (hne : parts.flatten ≠ []) (hl : ∀ f ∈ parts.flatten, f.2.length = n)
    (hp : ∀ f ∈ parts.flatten, ∀ t ∈ f.2, 0 < t) (hd : (parts.flatten.map (fun f => f.2.sum)).Nodup)
    (ht : List.Forall₂ (fun p t => Bench.compare n p [] = .ok t) parts tables) :
    Bench.merge sort tables = Bench.compare n parts.flatten [] := by
  obtain ⟨f, fs, hperm, hs, h0, h1, he⟩ := compare_pos hn hne hl hp
  obtain ⟨hq, ho⟩ := hsort tables.flatten
  have hrows : (sort tables.flatten).map Line.row = (f :: fs).map summary := by
    have hq' := (hq.map Line.row).trans ((flatten_rows hn hl hp ht).trans (hperm.map summary).symm)
    refine List.Perm.eq_of_pairwise (le := fun a b : Row K => a.mean ≤ b.mean) (fun a b ha hb hab hba => ?_) (List.pairwise_map.2 ho) hs hq'
    obtain ⟨u, hu, rfl⟩ := List.mem_map.1 (hq'.subset ha)
    obtain ⟨v, hv, rfl⟩ := List.mem_map.1 hb
    have hu' := hperm.subset hu
    have hv' := hperm.subset hv
    have e : (summary u).mean = (summary v).mean := le_antisymm hab hba
    simp only [summary, hl u hu', hl v hv'] at e
    rw [List.inj_on_of_nodup_map hd hu' hv' ((div_left_inj' (Nat.cast_ne_zero.2 (by omega))).1 e)]
  rw [he]
  match hl' : sort tables.flatten, hrows with
  | l :: ls, hrows =>
    have e : l.row = summary f := (List.cons.inj hrows).1
    have e0 : l.mean = (summary f).mean := congrArg Row.mean e
    have e1 : l.mean1 = (summary f).mean1 := congrArg Row.mean1 e
    rw [merge_rows hl' (e0 ▸ h0) (e1 ▸ h1), hrows, e, e0, e1]

-- C97_merge: two tables of two functions each
example : let p : List (List (String × List Rat)) := [[("a", [3, 2, 2]), ("b", [1, 1, 2])], [("c", [9, 1, 1]), ("d", [1, 1, 3])]]
    (∀ f ∈ p.flatten, f.2.length = 3 ∧ ∀ t ∈ f.2, 0 < t) ∧ (p.flatten.map (fun f => f.2.sum)).Nodup ∧
      (p.map fun q => ((Bench.compare 3 q []).map (·.map fun l => (l.name, l.next))).toOption) =
        [some [("b", 1), ("a", 7 / 4)], some [("d", 1), ("c", 11 / 5)]] := by
  decide +kernel

/-- C97 fails for times of zero: a function too fast for the clock after its first run has no line in the table, although it is slower than the best. -/
theorem C97_dropped : (Bench.compare 3 [("a", [1, 1, 1]), ("b", [9, 0, 0])] [] : Except BErr (List (Line Rat))).map (·.map (·.name)) = .ok ["a"] := by
  decide +kernel

/-- C97 fails for times of zero: if the best function is too fast for the clock there is no table at all. -/
theorem C97_zero : (Bench.compare 3 [("a", [1, 0, 0]), ("b", [9, 9, 9])] [] : Except BErr (List (Line Rat))).map (·.map (·.name)) = .error .zeroDivision := by
  decide +kernel

-- C97_table: two functions of the shared arguments and one of its own, fastest in the middle
example : let s : List (String × List Rat) := [("a", [3, 2, 2]), ("b", [1, 1, 2])]
    (∀ f ∈ s ++ [("c", [9, 1, 1])], f.2.length = 3 ∧ ∀ t ∈ f.2, 0 < t) ∧
      (Bench.compare 3 s [("c", [9, 1, 1])]).map (·.map fun l => (l.name, l.best, l.next)) =
        .ok [("b", 1, 1), ("a", 7 / 4, 7 / 4), ("c", 11 / 4, 11 / 7)] := by
  decide +kernel

/-- C98. `numba_comparisons` times every version its arguments ask for, once, in this order and each under a name of its own. -/
theorem C98_versions {S T : Type} (c : Choice S T) (pre : String) :
    (fDict c pre).map Prod.snd = wanted c ∧ ((fDict c pre).map Prod.fst).Nodup ∧ ∀ k ∈ (fDict c pre).map Prod.fst, ∃ s, k = pre ++ s := by
  rw [fDict_pre]
  refine ⟨?_, ?_, ?_⟩
  · rw [← items_snd]
    simp [named]
  · have e : ((named (items c)).map fun x => (pre ++ x.1, x.2)).map Prod.fst = ((named (items c)).map Prod.fst).map (pre ++ ·) := by simp
    rw [e]
    refine (keys_nodup c).map fun a b hab => ?_
    have := congrArg String.toList hab
    simpa [String.toList_inj] using this
  · intro k hk
    simp only [List.map_map, List.mem_map] at hk
    obtain ⟨x, -, rfl⟩ := hk
    exact ⟨_, rfl⟩

/-- C98. If every run takes time, the table of `numba_comparisons` reports every version asked for, and every other function given. -/
theorem C98_table {S T : Type} (n : Nat) (hn : 3 ≤ n) (time : Version S T → List K) (c : Choice S T) (pre : String) (own : List (String × List K))
    (hne : c.f = true ∨ c.scalar = true) (ht : ∀ v, (time v).length = n ∧ ∀ t ∈ time v, 0 < t) (ho : ∀ f ∈ own, f.2.length = n ∧ ∀ t ∈ f.2, 0 < t) :
    ∃ (ls : List (Line K)) (names : List String) (fs : List (String × List K)), numbaComparisons n time c pre own = .ok ls ∧ names.Nodup ∧ names.length = (wanted c).length ∧
      fs.Perm (names.zip ((wanted c).map time) ++ own) ∧ List.Forall₂ Reports fs ls ∧ Ordered ls ∧ Compared ls := by
  obtain ⟨h1, h2, -⟩ := C98_versions c pre
  have e : (fDict c pre).map (fun x => (x.1, time x.2)) = ((fDict c pre).map Prod.fst).zip ((wanted c).map time) := by
    rw [← h1, List.map_map, List.zip_map']
    rfl
  have hw : wanted c ≠ [] := by
    rcases hne with h | h <;> simp [wanted, h]
  have hm : ∀ f ∈ (fDict c pre).map (fun x => (x.1, time x.2)) ++ own, f.2.length = n ∧ ∀ t ∈ f.2, 0 < t := by
    intro f hf
    rcases List.mem_append.1 hf with hf | hf
    · obtain ⟨x, -, rfl⟩ := List.mem_map.1 hf
      exact ht x.2
    · exact ho f hf
  obtain ⟨ls, fs, h, hp, hr, ho, hc⟩ := C97_table n hn ((fDict c pre).map (fun x => (x.1, time x.2))) own
    (by intro h0; rw [List.append_eq_nil_iff, List.map_eq_nil_iff] at h0; rw [h0.1] at h1; exact hw h1.symm)
    (fun f hf => (hm f hf).1) (fun f hf => (hm f hf).2)
  exact ⟨ls, _, fs, h, h2, by rw [← h1, List.length_map, List.length_map], e ▸ hp, hr, ho, hc⟩

-- C98: two signatures, in parallel too, and a vectorised function
example : (fDict (S := Nat) (T := Nat) ⟨true, some 7, [8], true, none, [9], true⟩ "v ").map Prod.fst =
    ["v Base", "v Lazy", "v Parallel", "v Eager", "v Parallel Eager", "v Eager2", "v Parallel Eager2", "v Vec Lazy", "v Vec Eager2"] := by
  decide +kernel

end GPyABCD
