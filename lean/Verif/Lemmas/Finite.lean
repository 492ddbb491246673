import Verif.Lemmas.Empty
import Mathlib.Data.Finite.Prod
import Mathlib.Data.Set.Finite.Lattice
import Mathlib.Data.Set.Finite.Range
import Mathlib.Data.Int.Interval

/-!
# There are finitely many expressions of a length
-/

namespace GPyABCD
namespace KE

theorem finite_lists {α : Type} {s : Set α} (hs : s.Finite) : ∀ n : ℕ, {l : List α | l.length ≤ n ∧ ∀ x ∈ l, x ∈ s}.Finite
  | 0 => (Set.finite_singleton []).subset fun l h => by simpa using h.1
  | n + 1 => by
    refine ((Set.finite_singleton []).union (Set.Finite.image2 List.cons hs (finite_lists hs n))).subset fun l h => ?_
    cases l with
    | nil => exact Or.inl rfl
    | cons x l =>
      refine Or.inr ⟨x, h.2 x (by simp), l, ⟨?_, fun y hy => h.2 y (by simp [hy])⟩, rfl⟩
      have := h.1
      simp only [List.length_cons] at this
      omega

theorem finite_base : (Set.univ : Set Base).Finite :=
  (Set.toFinite {Base.WN, Base.C, Base.LIN, Base.SE, Base.PER, Base.S, Base.Sr, Base.SI, Base.SIr}).subset fun b _ => by cases b <;> simp

theorem counter_small {c : Counter} (hp : c.Pos) : c.length ≤ c.elements.length ∧ ∀ p ∈ c, p.2 ≤ c.elements.length := by
  induction c with
  | nil => simp
  | cons p r ih =>
    obtain ⟨h1, h2⟩ := ih fun q hq => hp q (by simp [hq])
    have h0 := hp p (by simp)
    have e : (Counter.elements (p :: r)).length = p.2.toNat + (Counter.elements r).length := by simp [Counter.elements]
    rw [e]
    refine ⟨by simp only [List.length_cons]; omega, fun q hq => ?_⟩
    rcases List.mem_cons.1 hq with rfl | hq
    · omega
    · have := h2 q hq
      omega

theorem finite_counters (m : ℕ) : {c : Counter | c.Pos ∧ c.elements.length ≤ m}.Finite := by
  refine (finite_lists (finite_base.prod (Set.finite_Icc (0 : Int) m)) m).subset fun c h => ?_
  obtain ⟨h1, h2⟩ := counter_small h.1
  refine ⟨h1.trans h.2, fun p hp => ⟨trivial, (h.1 p hp).le, (h2 p hp).trans (by exact_mod_cast h.2)⟩⟩

theorem finite_comms (m : ℕ) {s : Set KE} (hs : s.Finite) :
    {k : KE | ∃ op c cs, k = comm op c cs ∧ Counter.Pos c ∧ c.elements.length ≤ m ∧ cs.length ≤ m ∧ ∀ x ∈ cs, x ∈ s}.Finite := by
  refine ((Set.Finite.image2 (KE.comm .sum) (finite_counters m) (finite_lists hs m)).union (Set.Finite.image2 (KE.comm .prod) (finite_counters m) (finite_lists hs m))).subset ?_
  rintro _ ⟨op, c, cs, rfl, h1, h2, h3, h4⟩
  cases op
  · exact Or.inl ⟨c, ⟨h1, h2⟩, cs, ⟨h3, h4⟩, rfl⟩
  · exact Or.inr ⟨c, ⟨h1, h2⟩, cs, ⟨h3, h4⟩, rfl⟩

theorem finite_changes {s : Set KE} (hs : s.Finite) : {k : KE | ∃ c l r, k = change c l r ∧ l ∈ s ∧ r ∈ s}.Finite := by
  refine ((Set.Finite.image2 (KE.change .CP) hs hs).union (Set.Finite.image2 (KE.change .CW) hs hs)).subset ?_
  rintro _ ⟨c, l, r, rfl, h1, h2⟩
  cases c
  · exact Or.inl ⟨l, h1, r, h2, rfl⟩
  · exact Or.inr ⟨l, h1, r, h2, rfl⟩

/-- The lengths of terms add up, each having one. -/
theorem length_terms {cs : List KE} (h : ∀ k ∈ cs, 1 ≤ (bases k).length) :
    cs.length ≤ (basesL cs).length ∧ ∀ k ∈ cs, (bases k).length + cs.length ≤ (basesL cs).length + 1 := by
  induction cs with
  | nil => simp
  | cons x cs ih =>
    obtain ⟨h1, h2⟩ := ih fun k hk => h k (by simp [hk])
    have h0 := h x (by simp)
    rw [basesL, List.length_append]
    refine ⟨by simp only [List.length_cons]; omega, fun k hk => ?_⟩
    simp only [List.length_cons]
    rcases List.mem_cons.1 hk with rfl | hk
    · omega
    · have := h2 k hk
      omega

theorem finite_below : ∀ m : ℕ, {k : KE | wf k = true ∧ noEmpty k = true ∧ allNodes (fun n => !n.isSingleton) k = true ∧ (bases k).length ≤ m}.Finite
  | 0 => by
    refine Set.finite_empty.subset ?_
    rintro k ⟨h1, h2, _, h3⟩
    exact absurd (List.length_eq_zero_iff.1 (Nat.le_zero.1 h3)) (bases_ne_nil h1 h2)
  | m + 1 => by
    have ih := finite_below m
    refine (((finite_base.image KE.base).union (finite_comms (m + 1) ih)).union (finite_changes ih)).subset ?_
    rintro k ⟨h1, h2, h3, h4⟩
    cases k with
    | base b => exact Or.inl (Or.inl ⟨b, trivial, rfl⟩)
    | comm op c cs =>
      obtain ⟨w1, w2, w3⟩ := wf_comm.1 h1
      simp only [noEmpty, allNodes, Bool.and_eq_true] at h2 h3
      have e := allNodesL_iff.1 h2.2
      have f := allNodesL_iff.1 h3.2
      have l1 : ∀ k ∈ cs, 1 ≤ (bases k).length := fun k hk => List.length_pos_iff.2 (bases_ne_nil (w3 k hk).2 (e k hk))
      obtain ⟨t1, t2⟩ := length_terms l1
      rw [bases, List.length_append] at h4
      have hn := h3.1
      simp only [isSingleton, Bool.not_eq_true', decide_eq_false_iff_not] at hn
      refine Or.inl (Or.inr ⟨op, c, cs, rfl, w2, by omega, by omega, fun k hk => ⟨(w3 k hk).2, e k hk, f k hk, ?_⟩⟩)
      have := t2 k hk
      have : 0 < cs.length := List.length_pos_of_mem hk
      omega
    | change c l r =>
      obtain ⟨w1, w2⟩ := wf_change.1 h1
      simp only [noEmpty, allNodes, Bool.and_eq_true] at h2 h3
      have e1 := List.length_pos_iff.2 (bases_ne_nil w1 h2.1.2)
      have e2 := List.length_pos_iff.2 (bases_ne_nil w2 h2.2)
      rw [bases, List.length_append] at h4
      exact Or.inr ⟨c, l, r, rfl, ⟨w1, h2.1.2, h3.1.2, by omega⟩, w2, h2.2, h3.2, by omega⟩

/-- There are finitely many expressions without empty sums and products and without one-term ones below the root that have a given number of base kernels at most. -/
theorem finite_length (m : ℕ) : {k : KE | wf k = true ∧ noEmpty k = true ∧ allBelow (fun n => !n.isSingleton) k = true ∧ (bases k).length ≤ m}.Finite := by
  have ih := finite_below m
  refine (((finite_base.image KE.base).union (finite_comms m ih)).union (finite_changes ih)).subset ?_
  rintro k ⟨h1, h2, h3, h4⟩
  cases k with
  | base b => exact Or.inl (Or.inl ⟨b, trivial, rfl⟩)
  | comm op c cs =>
    obtain ⟨w1, w2, w3⟩ := wf_comm.1 h1
    simp only [noEmpty, allNodes, Bool.and_eq_true] at h2
    have e := allNodesL_iff.1 h2.2
    have f := allNodesL_iff.1 h3
    obtain ⟨t1, t2⟩ := length_terms fun k hk => List.length_pos_iff.2 (bases_ne_nil (w3 k hk).2 (e k hk))
    rw [bases, List.length_append] at h4
    refine Or.inl (Or.inr ⟨op, c, cs, rfl, w2, by omega, by omega, fun k hk => ⟨(w3 k hk).2, e k hk, f k hk, ?_⟩⟩)
    have := t2 k hk
    have : 0 < cs.length := List.length_pos_of_mem hk
    omega
  | change c l r =>
    obtain ⟨w1, w2⟩ := wf_change.1 h1
    simp only [noEmpty, allNodes, allBelow, Bool.and_eq_true] at h2 h3
    rw [bases, List.length_append] at h4
    exact Or.inr ⟨c, l, r, rfl, ⟨w1, h2.1.2, h3.1, by omega⟩, w2, h2.2, h3.2, by omega⟩

end KE
end GPyABCD
