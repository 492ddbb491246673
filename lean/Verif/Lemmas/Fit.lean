import Verif.Model.Search
import Mathlib.Data.List.Perm.Basic
import Mathlib.Data.List.Forall2

/-!
# Lemmas about fitting one model and lists of models
-/

namespace GPyABCD
namespace Search

variable {D ε : Type}

/-- The retry loop from a given point. -/
theorem fitLoop_spec (att : Nat → Except ε D) (N : Int) : ∀ (m : Nat) (retry : Int) (i : Nat) (ws : List (Int × ε)),
    (N - retry).toNat = m → ∃ n ≤ m, (fitLoop att N retry i ws).attempts = i + n + 1 ∧ (fitLoop att N retry i ws).out = att (i + n) ∧
      (n < m → ∃ d, att (i + n) = .ok d) ∧
      ∃ es : List ε, es.length = n ∧ (∀ j < n, ∃ e, es[j]? = some e ∧ att (i + j) = .error e) ∧
        (fitLoop att N retry i ws).warns = ws ++ es.mapIdx (fun j e => (retry + 1 + j, e)) := by
  intro m
  induction m with
  | zero =>
    intro retry i ws hm
    have h : ¬ retry < N := by omega
    refine ⟨0, le_refl _, ?_⟩
    rw [fitLoop]
    cases ha : att i with
    | ok d => simp [ha]
    | error e => simp [h, ha]
  | succ m ih =>
    intro retry i ws hm
    have h : retry < N := by omega
    cases ha : att i with
    | ok d =>
      refine ⟨0, by omega, ?_⟩
      rw [fitLoop]
      simp [ha]
    | error e =>
      obtain ⟨n, hn, h1, h2, h3, es, h4, h5, h6⟩ := ih (retry + 1) (i + 1) (ws ++ [(retry + 1, e)]) (by omega)
      have hun : fitLoop att N retry i ws = fitLoop att N (retry + 1) (i + 1) (ws ++ [(retry + 1, e)]) := by
        rw [fitLoop]; simp only [ha, h, if_true]
      refine ⟨n + 1, by omega, ?_, ?_, ?_, e :: es, by simp [h4], ?_, ?_⟩
      · rw [hun, h1]; omega
      · rw [hun, h2]; congr 1; omega
      · intro hlt
        obtain ⟨d, hd⟩ := h3 (by omega)
        exact ⟨d, by rw [← hd]; congr 1; omega⟩
      · intro j hj
        cases j with
        | zero => exact ⟨e, by simp, ha⟩
        | succ j =>
          obtain ⟨e', g1, g2⟩ := h5 j (by omega)
          exact ⟨e', by simpa using g1, by rw [← g2]; congr 1; omega⟩
      · rw [hun, h6, List.mapIdx_cons, List.append_assoc]
        have e1 : (fun (j : Nat) (e : ε) => (retry + 1 + 1 + (j : Int), e)) = fun j e => (retry + 1 + ((j + 1 : Nat) : Int), e) := by
          funext j e'
          rw [show retry + 1 + 1 + (j : Int) = retry + 1 + ((j + 1 : Nat) : Int) by omega]
        rw [e1, show retry + 1 + ((0 : Nat) : Int) = retry + 1 by omega]
        rfl

variable {α β : Type}

theorem mapSeq_ok_iff (f : α → Except ε β) : ∀ (xs : List α) (ys : List β),
    mapSeq f xs = .ok ys ↔ List.Forall₂ (fun x y => f x = .ok y) xs ys := by
  intro xs
  induction xs with
  | nil => intro ys; simp [mapSeq, eq_comm]
  | cons x xs ih =>
    intro ys
    simp only [mapSeq]
    cases hx : f x with
    | error e =>
      simp only [reduceCtorEq, false_iff]
      intro h; cases h with | cons h _ => rw [hx] at h; simp at h
    | ok y =>
      cases hm : mapSeq f xs with
      | error e =>
        simp only [reduceCtorEq, false_iff]
        intro h
        cases h with
        | cons _ h =>
          have := (ih _).2 h; rw [hm] at this; simp at this
      | ok zs =>
        simp only [Except.ok.injEq]
        constructor
        · rintro rfl; exact .cons hx ((ih _).1 hm)
        · intro h
          cases h with
          | cons h1 h2 =>
            rw [hx] at h1
            simp only [Except.ok.injEq] at h1
            have := (ih _).2 h2
            rw [hm] at this
            simp only [Except.ok.injEq] at this
            rw [h1, this]

theorem mapSeq_error (f : α → Except ε β) : ∀ (xs : List α) (e : ε), mapSeq f xs = .error e → ∃ x ∈ xs, f x = .error e := by
  intro xs
  induction xs with
  | nil => intro e h; simp [mapSeq] at h
  | cons x xs ih =>
    intro e h
    simp only [mapSeq] at h
    split at h
    · simp only [Except.error.injEq] at h; subst h; exact ⟨x, by simp, ‹_›⟩
    · split at h
      · simp only [Except.error.injEq] at h; subst h
        obtain ⟨x', h1, h2⟩ := ih _ ‹_›
        exact ⟨x', by simp [h1], h2⟩
      · simp at h

theorem forall₂_take {γ : Type} {R : α → γ → Prop} {xs : List α} {ys : List γ} (h : List.Forall₂ R xs ys) :
    ∀ n, List.Forall₂ R (xs.take n) (ys.take n) := by
  induction h with
  | nil => intro n; simp
  | cons h _ ih => intro n; cases n with
    | zero => simp
    | succ n => simpa using ⟨h, ih n⟩

theorem forall₂_drop {γ : Type} {R : α → γ → Prop} {xs : List α} {ys : List γ} (h : List.Forall₂ R xs ys) :
    ∀ n, List.Forall₂ R (xs.drop n) (ys.drop n) := by
  induction h with
  | nil => intro n; simp
  | cons h h' ih => intro n; cases n with
    | zero => simpa using ⟨h, h'⟩
    | succ n => simpa using ih n

/-- A finished chunk fills exactly its slots. -/
theorem place_get (size i : Nat) (hs : 0 < size) (zs value : List β) (hl : value.length = zs.length) :
    (place size i ((zs.drop (i * size)).take size) value).length = zs.length ∧
    ∀ j, (place size i ((zs.drop (i * size)).take size) value)[j]? = if j / size = i then zs[j]? else value[j]? := by
  have hmul : (i + 1) * size = i * size + size := by rw [Nat.succ_mul]
  constructor
  · simp only [place, List.length_append, List.length_take, List.length_drop, hmul]; omega
  intro j
  have hdiv : j / size = i ↔ i * size ≤ j ∧ j < i * size + size := by
    rw [Nat.div_eq_iff hs]; omega
  simp only [place]
  by_cases h1 : j < i * size
  · rw [if_neg (by rw [hdiv]; omega)]
    by_cases h0 : j < zs.length
    · rw [List.append_assoc, List.getElem?_append_left (by simp; omega), List.getElem?_take_of_lt h1]
    · rw [List.getElem?_eq_none (by simp [hmul]; omega), List.getElem?_eq_none (by omega)]
  · by_cases h2 : j < i * size + size
    · rw [if_pos (by rw [hdiv]; omega)]
      by_cases h0 : j < zs.length
      · rw [List.append_assoc, List.getElem?_append_right (by simp; omega), List.getElem?_append_left (by simp; omega),
          List.getElem?_take_of_lt (by simp; omega), List.getElem?_drop]
        congr 1; simp; omega
      · rw [List.getElem?_eq_none (by simp [hmul]; omega), List.getElem?_eq_none (by omega)]
    · rw [if_neg (by rw [hdiv]; omega)]
      by_cases h0 : j < zs.length
      · rw [List.getElem?_append_right (by simp; omega), List.getElem?_drop]
        congr 1; simp; omega
      · rw [List.getElem?_eq_none (by simp [hmul]; omega), List.getElem?_eq_none (by omega)]

theorem poolRun_ok (f : α → Except ε β) (size : Nat) (hs : 0 < size) (ks : List α) (ys : List β)
    (h : List.Forall₂ (fun x y => f x = .ok y) ks ys) : ∀ (sched : List Nat) (value : List (Option β)), value.length = ys.length →
      ∃ value', poolRun f size ks sched value = .ok value' ∧ value'.length = ys.length ∧
        ∀ j, value'[j]? = if j / size ∈ sched then (ys.map some)[j]? else value[j]? := by
  intro sched
  induction sched with
  | nil => intro value hl; exact ⟨value, rfl, hl, by simp⟩
  | cons i sched ih =>
    intro value hl
    have hm := (mapSeq_ok_iff f _ _).2 (forall₂_take (forall₂_drop h (i * size)) size)
    obtain ⟨p1, p2⟩ := place_get size i hs (ys.map some) value (by simpa using hl)
    have e : ((ys.drop (i * size)).take size).map some = ((ys.map some).drop (i * size)).take size := by
      rw [List.map_take, List.map_drop]
    obtain ⟨v', g1, g2, g3⟩ := ih (place size i (((ys.map some).drop (i * size)).take size) value) (by simpa using p1)
    refine ⟨v', ?_, g2, ?_⟩
    · simp only [poolRun, hm, e]; exact g1
    · intro j
      rw [g3 j, p2 j]
      by_cases h1 : j / size ∈ sched
      · simp [h1]
      · by_cases h2 : j / size = i <;> simp [h1, h2]
        all_goals (intro h3; exact absurd h3 h1)

theorem poolRun_error (f : α → Except ε β) (size : Nat) (ks : List α) : ∀ (sched : List Nat) (value : List (Option β)) (e : ε),
    poolRun f size ks sched value = .error e → ∃ x ∈ ks, f x = .error e := by
  intro sched
  induction sched with
  | nil => intro value e h; simp [poolRun] at h
  | cons i sched ih =>
    intro value e h
    simp only [poolRun] at h
    split at h
    · simp only [Except.error.injEq] at h; subst h
      obtain ⟨x, hx, hf⟩ := mapSeq_error f _ _ ‹_›
      exact ⟨x, List.mem_of_mem_drop (List.mem_of_mem_take hx), hf⟩
    · exact ih _ _ h

theorem poolRun_all (f : α → Except ε β) (size : Nat) (ks : List α) : ∀ (sched : List Nat) (value value' : List (Option β)),
    poolRun f size ks sched value = .ok value' → ∀ i ∈ sched, ∃ r, mapSeq f ((ks.drop (i * size)).take size) = .ok r := by
  intro sched
  induction sched with
  | nil => intro value value' _ i hi; simp at hi
  | cons i sched ih =>
    intro value value' h j hj
    simp only [poolRun] at h
    split at h
    · simp at h
    · rcases List.mem_cons.1 hj with rfl | hj
      · exact ⟨_, ‹_›⟩
      · exact ih _ _ h j hj

end Search
end GPyABCD
