import Verif.Lemmas.RealSem
import Verif.Lemmas.Ind
import Verif.Lemmas.Construct

/-! Stationarity of the covariances of stationary expressions. -/

namespace GPyABCD
open scoped Pointwise
open KE Kern

theorem stat_opFold {op : Op} {l : List Fam} (h : ∀ A ∈ l, ∀ f ∈ A, Stat f) : ∀ f ∈ opFold op l, Stat f := by
  induction l with
  | nil =>
    cases op
    · simp only [opFold, List.sum_nil, Set.mem_zero]; rintro f rfl _ _ _; rfl
    · simp only [opFold, List.prod_nil, Set.mem_one]; rintro f rfl _ _ _; rfl
  | cons A l ih =>
    have ih := ih (fun B hB => h B (List.mem_cons_of_mem _ hB))
    have hA := h A (List.mem_cons_self ..)
    cases op
    · simp only [opFold, List.sum_cons] at ih ⊢
      rintro f hf
      obtain ⟨a, ha, b, hb, rfl⟩ := Set.mem_add.1 hf
      intro t x y; simp [hA a ha t x y, ih b hb t x y]
    · simp only [opFold, List.prod_cons] at ih ⊢
      rintro f hf
      obtain ⟨a, ha, b, hb, rfl⟩ := Set.mem_mul.1 hf
      intro t x y; simp [hA a ha t x y, ih b hb t x y]

theorem stat_base {cfg : Cfg} {V : Set ℝ} {b : Base} (hb : b.isStationary = true) :
    ∀ f ∈ (realI cfg V).F b, Stat f := by
  cases b with
  | WN => rintro f ⟨v, _, rfl⟩ t x y; simp [white]
  | C => rintro f ⟨v, _, rfl⟩ t x y; simp [bias]
  | SE => rintro f ⟨v, _, l, _, rfl⟩ t x y; simp [rbf]
  | PER => rintro f ⟨v, _, p, l, _, _, rfl⟩ t x y; simp [per]
  | _ => simp [Base.isStationary] at hb

theorem has_of_mem_elements {c : Counter} {b : Base} (h : b ∈ c.elements) : c.has b = true := by
  induction c with
  | nil => simp [Counter.elements] at h
  | cons p c ih =>
    obtain ⟨k, v⟩ := p
    simp only [Counter.elements, List.flatMap_cons, List.mem_append, List.mem_replicate] at h
    simp only [Counter.has]
    rcases h with ⟨_, rfl⟩ | h
    · simp
    · split
      · rfl
      · exact ih h

mutual
theorem stationary_iff (k : KE) (hw : wf k = true) :
    isStationary k = true ↔ changes k = [] ∧ ∀ b ∈ bases k, b.isStationary = true := by
  cases k with
  | base b => simp [isStationary, changes, bases]
  | change c l r => simp [isStationary, changes]
  | comm o c cs =>
    simp only [wf, Bool.and_eq_true, decide_eq_true_eq] at hw
    have hp : ∀ b, c.has b = true → b ∈ c.elements := by
      intro b hb
      have h2 := hw.1.2
      clear hw
      induction c with
      | nil => simp [Counter.has] at hb
      | cons p c ih =>
        obtain ⟨k, v⟩ := p
        simp only [List.all_cons, Bool.and_eq_true, decide_eq_true_eq] at h2
        simp only [Counter.has] at hb
        simp only [Counter.elements, List.flatMap_cons, List.mem_append, List.mem_replicate]
        split at hb
        · rename_i hk; subst hk; left; constructor
          · have := h2.1; omega
          · rfl
        · right; exact ih hb h2.2
    simp only [isStationary, Bool.and_eq_true, changes, bases, List.mem_append, stationaryL_iff cs hw.2]
    constructor
    · rintro ⟨h1, h2, h3⟩
      refine ⟨h2, ?_⟩
      rintro b (hb | hb)
      · have := has_of_mem_elements hb
        simp only [List.all_cons, List.all_nil, Bool.and_eq_true, Bool.not_eq_true'] at h1
        cases b <;> simp_all [Base.isStationary]
      · exact h3 b hb
    · rintro ⟨h2, h3⟩
      refine ⟨?_, h2, fun b hb => h3 b (Or.inr hb)⟩
      simp only [List.all_eq_true, Bool.not_eq_true']
      intro b hb
      cases hh : c.has b with
      | false => rfl
      | true =>
        have := h3 b (Or.inl (hp b hh))
        simp only [List.mem_cons, List.not_mem_nil, or_false] at hb
        rcases hb with rfl | rfl | rfl | rfl | rfl <;> simp [Base.isStationary] at this
theorem stationaryL_iff (ks : List KE) (hw : wfL ks = true) :
    isStationary.isStationaryL ks = true ↔ changesL ks = [] ∧ ∀ b ∈ basesL ks, b.isStationary = true := by
  cases ks with
  | nil => simp [isStationary.isStationaryL, changesL, basesL]
  | cons k ks =>
    simp only [wfL, Bool.and_eq_true] at hw
    simp only [isStationary.isStationaryL, Bool.and_eq_true, changesL, basesL, List.mem_append,
      List.append_eq_nil_iff, stationary_iff k hw.1.2, stationaryL_iff ks hw.2]
    constructor
    · rintro ⟨⟨a, b⟩, c, d⟩; exact ⟨⟨a, c⟩, fun x hx => hx.elim (b x) (d x)⟩
    · rintro ⟨⟨a, c⟩, d⟩; exact ⟨⟨a, fun x hx => d x (Or.inl hx)⟩, c, fun x hx => d x (Or.inr hx)⟩
end

mutual
theorem stat_den {cfg : Cfg} {V : Set ℝ} (k : KE) (h1 : changes k = [])
    (h2 : ∀ b ∈ bases k, b.isStationary = true) : ∀ f ∈ den (realI cfg V) k, Stat f := by
  cases k with
  | base b => simp only [den]; exact stat_base (h2 b (by simp [bases]))
  | change c l r => simp [changes] at h1
  | comm o c cs =>
    simp only [changes] at h1
    simp only [bases, List.mem_append] at h2
    simp only [den]
    apply stat_opFold
    intro A hA
    rcases List.mem_append.1 hA with h | h
    · obtain ⟨b, hb, rfl⟩ := List.mem_map.1 h
      exact stat_base (h2 b (Or.inl hb))
    · exact stat_denL cs h1 (fun b hb => h2 b (Or.inr hb)) A h
theorem stat_denL {cfg : Cfg} {V : Set ℝ} (ks : List KE) (h1 : changesL ks = [])
    (h2 : ∀ b ∈ basesL ks, b.isStationary = true) : ∀ A ∈ denL (realI cfg V) ks, ∀ f ∈ A, Stat f := by
  cases ks with
  | nil => simp [denL]
  | cons k ks =>
    simp only [changesL, List.append_eq_nil_iff] at h1
    simp only [basesL, List.mem_append] at h2
    intro A hA
    simp only [denL, List.mem_cons] at hA
    rcases hA with rfl | hA
    · exact stat_den k h1.1 (fun b hb => h2 b (Or.inl hb))
    · exact stat_denL ks h1.2 (fun b hb => h2 b (Or.inr hb)) A hA
end

end GPyABCD
