import Verif.Spec.Same
import Verif.Lemmas.Ind
import Mathlib.Data.List.Perm.Basic

namespace GPyABCD

namespace Counter

theorem get_of_not_mem {c : Counter} {b : Base} (h : ∀ p ∈ c, p.1 ≠ b) : c.get b = 0 := by
  induction c with
  | nil => rfl
  | cons p r ih =>
    obtain ⟨k, v⟩ := p
    have hk : k ≠ b := h (k, v) (by simp)
    simp only [get, hk, if_false]
    exact ih (fun p hp => h p (by simp [hp]))

theorem eq_iff (c d : Counter) : c.eq d = true ↔ ∀ b, c.get b = d.get b := by
  unfold eq
  simp only [Bool.and_eq_true, List.all_eq_true, decide_eq_true_eq]
  constructor
  · rintro ⟨h1, h2⟩ b
    by_cases hc : ∃ p ∈ c, p.1 = b
    · obtain ⟨p, hp, rfl⟩ := hc; exact h1 p hp
    · by_cases hd : ∃ p ∈ d, p.1 = b
      · obtain ⟨p, hp, rfl⟩ := hd; exact h2 p hp
      · rw [get_of_not_mem (fun p hp e => hc ⟨p, hp, e⟩), get_of_not_mem (fun p hp e => hd ⟨p, hp, e⟩)]
  · intro h; exact ⟨fun p _ => h _, fun p _ => h _⟩

end Counter

open List

/-- Pull a pointwise relation back through a permutation. -/
theorem forall₂_perm_left {α β : Type _} {R : α → β → Prop} {l₁ l₂ : List α} (hp : l₁.Perm l₂) :
    ∀ {u : List β}, Forall₂ R l₂ u → ∃ v, Forall₂ R l₁ v ∧ v.Perm u := by
  induction hp with
  | nil => intro u h; exact ⟨u, h, Perm.refl _⟩
  | cons x _ ih =>
    intro u h
    cases h with
    | cons hx ht => obtain ⟨v, hv, hpv⟩ := ih ht; exact ⟨_ :: v, Forall₂.cons hx hv, hpv.cons _⟩
  | swap x y l =>
    intro u h
    cases h with
    | cons hx ht => cases ht with
      | cons hy ht => exact ⟨_, Forall₂.cons hy (Forall₂.cons hx ht), Perm.swap _ _ _⟩
  | trans _ _ ih1 ih2 =>
    intro u h
    obtain ⟨v, hv, hpv⟩ := ih2 h
    obtain ⟨w, hw, hpw⟩ := ih1 hv
    exact ⟨w, hw, hpw.trans hpv⟩

theorem forall₂_perm_right {α β : Type _} {R : α → β → Prop} {u v : List β} (hp : u.Perm v)
    {l : List α} (h : Forall₂ R l u) : ∃ l', l'.Perm l ∧ Forall₂ R l' v := by
  have h' : Forall₂ (fun b a => R a b) u l := h.flip
  obtain ⟨w, hw, hpw⟩ := forall₂_perm_left hp.symm h'
  exact ⟨w, hpw, hw.flip⟩

theorem forall₂_of_forall_mem {α β : Type _} {R S : α → β → Prop} {l : List α} {u : List β}
    (h : Forall₂ R l u) (H : ∀ a ∈ l, ∀ b, R a b → S a b) : Forall₂ S l u := by
  induction h with
  | nil => exact Forall₂.nil
  | cons hx _ ih =>
    exact Forall₂.cons (H _ (by simp) _ hx) (ih (fun a ha => H a (by simp [ha])))

theorem forall₂_comp {α β γ : Type _} {R : α → β → Prop} {S : β → γ → Prop} {T : α → γ → Prop}
    {l : List α} {u : List β} {w : List γ} (h : Forall₂ R l u) (h2 : Forall₂ S u w)
    (H : ∀ a ∈ l, ∀ b c, R a b → S b c → T a c) : Forall₂ T l w := by
  induction h generalizing w with
  | nil => cases h2; exact Forall₂.nil
  | cons hx _ ih =>
    cases h2 with
    | cons hy ht => exact Forall₂.cons (H _ (by simp) _ _ hx hy) (ih ht (fun a ha => H a (by simp [ha])))

theorem forall₂_append_right {α β : Type _} {R : α → β → Prop} {a b : List β} :
    ∀ {xs : List α}, Forall₂ R xs (a ++ b) → ∃ xa xb, Forall₂ R xa a ∧ Forall₂ R xb b ∧ xs = xa ++ xb := by
  induction a with
  | nil => intro xs h; exact ⟨[], xs, Forall₂.nil, h, rfl⟩
  | cons y ys ih =>
    intro xs h
    cases h with
    | cons hx ht =>
      obtain ⟨xa, xb, h1, h2, rfl⟩ := ih ht
      exact ⟨_ :: xa, xb, Forall₂.cons hx h1, h2, rfl⟩

namespace Same

theorem refl (k : KE) : Same k k := by
  induction k using KE.ind with
  | base b => exact .base b
  | comm o c cs ih => exact .comm (fun _ => rfl) (forall₂_same.2 ih) (Perm.refl _)
  | change c l r hl hr => exact .change hl hr

theorem symm {a b : KE} (h : Same a b) : Same b a := by
  induction a using KE.ind generalizing b with
  | base _ => cases h; exact .base _
  | comm o c cs ih =>
    cases h with
    | comm hc hf hp =>
      have hf' := (forall₂_of_forall_mem hf (S := fun a b => Same b a) (fun a ha b hab => ih a ha hab)).flip
      obtain ⟨v, hv, hpv⟩ := forall₂_perm_left hp.symm hf'
      exact .comm (fun b => (hc b).symm) hv hpv
  | change c l r hl hr =>
    cases h with
    | change h1 h2 => exact .change (hl h1) (hr h2)

theorem trans {a b c : KE} (h : Same a b) (h' : Same b c) : Same a c := by
  induction a using KE.ind generalizing b c with
  | base _ => cases h; exact h'
  | comm o c cs ih =>
    cases h with
    | comm hc hf hp =>
      cases h' with
      | comm hc' hf' hp' =>
        obtain ⟨v, hv, hpv⟩ := forall₂_perm_left hp hf'
        exact .comm (fun b => (hc b).trans (hc' b))
          (forall₂_comp hf hv (fun a ha b c h1 h2 => ih a ha h1 h2)) (hpv.trans hp')
  | change c l r hl hr =>
    cases h with
    | change h1 h2 => cases h' with
      | change h3 h4 => exact .change (hl h1 h3) (hr h2 h4)

end Same

namespace KE

theorem removeFirst_eq_none {α : Type} {p : α → Bool} {l : List α} :
    removeFirst p l = none ↔ ∀ x ∈ l, p x = false := by
  induction l with
  | nil => simp [removeFirst]
  | cons y ys ih =>
    simp only [removeFirst]
    by_cases h : p y = true
    · simp [h]
    · simp [h, ih]

theorem removeFirst_eq_some {α : Type} {p : α → Bool} {l r : List α} :
    removeFirst p l = some r ↔
      ∃ l₁ y l₂, l = l₁ ++ y :: l₂ ∧ r = l₁ ++ l₂ ∧ p y = true ∧ ∀ x ∈ l₁, p x = false := by
  induction l generalizing r with
  | nil => simp [removeFirst]
  | cons a as ih =>
    simp only [removeFirst]
    by_cases h : p a = true
    · simp only [h, if_true, Option.some.injEq]
      constructor
      · rintro rfl; exact ⟨[], a, as, rfl, rfl, h, by simp⟩
      · rintro ⟨l₁, y, l₂, h1, h2, h3, h4⟩
        cases l₁ with
        | nil => simp at h1 h2; rw [h2, h1.2]
        | cons z zs =>
          simp at h1
          have := h4 z (by simp)
          rw [← h1.1] at this; simp [h] at this
    · rw [if_neg h, Option.map_eq_some_iff]
      constructor
      · rintro ⟨r', hr', rfl⟩
        obtain ⟨l₁, y, l₂, h1, h2, h3, h4⟩ := ih.1 hr'
        refine ⟨a :: l₁, y, l₂, by simp [h1], by simp [h2], h3, ?_⟩
        intro x hx
        rcases List.mem_cons.1 hx with rfl | hx
        · simpa using h
        · exact h4 x hx
      · rintro ⟨l₁, y, l₂, h1, h2, h3, h4⟩
        cases l₁ with
        | nil => simp at h1; rw [h1.1] at h; exact absurd h3 h
        | cons z zs =>
          simp at h1
          refine ⟨zs ++ l₂, ih.2 ⟨zs, y, l₂, h1.2, rfl, h3, fun x hx => h4 x (by simp [hx])⟩, ?_⟩
          rw [h2, h1.1]; rfl

theorem removeFirst_perm {α : Type} {p : α → Bool} {l r : List α} (h : removeFirst p l = some r) :
    ∃ y, p y = true ∧ y ∈ l ∧ l.Perm (y :: r) := by
  obtain ⟨l₁, y, l₂, rfl, rfl, h3, _⟩ := removeFirst_eq_some.1 h
  exact ⟨y, h3, by simp, perm_middle⟩

/-- Matching up to an equivalence: removing one match leaves a match. -/
theorem match_exchange {R : KE → KE → Prop} (hs : ∀ a b, R a b → R b a)
    (ht : ∀ a b c, R a b → R b c → R a c) {x y : KE} {xs ds ys : List KE}
    (hf : Forall₂ R (x :: xs) ds) (hp : ds.Perm (y :: ys)) (hxy : R x y) :
    ∃ es, Forall₂ R xs es ∧ es.Perm ys := by
  cases hf with
  | @cons _ d _ ds' hx htl =>
    -- replace the partner of `y` by `d`
    by_cases hdy : d = y
    · subst hdy; exact ⟨ds', htl, (perm_cons _).1 hp⟩
    · have hy : y ∈ ds' := by
        have : y ∈ d :: ds' := hp.symm.subset (by simp)
        rcases List.mem_cons.1 this with h | h
        · exact absurd h.symm hdy
        · exact h
      obtain ⟨a, b, rfl⟩ := append_of_mem hy
      obtain ⟨xa, xb, hxa, hxb, rfl⟩ : ∃ xa xb, Forall₂ R xa a ∧ Forall₂ R xb (y :: b) ∧ xs = xa ++ xb :=
        forall₂_append_right htl
      cases hxb with
      | @cons x' _ xb' _ hx' htb =>
        refine ⟨a ++ d :: b, ?_, ?_⟩
        · exact rel_append hxa (Forall₂.cons (ht _ _ _ hx' (ht _ _ _ (hs _ _ hxy) hx)) htb)
        · have h1 : (d :: (a ++ y :: b)).Perm (y :: (a ++ d :: b)) := by
            refine (Perm.cons d perm_middle).trans ((Perm.swap _ _ _).trans ?_)
            exact Perm.cons y perm_middle.symm
          exact (perm_cons y).1 (h1.symm.trans hp)

theorem eqElems_iff {xs : List KE} (hx : ∀ x ∈ xs, ∀ y, keq x y = true ↔ Same x y) (ys : List KE) :
    eqElems xs ys = true ↔ ∃ ds, Forall₂ Same xs ds ∧ ds.Perm ys := by
  induction xs generalizing ys with
  | nil =>
    simp only [eqElems, List.isEmpty_iff, forall₂_nil_left_iff]
    constructor
    · rintro rfl; exact ⟨[], rfl, Perm.refl _⟩
    · rintro ⟨_, rfl, h⟩; exact (nil_perm.1 h)
  | cons x xs ih =>
    have ih := ih (fun z hz => hx z (by simp [hz]))
    have hx0 := hx x (by simp)
    simp only [eqElems]
    cases hr : removeFirst (fun y => keq x y) ys with
    | none =>
      simp only [Bool.false_eq_true, false_iff]
      rintro ⟨ds, hf, hp⟩
      cases hf with
      | cons h1 h2 =>
        have hm := hp.subset (List.mem_cons_self ..)
        have := removeFirst_eq_none.1 hr _ hm
        rw [(hx0 _).2 h1] at this; simp at this
    | some ys' =>
      obtain ⟨y, hy, _, hpy⟩ := removeFirst_perm hr
      rw [ih]
      constructor
      · rintro ⟨ds, hf, hp⟩
        exact ⟨y :: ds, Forall₂.cons ((hx0 y).1 hy) hf, (hp.cons y).trans hpy.symm⟩
      · rintro ⟨ds, hf, hp⟩
        exact match_exchange (R := Same) (fun a b h => Same.symm h) (fun a b c h h' => Same.trans h h') hf (hp.trans hpy) ((hx0 y).1 hy)

/-- The comparison code decides "same up to reordering". -/
theorem keq_iff (a b : KE) : keq a b = true ↔ Same a b := by
  induction a using KE.ind generalizing b with
  | base x =>
    cases b <;> simp only [keq, decide_eq_true_eq, Bool.false_eq_true, false_iff]
    · constructor
      · rintro rfl; exact .base _
      · intro h; cases h; rfl
    all_goals (intro h; cases h)
  | comm o c cs ih =>
    cases b with
    | base _ => simp only [keq, Bool.false_eq_true, false_iff]; intro h; cases h
    | change _ _ _ => simp only [keq, Bool.false_eq_true, false_iff]; intro h; cases h
    | comm o' c' cs' =>
      simp only [keq, Bool.and_eq_true, decide_eq_true_eq, Counter.eq_iff]
      rw [eqElems_iff (fun x hx y => ih x hx y)]
      constructor
      · rintro ⟨⟨rfl, hc⟩, ds, hf, hp⟩; exact .comm hc hf hp
      · intro h; cases h with
        | comm hc hf hp => exact ⟨⟨rfl, hc⟩, _, hf, hp⟩
  | change c l r hl hr =>
    cases b with
    | base _ => simp only [keq, Bool.false_eq_true, false_iff]; intro h; cases h
    | comm _ _ _ => simp only [keq, Bool.false_eq_true, false_iff]; intro h; cases h
    | change c' l' r' =>
      simp only [keq, Bool.and_eq_true, decide_eq_true_eq, hl, hr]
      constructor
      · rintro ⟨⟨rfl, h1⟩, h2⟩; exact .change h1 h2
      · intro h; cases h with
        | change h1 h2 => exact ⟨⟨rfl, h1⟩, h2⟩

theorem keq_refl (a : KE) : keq a a = true := (keq_iff a a).2 (Same.refl a)
theorem keq_symm {a b : KE} (h : keq a b = true) : keq b a = true :=
  (keq_iff b a).2 ((keq_iff a b).1 h).symm
theorem keq_trans {a b c : KE} (h : keq a b = true) (h' : keq b c = true) : keq a c = true :=
  (keq_iff a c).2 (((keq_iff a b).1 h).trans ((keq_iff b c).1 h'))
theorem keq_comm (a b : KE) : keq a b = keq b a := by
  rw [Bool.eq_iff_iff]; exact ⟨keq_symm, keq_symm⟩

end KE
end GPyABCD
