import Verif.Spec.Shown
import Verif.Lemmas.ParamsName

/-!
# Lemmas: descriptions can be read back

Texts are compared as lists of characters, from the left: what is printed first must agree, then the rest.
-/

namespace GPyABCD
namespace Interp

/-- A number can end before `t`. -/
def NE (t : List Char) : Prop := ∀ c ∈ t.head?, numC c = false

/-- An element of a list can end before `t`. -/
def Sep (t : List Char) : Prop := (∃ r, t = ';' :: r) ∨ ∃ r, t = ',' :: r

/-- A part of a sentence can end before `t`. -/
def Tail (t : List Char) : Prop :=
  (∃ r, t = ';' :: r) ∨ (∃ r, t = ',' :: ' ' :: 'w' :: r) ∨ ∃ r, t = ',' :: ' ' :: 'a' :: 'n' :: 'd' :: ' ' :: 'i' :: r

theorem Tail.sep {t : List Char} (h : Tail t) : Sep t := by
  rcases h with ⟨r, h⟩ | ⟨r, h⟩ | ⟨r, h⟩
  · exact Or.inl ⟨r, h⟩
  · exact Or.inr ⟨_, h⟩
  · exact Or.inr ⟨_, h⟩

theorem Sep.ne {t : List Char} (h : Sep t) : NE t := by
  rcases h with ⟨r, rfl⟩ | ⟨r, rfl⟩ <;> intro c hc <;> simp at hc <;> subst hc <;> decide

theorem ne_cons {c : Char} {t : List Char} (h : numC c = false) : NE (c :: t) := by
  intro d hd; simp at hd; subst hd; exact h

theorem num_cut {α : Type} {fmt : α → String} (hf : Plain fmt) {v w : α} {t t' : List Char} (ht : NE t) (ht' : NE t')
    (h : (fmt v).toList ++ t = (fmt w).toList ++ t') : fmt v = fmt w ∧ t = t' := by
  have := Params.split_unique (p := numC) (hf v).2 ht (hf w).2 ht' h
  exact ⟨String.toList_inj.1 this.1, this.2⟩

theorem nat_toList (n : Nat) : (toString n).toList = Nat.toDigits 10 n := by
  simp [Nat.repr]

theorem nat_cut {m n : Nat} {t t' : List Char} (ht : NE t) (ht' : NE t')
    (h : (toString m).toList ++ t = (toString n).toList ++ t') : m = n ∧ t = t' := by
  rw [nat_toList, nat_toList] at h
  have hd : ∀ n : Nat, ∀ c ∈ Nat.toDigits 10 n, numC c = true := fun n c hc => by simp [numC, Params.digits_digit c hc]
  have := Params.split_unique (p := numC) (hd m) ht (hd n) ht' h
  exact ⟨Params.digits_inj this.1, this.2⟩

/-! ## Lists -/

section
variable {A : Type} (g : A → List Char)

/-- What follows the first element. -/
def restL : List A → List Char
  | [] => []
  | [y] => ',' :: ' ' :: 'a' :: 'n' :: 'd' :: ' ' :: g y
  | y :: z :: r => ',' :: ' ' :: (g y ++ restL (z :: r))

/-- `commaAnd`. -/
def joinL : List A → List Char
  | [] => []
  | x :: r => g x ++ restL g r

theorem restL_sep {t : List Char} (ht : Sep t) (r : List A) : Sep (restL g r ++ t) := by
  match r with
  | [] => exact ht
  | [y] => exact Or.inr ⟨_, rfl⟩
  | y :: z :: r => exact Or.inr ⟨_, rfl⟩

variable {g} {R : A → A → Prop} {P : Char → Bool}

theorem rest_cut (hs : ∀ a, ∃ c r, g a = c :: r ∧ P c = true) (hP : ∀ c ∈ ['i', 'w', 'a'], P c = false)
    (hg : ∀ a b t t', Sep t → Sep t' → g a ++ t = g b ++ t' → R a b ∧ t = t') :
    ∀ (l m : List A) (t t' : List Char), Tail t → Tail t' → restL g l ++ t = restL g m ++ t' → List.Forall₂ R l m ∧ t = t' := by
  have hi : P 'i' = false := hP _ (by simp)
  have hw : P 'w' = false := hP _ (by simp)
  have ha : P 'a' = false := hP _ (by simp)
  -- a tail does not look like more elements
  have h1 : ∀ {t t' : List Char} (y : A), Tail t → t = ',' :: ' ' :: 'a' :: 'n' :: 'd' :: ' ' :: (g y ++ t') → False := by
    intro t t' y ht e
    obtain ⟨c, r, ec, hc⟩ := hs y
    rw [ec] at e
    rcases ht with ⟨r, rfl⟩ | ⟨r, rfl⟩ | ⟨r, rfl⟩ <;> simp at e
    rw [← e.1, hi] at hc; simp at hc
  have h2 : ∀ {t t' : List Char} (y : A), Tail t → t = ',' :: ' ' :: (g y ++ t') → False := by
    intro t t' y ht e
    obtain ⟨c, r, ec, hc⟩ := hs y
    rw [ec] at e
    rcases ht with ⟨r, rfl⟩ | ⟨r, rfl⟩ | ⟨r, rfl⟩ <;> simp at e
    · rw [← e.1, hw] at hc; simp at hc
    · rw [← e.1, ha] at hc; simp at hc
  have h3 : ∀ {t t' : List Char} (y : A), 'a' :: t = g y ++ t' → False := by
    intro t t' y e
    obtain ⟨c, r, ec, hc⟩ := hs y
    rw [ec] at e
    simp at e
    rw [← e.1, ha] at hc; simp at hc
  intro l
  induction l with
  | nil =>
    intro m t t' ht ht' h
    match m, h with
    | [], h => exact ⟨.nil, h⟩
    | [y], h => simp only [restL, List.nil_append, List.cons_append] at h; exact (h1 y ht h).elim
    | y :: z :: r, h => simp only [restL, List.nil_append, List.cons_append, List.append_assoc] at h; exact (h2 y ht h).elim
  | cons x l ih =>
    intro m t t' ht ht' h
    match l, m, h, ih with
    | [], [], h, _ => simp only [restL, List.nil_append, List.cons_append] at h; exact (h1 x ht' h.symm).elim
    | y :: l, [], h, _ => simp only [restL, List.nil_append, List.cons_append, List.append_assoc] at h; exact (h2 x ht' h.symm).elim
    | [], [y], h, _ =>
      simp only [restL, List.cons_append, List.cons.injEq, true_and] at h
      obtain ⟨a, b⟩ := hg _ _ _ _ ht.sep ht'.sep h
      exact ⟨.cons a .nil, b⟩
    | [], y :: z :: r, h, _ =>
      simp only [restL, List.cons_append, List.cons.injEq, true_and, List.append_assoc] at h
      exact (h3 y h).elim
    | z :: l, [y], h, _ =>
      simp only [restL, List.cons_append, List.cons.injEq, true_and, List.append_assoc] at h
      exact (h3 x h.symm).elim
    | z :: l, y :: z' :: r, h, ih =>
      simp only [restL, List.cons_append, List.cons.injEq, true_and, List.append_assoc] at h
      obtain ⟨a, b⟩ := hg _ _ _ _ (restL_sep g ht.sep _) (restL_sep g ht'.sep _) h
      obtain ⟨c, d⟩ := ih _ _ _ ht ht' b
      exact ⟨.cons a c, d⟩

theorem list_cut (hs : ∀ a, ∃ c r, g a = c :: r ∧ P c = true) (hP : ∀ c ∈ ['i', 'w', 'a'], P c = false) (hP' : ∀ c ∈ [',', ';'], P c = false)
    (hg : ∀ a b t t', Sep t → Sep t' → g a ++ t = g b ++ t' → R a b ∧ t = t')
    {l m : List A} {t t' : List Char} (ht : Tail t) (ht' : Tail t') (h : joinL g l ++ t = joinL g m ++ t') : List.Forall₂ R l m ∧ t = t' := by
  have h0 : ∀ {t t' : List Char} (y : A), Tail t → t = g y ++ t' → False := by
    intro t t' y ht e
    obtain ⟨c, r, ec, hc⟩ := hs y
    rw [ec] at e
    have hc1 : P ',' = false := hP' _ (by simp)
    have hc2 : P ';' = false := hP' _ (by simp)
    rcases ht.sep with ⟨r, rfl⟩ | ⟨r, rfl⟩ <;> simp at e <;> rw [← e.1] at hc <;> simp_all
  cases l with
  | nil =>
    cases m with
    | nil => exact ⟨.nil, h⟩
    | cons y m => simp only [joinL, List.nil_append, List.append_assoc] at h; exact (h0 y ht h).elim
  | cons x l =>
    cases m with
    | nil => simp only [joinL, List.nil_append, List.append_assoc] at h; exact (h0 x ht' h.symm).elim
    | cons y m =>
      simp only [joinL, List.append_assoc] at h
      obtain ⟨a, b⟩ := hg _ _ _ _ (restL_sep g ht.sep _) (restL_sep g ht'.sep _) h
      obtain ⟨c, d⟩ := rest_cut hs hP hg _ _ _ _ ht ht' b
      exact ⟨.cons a c, d⟩

end

theorem intercalate_cons_cons (s a b : String) (l : List String) : s.intercalate (a :: b :: l) = a ++ s ++ s.intercalate (b :: l) := by
  apply String.toList_inj.1
  simp [String.toList_intercalate, List.intercalate]

theorem commaAnd_toList {A : Type} (h : A → String) (l : List A) : (commaAnd (l.map h)).toList = joinL (fun a => (h a).toList) l := by
  match l with
  | [] => rfl
  | x :: r =>
    suffices ∀ (r : List A) (x : A), (", ".intercalate (((x :: r).map h).dropLast ++ ((x :: r).map h).getLast?.toList.map
        (fun s => if r = [] then s else "and " ++ s))).toList = (h x).toList ++ restL (fun a => (h a).toList) r by
      have := this r x
      rw [joinL, ← this, commaAnd]
      cases r <;> simp
    intro r
    induction r with
    | nil => intro x; simp [restL]
    | cons y r ih =>
      intro x
      have := ih y
      cases r with
      | nil => simp [restL]
      | cons z r =>
        simp only [List.map_cons, List.dropLast_cons₂, List.cons_append, reduceCtorEq, if_false, List.getLast?_cons_cons] at this ⊢
        cases r with
        | nil => simp [restL]
        | cons u r =>
          rw [intercalate_cons_cons]
          simp only [String.toList_append, this]
          simp [restL]

end Interp
end GPyABCD
