import Verif.Lemmas.Shown

/-!
# Lemmas: cutting sentences
-/

namespace GPyABCD
namespace Interp

section
variable {α : Type} {fmt : α → String}

/-- The numbers are printed alike. -/
def Alike (fmt : α → String) (a b : α) : Prop := fmt a = fmt b

theorem sep_space {r : List Char} (h : Sep (' ' :: r)) : False := by
  rcases h with ⟨_, h⟩ | ⟨_, h⟩ <;> simp at h

/-- The change slopes of a window as text. -/
def slTxt (fmt : α → String) : Slopes α → String
  | .none => ""
  | .same a => " (with same change slopes " ++ fmt a ++ ")"
  | .two a b => " (with change slopes " ++ fmt a ++ " and " ++ fmt b ++ ")"

theorem slTxt_none : slTxt fmt .none = "" := rfl
theorem slTxt_same (a : α) : slTxt fmt (.same a) = " (with same change slopes " ++ fmt a ++ ")" := rfl
theorem slTxt_two (a b : α) : slTxt fmt (.two a b) = " (with change slopes " ++ fmt a ++ " and " ++ fmt b ++ ")" := rfl

theorem between_text (e f : α) (s : Slopes α) :
    IvlText.text fmt (.between e f s) = "between " ++ fmt e ++ " and " ++ fmt f ++ slTxt fmt s := by cases s <;> rfl

theorem ne_lit {l r : List Char} (h : l.head?.all (fun c => !numC c) && !l.isEmpty) : NE (l ++ r) := by
  cases l with
  | nil => simp at h
  | cons c l => simp at h; exact ne_cons h

theorem not_sep_lit {l r : List Char} (hl : l.head? = some ' ') (h : Sep (l ++ r)) : False := by
  cases l with
  | nil => simp at hl
  | cons c l => simp at hl; subst hl; exact sep_space h

theorem slopes_cut (hf : Plain fmt) {f f' : α} {s s' : Slopes α} {t t' : List Char} (ht : Sep t) (ht' : Sep t')
    (h2 : (fmt f).toList ++ ((slTxt fmt s).toList ++ t) = (fmt f').toList ++ ((slTxt fmt s').toList ++ t')) :
    fmt f = fmt f' ∧ Slopes.Rel (Alike fmt) s s' ∧ t = t' := by
  have n1 : ∀ {r : List Char}, NE (" (with same change slopes ".toList ++ r) := ne_lit (by decide)
  have n2 : ∀ {r : List Char}, NE (" (with change slopes ".toList ++ r) := ne_lit (by decide)
  have n3 : ∀ {r : List Char}, NE (" and ".toList ++ r) := ne_lit (by decide)
  have n4 : ∀ {r : List Char}, NE (")".toList ++ r) := ne_lit (by decide)
  have d1 : ∀ {r r' : List Char}, " (with same change slopes ".toList ++ r = " (with change slopes ".toList ++ r' → False := by
    intro r r'; simp
  have e1 : " (with same change slopes ".toList.head? = some ' ' := by simp
  have e2 : " (with change slopes ".toList.head? = some ' ' := by simp
  cases s <;> cases s' <;> simp only [slTxt_none, slTxt_same, slTxt_two, String.toList_append, List.append_assoc, String.toList_empty, List.nil_append] at h2
  · obtain ⟨h3, h4⟩ := num_cut hf ht.ne ht'.ne h2
    exact ⟨h3, .none, h4⟩
  · obtain ⟨h3, h4⟩ := num_cut hf ht.ne n1 h2
    rw [h4] at ht; exact (not_sep_lit e1 ht).elim
  · obtain ⟨h3, h4⟩ := num_cut hf ht.ne n2 h2
    rw [h4] at ht; exact (not_sep_lit e2 ht).elim
  · obtain ⟨h3, h4⟩ := num_cut hf n1 ht'.ne h2
    rw [← h4] at ht'; exact (not_sep_lit e1 ht').elim
  · obtain ⟨h3, h4⟩ := num_cut hf n1 n1 h2
    obtain ⟨h5, h6⟩ := num_cut hf n4 n4 (List.append_cancel_left h4)
    exact ⟨h3, .same h5, List.append_cancel_left h6⟩
  · obtain ⟨h3, h4⟩ := num_cut hf n1 n2 h2
    exact (d1 h4).elim
  · obtain ⟨h3, h4⟩ := num_cut hf n2 ht'.ne h2
    rw [← h4] at ht'; exact (not_sep_lit e2 ht').elim
  · obtain ⟨h3, h4⟩ := num_cut hf n2 n1 h2
    exact (d1 h4.symm).elim
  · obtain ⟨h3, h4⟩ := num_cut hf n2 n2 h2
    obtain ⟨h5, h6⟩ := num_cut hf n3 n3 (List.append_cancel_left h4)
    obtain ⟨h7, h8⟩ := num_cut hf n4 n4 (List.append_cancel_left h6)
    exact ⟨h3, .two h5 h7, List.append_cancel_left h8⟩

theorem between_cut (hf : Plain fmt) {e f e' f' : α} {s s' : Slopes α} {t t' : List Char} (ht : Sep t) (ht' : Sep t')
    (h : (IvlText.text fmt (.between e f s)).toList ++ t = (IvlText.text fmt (.between e' f' s')).toList ++ t') :
    IvlText.Rel (Alike fmt) (.between e f s) (.between e' f' s') ∧ t = t' := by
  have sp : ∀ {r : List Char}, NE (' ' :: r) := ne_cons (by decide)
  have h0 : (fmt e).toList ++ ' ' :: 'a' :: 'n' :: 'd' :: ' ' :: ((fmt f).toList ++ ((slTxt fmt s).toList ++ t)) =
      (fmt e').toList ++ ' ' :: 'a' :: 'n' :: 'd' :: ' ' :: ((fmt f').toList ++ ((slTxt fmt s').toList ++ t')) := by
    simpa [between_text] using h
  obtain ⟨h1, h2⟩ := num_cut hf sp sp h0
  simp only [List.cons.injEq, true_and] at h2
  obtain ⟨h3, h4, h5⟩ := slopes_cut hf ht ht' h2
  exact ⟨.between h1 h3 h4, h5⟩

theorem ivl_cut (hf : Plain fmt) (a b : IvlText α) (t t' : List Char) (ht : Sep t) (ht' : Sep t')
    (h : (a.text fmt).toList ++ t = (b.text fmt).toList ++ t') : IvlText.Rel (Alike fmt) a b ∧ t = t' := by
  have sp : ∀ {r : List Char}, NE (' ' :: r) := ne_cons (by decide)
  have pa : ∀ {r : List Char}, NE (')' :: r) := ne_cons (by decide)
  cases a with
  | «until» e s =>
    cases b with
    | «until» e' s' =>
      cases s <;> cases s' <;> simp [IvlText.text] at h
      · obtain ⟨h1, h2⟩ := num_cut hf ht.ne ht'.ne h
        exact ⟨.until h1 .none, h2⟩
      · obtain ⟨h1, h2⟩ := num_cut hf ht.ne sp h
        rw [h2] at ht; exact (sep_space ht).elim
      · obtain ⟨h1, h2⟩ := num_cut hf sp ht'.ne h
        rw [← h2] at ht'; exact (sep_space ht').elim
      · obtain ⟨h1, h2⟩ := num_cut hf sp sp h
        simp at h2
        obtain ⟨h3, h4⟩ := num_cut hf pa pa h2
        simp at h4
        exact ⟨.until h1 (.some h3), h4⟩
    | «from» e' s' => cases s <;> cases s' <;> simp [IvlText.text] at h
    | between e' f' s' => cases s <;> cases s' <;> simp [IvlText.text] at h
  | «from» e s =>
    cases b with
    | «from» e' s' =>
      cases s <;> cases s' <;> simp [IvlText.text] at h
      · obtain ⟨h1, h2⟩ := num_cut hf ht.ne ht'.ne h
        exact ⟨.from h1 .none, h2⟩
      · obtain ⟨h1, h2⟩ := num_cut hf ht.ne sp h
        rw [h2] at ht; exact (sep_space ht).elim
      · obtain ⟨h1, h2⟩ := num_cut hf sp ht'.ne h
        rw [← h2] at ht'; exact (sep_space ht').elim
      · obtain ⟨h1, h2⟩ := num_cut hf sp sp h
        simp at h2
        obtain ⟨h3, h4⟩ := num_cut hf pa pa h2
        simp at h4
        exact ⟨.from h1 (.some h3), h4⟩
    | «until» e' s' => cases s <;> cases s' <;> simp [IvlText.text] at h
    | between e' f' s' => cases s <;> cases s' <;> simp [IvlText.text] at h
  | between e f s =>
    cases b with
    | between e' f' s' =>
      exact between_cut hf ht ht' h
    | «until» e' s' => cases s <;> cases s' <;> simp [IvlText.text] at h
    | «from» e' s' => cases s <;> cases s' <;> simp [IvlText.text] at h

theorem ivl_start (a : IvlText α) : ∃ c r, (a.text fmt).toList = c :: r ∧ (fun c => c == 'u' || c == 'f' || c == 'b') c = true := by
  cases a with
  | «until» e s => cases s <;> exact ⟨'u', _, by simp [IvlText.text]; rfl, rfl⟩
  | «from» e s => cases s <;> exact ⟨'f', _, by simp [IvlText.text]; rfl, rfl⟩
  | between e f s => cases s <;> exact ⟨'b', _, by simp [IvlText.text]; rfl, rfl⟩

theorem ivls_cut (hf : Plain fmt) {l m : List (IvlText α)} {t t' : List Char} (ht : Tail t) (ht' : Tail t')
    (h : (commaAnd (l.map (IvlText.text fmt))).toList ++ t = (commaAnd (m.map (IvlText.text fmt))).toList ++ t') :
    List.Forall₂ (IvlText.Rel (Alike fmt)) l m ∧ t = t' := by
  rw [commaAnd_toList, commaAnd_toList] at h
  exact list_cut (R := IvlText.Rel (Alike fmt)) ivl_start (by decide) (by decide) (fun a b t t' h1 h2 h3 => ivl_cut hf a b t t' h1 h2 h3) ht ht' h

theorem roots_cut (hf : Plain fmt) {l m : List α} {t t' : List Char} (ht : Tail t) (ht' : Tail t')
    (h : (commaAnd (l.map fmt)).toList ++ t = (commaAnd (m.map fmt)).toList ++ t') :
    List.Forall₂ (Alike fmt) l m ∧ t = t' := by
  rw [commaAnd_toList, commaAnd_toList] at h
  refine list_cut (R := Alike fmt) (P := numC) (fun a => ?_) (by decide) (by decide) (fun a b t t' h1 h2 h3 => num_cut hf h1.ne h2.ne h3) ht ht' h
  have h1 := hf a
  cases e : (fmt a).toList with
  | nil => exact absurd e h1.1
  | cons c r => exact ⟨c, r, rfl, h1.2 c (by simp [e])⟩

theorem pers_cut (hf : Plain fmt) {l m : List (α × α)} {t t' : List Char} (ht : Tail t) (ht' : Tail t')
    (h : (commaAnd (l.map (perText fmt))).toList ++ t = (commaAnd (m.map (perText fmt))).toList ++ t') :
    List.Forall₂ (fun p q => Alike fmt p.1 q.1 ∧ Alike fmt p.2 q.2) l m ∧ t = t' := by
  rw [commaAnd_toList, commaAnd_toList] at h
  refine list_cut (R := fun p q => Alike fmt p.1 q.1 ∧ Alike fmt p.2 q.2) (P := fun c => c == 'p') (fun a => ⟨'p', ("eriod " ++ fmt a.1 ++ " and lengthscale " ++ fmt a.2).toList, by simp [perText], rfl⟩) (by decide) (by decide) (fun a b t t' h1 h2 h3 => ?_) ht ht' h
  simp [perText] at h3
  obtain ⟨h4, h5⟩ := num_cut hf (ne_cons (by decide)) (ne_cons (by decide)) h3
  simp at h5
  obtain ⟨h6, h7⟩ := num_cut hf h1.ne h2.ne h5
  exact ⟨⟨h4, h6⟩, h7⟩

theorem poly_cut (hf : Plain fmt) {n n' : Nat} {o o' : Option (List α)} {t t' : List Char} (ht : Tail t) (ht' : Tail t')
    (h : (toString n).toList ++ ((match o with | none => "" | some r => " with roots " ++ commaAnd (r.map fmt)).toList ++ t) =
      (toString n').toList ++ ((match o' with | none => "" | some r => " with roots " ++ commaAnd (r.map fmt)).toList ++ t')) :
    n = n' ∧ Option.Rel (List.Forall₂ (Alike fmt)) o o' ∧ t = t' := by
  have sp : ∀ {r : List Char}, NE (' ' :: r) := ne_cons (by decide)
  cases o <;> cases o' <;> simp at h
  · obtain ⟨h1, h2⟩ := nat_cut ht.sep.ne ht'.sep.ne (by simpa using h)
    exact ⟨h1, .none, h2⟩
  · obtain ⟨h1, h2⟩ := nat_cut ht.sep.ne sp (by simpa using h)
    rw [h2] at ht; exact (sep_space ht.sep).elim
  · obtain ⟨h1, h2⟩ := nat_cut sp ht'.sep.ne (by simpa using h)
    rw [← h2] at ht'; exact (sep_space ht'.sep).elim
  · obtain ⟨h1, h2⟩ := nat_cut sp sp (by simpa using h)
    simp at h2
    obtain ⟨h3, h4⟩ := roots_cut hf ht ht' h2
    exact ⟨h1, .some h3, h4⟩

theorem lin_cut (hf : Plain fmt) {o o' : Option α} {t t' : List Char} (ht : Tail t) (ht' : Tail t')
    (h : (match o with | none => "" | some x => " with horizontal offset " ++ fmt x).toList ++ t =
      (match o' with | none => "" | some x => " with horizontal offset " ++ fmt x).toList ++ t') :
    Option.Rel (Alike fmt) o o' ∧ t = t' := by
  cases o <;> cases o' <;> simp at h
  · exact ⟨.none, h⟩
  · rw [h] at ht; exact (sep_space ht.sep).elim
  · rw [← h] at ht'; exact (sep_space ht'.sep).elim
  · obtain ⟨h1, h2⟩ := num_cut hf ht.sep.ne ht'.sep.ne h
    exact ⟨.some h1, h2⟩

end

end Interp
end GPyABCD
