import Verif.Props.Interp
import Verif.Spec.Text

/-!
# Property C47: the words and numbers of a description
-/

namespace GPyABCD
namespace Interp

private theorem says_one (a p b : String) : Says (a ++ p ++ b) [p] := .next a p b [] (.done b)

private theorem says_end (a p : String) : Says (a ++ p) [p] := by
  have := says_one a p ""
  rwa [String.append_empty] at this

private theorem says_pre (a : String) {t : String} {ps : List String} (h : Says t ps) : Says (a ++ t) ps := by
  cases h with
  | done => exact .done _
  | next b p t ps h =>
    have := Says.next (a ++ b) p t ps h
    simpa only [String.append_assoc] using this

private theorem says_append {t t' : String} {ps ps' : List String} (h : Says t ps) (h' : Says t' ps') : Says (t ++ t') (ps ++ ps') := by
  induction h with
  | done a => exact says_pre a h'
  | next a p t ps _ ih =>
    have := Says.next a p _ _ ih
    simpa only [String.append_assoc, List.cons_append] using this

private theorem says_post {t : String} {ps : List String} (b : String) (h : Says t ps) : Says (t ++ b) ps := by
  simpa using says_append h (.done b)

private theorem says_lit (t a p b : String) (h : t = a ++ p ++ b) : Says t [p] := h ▸ says_one a p b

private theorem says_join {β : Type} (f : β → String) (w : β → List String) (l : List β) (h : ∀ x ∈ l, Says (f x) (w x)) :
    Says (String.join (l.map f)) (l.flatMap w) := by
  induction l with
  | nil => exact .done _
  | cons x xs ih =>
    rw [List.map_cons, String.join_cons, List.flatMap_cons]
    exact says_append (h x (by simp)) (ih fun y hy => h y (by simp [hy]))

private theorem says_intercalate (sep : String) (ts : List String) (ws : List (List String)) (h : List.Forall₂ Says ts ws) :
    Says (sep.intercalate ts) ws.flatten := by
  induction h with
  | nil => exact .done _
  | cons h1 h2 ih =>
    cases h2 with
    | nil => simpa using h1
    | cons h3 h4 =>
      rw [String.intercalate_cons_cons, List.flatten_cons]
      exact says_append (says_post _ h1) ih

private theorem says_commaAnd {β : Type} (f : β → String) (w : β → List String) (l : List β) (h : ∀ x ∈ l, Says (f x) (w x)) :
    Says (commaAnd (l.map f)) (l.flatMap w) := by
  unfold commaAnd
  rw [List.flatMap]
  refine says_intercalate _ _ _ ?_
  have h0 : ∀ l : List β, (∀ x ∈ l, Says (f x) (w x)) → List.Forall₂ Says (l.map f) (l.map w) := by
    intro l hl
    induction l with
    | nil => exact .nil
    | cons x xs ih => exact .cons (hl x (by simp)) (ih fun y hy => hl y (by simp [hy]))
  split
  · rcases List.eq_nil_or_concat l with rfl | ⟨l', x, rfl⟩
    · exact .nil
    · simp only [List.concat_eq_append, List.map_append, List.map_cons, List.map_nil, List.dropLast_concat, List.getLast?_concat, Option.toList_some] at h ⊢
      exact List.rel_append (h0 l' fun y hy => h y (by simp [hy])) (.cons (says_pre _ (h x (by simp))) .nil)
  · exact h0 l h

private theorem says_cast {t t' : String} {ps : List String} (h : Says t' ps) (e : t = t') : Says t ps := e ▸ h

variable {α : Type} (fmt : α → String)

private theorem says_ivl (i : IvlText α) : Says (i.text fmt) (i.words fmt) := by
  match i with
  | .until e none =>
    exact says_cast (.next "" "until" _ _ (says_end " " (fmt e))) (by unfold IvlText.text; apply String.toList_injective; simp)
  | .until e (some a) =>
    exact says_cast (.next "" "until" _ _ (.next " " (fmt e) _ _ (.next " (with change " "slope" _ _ (says_one " " (fmt a) ")")))) (by unfold IvlText.text; apply String.toList_injective; simp)
  | .from e none =>
    exact says_cast (.next "" "from" _ _ (says_end " " (fmt e))) (by unfold IvlText.text; apply String.toList_injective; simp)
  | .from e (some a) =>
    exact says_cast (.next "" "from" _ _ (.next " " (fmt e) _ _ (.next " (with change " "slope" _ _ (says_one " " (fmt a) ")")))) (by unfold IvlText.text; apply String.toList_injective; simp)
  | .between b e .none =>
    exact says_cast (.next "" "between" _ _ (.next " " (fmt b) _ _ (says_end " and " (fmt e)))) (by unfold IvlText.text; apply String.toList_injective; simp)
  | .between b e (.same a) =>
    exact says_cast (.next "" "between" _ _ (.next " " (fmt b) _ _ (.next " and " (fmt e) _ _ (.next " (with same change " "slope" _ _
      (says_one "s " (fmt a) ")"))))) (by unfold IvlText.text; apply String.toList_injective; simp)
  | .between b e (.two a a') =>
    exact says_cast (.next "" "between" _ _ (.next " " (fmt b) _ _ (.next " and " (fmt e) _ _ (.next " (with change " "slope" _ _
      (.next "s " (fmt a) _ _ (says_one " and " (fmt a') ")")))))) (by unfold IvlText.text; apply String.toList_injective; simp)

private theorem says_per (p : α × α) : Says (perText fmt p) ["period", fmt p.1, "lengthscale", fmt p.2] :=
  says_cast (.next "" "period" _ _ (.next " " (fmt p.1) _ _ (.next " and " "lengthscale" _ _ (says_end " " (fmt p.2))))) (by unfold perText; apply String.toList_injective; simp)

private theorem says_fmt (x : α) : Says (fmt x) [fmt x] := says_cast (says_end "" (fmt x)) (by simp)

private theorem says_roots (r : List α) : Says (commaAnd (r.map fmt)) (r.map fmt) := by
  have := says_commaAnd fmt (fun x => [fmt x]) r (fun x _ => says_fmt fmt x)
  rwa [← List.map_eq_flatMap] at this

private theorem says_first (f : First α) : Says (f.text fmt) (f.words fmt) := by
  match f with
  | .noise => exact says_cast (says_end "Uncorrelated " "noise") (by unfold First.text; simp)
  | .constant => exact says_cast (says_end "A " "constant") (by unfold First.text; simp)
  | .smooth l =>
    exact says_cast (.next "A " "smooth" _ _ (.next " function with " "lengthscale" _ _ (says_end " " (fmt l)))) (by unfold First.text; apply String.toList_injective; simp)
  | .periodic p l =>
    exact says_cast (.next "A " "periodic" _ _ (.next " function with " "period" _ _ (.next " " (fmt p) _ _ (.next " and " "lengthscale" _ _
      (says_end " " (fmt l)))))) (by unfold First.text; apply String.toList_injective; simp)
  | .periodics m more =>
    have h1 : Says ("A periodic function with main period " ++ fmt m.1 ++ " and lengthscale " ++ fmt m.2 ++ ", then ")
        ["periodic", "period", fmt m.1, "lengthscale", fmt m.2] :=
      says_cast (.next "A " "periodic" _ _ (.next " function with main " "period" _ _ (.next " " (fmt m.1) _ _ (.next " and " "lengthscale" _ _
        (says_one " " (fmt m.2) ", then "))))) (by apply String.toList_injective; simp)
    have h2 : Says (if more.length = 1 then "modulated by another periodic function of "
        else "repeatedly modulated by " ++ toString more.length ++ " more periodic functions (by decreasing period) of ")
        (if more.length = 1 then ["another"] else [toString more.length]) := by
      split
      · exact says_cast (says_one "modulated by " "another" " periodic function of ") (by simp)
      · exact says_one _ _ _
    exact says_append (says_append h1 h2) (says_commaAnd _ _ more (fun p _ => says_per fmt p))
  | .linear none => exact says_cast (says_one "A " "linear" " function") (by unfold First.text; simp)
  | .linear (some o) =>
    exact says_cast (.next "A " "linear" _ _ (.next " function with horizontal " "offset" _ _ (says_end " " (fmt o)))) (by unfold First.text; apply String.toList_injective; simp)
  | .polynomial n none =>
    exact says_cast (.next "A " "polynomial" _ _ (says_end " function of order " (toString n))) (by unfold First.text; apply String.toList_injective; simp)
  | .polynomial n (some r) =>
    exact says_cast (.next "A " "polynomial" _ _ (.next " function of order " (toString n) _ _ (.next " with " "roots" _ _
      (says_pre " " (says_roots fmt r))))) (by unfold First.text; apply String.toList_injective; simp)

private theorem says_mod (m : Modifier α) : Says (m.joined fmt) (m.words fmt) := by
  match m with
  | .smooth l =>
    exact says_cast (.next ", whose shape changes " "smooth" _ _ (.next "ly with " "lengthscale" _ _ (says_end " " (fmt l)))) (by unfold Modifier.joined Modifier.text; apply String.toList_injective; simp)
  | .linear none => exact says_cast (says_one ", with " "linear" "ly varying amplitude") (by unfold Modifier.joined Modifier.text; simp)
  | .linear (some o) =>
    exact says_cast (.next ", with " "linear" _ _ (.next "ly varying amplitude with horizontal " "offset" _ _ (says_end " " (fmt o)))) (by unfold Modifier.joined Modifier.text; apply String.toList_injective; simp)
  | .polynomial n none =>
    exact says_cast (.next ", with " "polynomial" _ _ (says_end "ly varying amplitude of order " (toString n))) (by unfold Modifier.joined Modifier.text; apply String.toList_injective; simp)
  | .polynomial n (some r) =>
    exact says_cast (.next ", with " "polynomial" _ _ (.next "ly varying amplitude of order " (toString n) _ _ (.next " with " "roots" _ _
      (says_pre " " (says_roots fmt r))))) (by unfold Modifier.joined Modifier.text; apply String.toList_injective; simp)
  | .intervals l =>
    exact says_cast (.next "; this component " "applies" _ _ (says_pre " " (says_commaAnd _ _ l (fun i _ => says_ivl fmt i)))) (by unfold Modifier.joined Modifier.text; apply String.toList_injective; simp)

end Interp

open Interp Sops

/-- C47. The text of a sentence has, in this order: a word for every term it mentions, followed by the numbers of that term; a word for the
intervals, and for each interval whether it reaches up to, starts at or lies between its ends, the ends and slopes; and the variance. So no
term, number or interval of the sentence is lost on the way to the text. -/
theorem C47_words {α : Type} (fmt : α → String) (s : Sentence α) : Says (s.text fmt) (s.words fmt) := by
  have h1 := says_append (says_first fmt s.first) (says_join (Modifier.joined fmt) (Modifier.words fmt) s.mods (fun m _ => says_mod fmt m))
  have h2 : Says ((if s.bounded then ", and it" else "; this component") ++ " has overall variance " ++ fmt s.var) ["variance", fmt s.var] :=
    says_cast (.next ((if s.bounded then ", and it" else "; this component") ++ " has overall ") "variance" _ _ (says_end " " (fmt s.var)))
      (by apply String.toList_injective; simp)
  exact says_cast (says_append h1 h2) (by unfold Sentence.text; apply String.toList_injective; simp)

/-- Two roots and two intervals. -/
example (fmt : Nat → String) : Says (Sentence.text fmt ⟨.polynomial 2 (some [3, 4]), [.intervals [.until 5 none, .between 6 7 (.same 8)]], true, 9⟩)
    ["polynomial", toString 2, "roots", fmt 3, fmt 4, "applies", "until", fmt 5, "between", fmt 6, fmt 7, "slope", fmt 8, "variance", fmt 9] :=
  C47_words fmt ⟨.polynomial 2 (some [3, 4]), [.intervals [.until 5 none, .between 6 7 (.same 8)]], true, 9⟩

/-- And a text does not say what is not in it. -/
example : ¬ Says "until 5" ["from"] := by
  intro h
  generalize ht : "until 5" = t at h
  cases h with
  | next a p t ps _ =>
    have h1 := congrArg String.toList ht
    simp only [String.toList_append] at h1
    have h2 : 'm' ∈ "until 5".toList := by rw [h1]; simp
    simp at h2

end GPyABCD
