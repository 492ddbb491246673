import Verif.Lemmas.ShownCut

/-!
# Lemmas: reading back sentences and descriptions
-/

namespace GPyABCD
namespace Interp

theorem key_cut {n : Nat} (keys : Fin n → List Char) (hk : ∀ i j, i ≠ j → (keys i).isPrefixOf (keys j) = false) {i j : Fin n} {x y : List Char}
    (h : keys i ++ x = keys j ++ y) : i = j ∧ x = y := by
  have hij : i = j := by
    by_contra hne
    rcases List.append_eq_append_iff.1 h with ⟨a, h1, _⟩ | ⟨a, h1, _⟩
    · have := hk i j hne
      rw [h1] at this
      have h2 : (keys i).isPrefixOf (keys i ++ a) = true := List.isPrefixOf_iff_prefix.2 ⟨a, rfl⟩
      rw [this] at h2; simp at h2
    · have := hk j i (Ne.symm hne)
      rw [h1] at this
      have h2 : (keys j).isPrefixOf (keys j ++ a) = true := List.isPrefixOf_iff_prefix.2 ⟨a, rfl⟩
      rw [this] at h2; simp at h2
  subst hij
  exact ⟨rfl, List.append_cancel_left h⟩

section
variable {α : Type} {fmt : α → String}

/-! ## First terms -/

/-- The beginnings. -/
def fKey : Fin 7 → List Char
  | 0 => "Uncorrelated noise".toList
  | 1 => "A constant".toList
  | 2 => "A smooth function with lengthscale ".toList
  | 3 => "A periodic function with period ".toList
  | 4 => "A periodic function with main period ".toList
  | 5 => "A linear function".toList
  | 6 => "A polynomial function of order ".toList

theorem fKey_ok : ∀ i j, i ≠ j → (fKey i).isPrefixOf (fKey j) = false := by decide

/-- Which beginning. -/
def fKind : First α → Fin 7
  | .noise => 0
  | .constant => 1
  | .smooth _ => 2
  | .periodic _ _ => 3
  | .periodics _ _ => 4
  | .linear _ => 5
  | .polynomial _ _ => 6

/-- The offset of a linear function as text. -/
def linTxt (fmt : α → String) (o : Option α) : String := match o with | none => "" | some x => " with horizontal offset " ++ fmt x

/-- The roots of a polynomial as text. -/
def rootTxt (fmt : α → String) (o : Option (List α)) : String := match o with | none => "" | some r => " with roots " ++ commaAnd (r.map fmt)

/-- How the number of further periodic functions is told. -/
def moreTxt (l : List (α × α)) : String :=
  if l.length = 1 then "modulated by another periodic function of "
  else "repeatedly modulated by " ++ toString l.length ++ " more periodic functions (by decreasing period) of "

/-- The rest. -/
def fBody (fmt : α → String) (f : First α) : List Char :=
  match f with
  | .noise => []
  | .constant => []
  | .smooth l => (fmt l).toList
  | .periodic p l => (fmt p).toList ++ (" and lengthscale ".toList ++ (fmt l).toList)
  | .periodics m more => (fmt m.1).toList ++ (" and lengthscale ".toList ++ ((fmt m.2).toList ++ (", then ".toList ++
      ((moreTxt more).toList ++ (commaAnd (more.map (perText fmt))).toList))))
  | .linear o => (linTxt fmt o).toList
  | .polynomial n o => (toString n).toList ++ (rootTxt fmt o).toList

theorem linear_text (o : Option α) : First.text fmt (.linear o) = "A linear function" ++ linTxt fmt o := by
  apply String.toList_inj.1
  cases o with
  | none => show "A linear function".toList = _; rw [String.toList_append]; show _ = _ ++ "".toList; simp
  | some x =>
    show ("A linear function with horizontal offset " ++ fmt x).toList = ("A linear function" ++ (" with horizontal offset " ++ fmt x)).toList
    rw [String.toList_append, String.toList_append, String.toList_append, ← List.append_assoc]; rfl

theorem poly_text (n : Nat) (o : Option (List α)) :
    First.text fmt (.polynomial n o) = "A polynomial function of order " ++ toString n ++ rootTxt fmt o := by
  apply String.toList_inj.1
  cases o with
  | none => show ("A polynomial function of order " ++ toString n).toList = _; rw [String.toList_append (s := _ ++ _)]; show _ = _ ++ "".toList; simp
  | some x =>
    show ("A polynomial function of order " ++ toString n ++ " with roots " ++ commaAnd (x.map fmt)).toList =
      ("A polynomial function of order " ++ toString n ++ (" with roots " ++ commaAnd (x.map fmt))).toList
    simp only [String.toList_append, List.append_assoc]

theorem first_toList (f : First α) : (f.text fmt).toList = fKey (fKind f) ++ fBody fmt f := by
  cases f with
  | noise => show _ = _ ++ []; rw [List.append_nil]; rfl
  | constant => show _ = _ ++ []; rw [List.append_nil]; rfl
  | smooth l => show ("A smooth function with lengthscale " ++ fmt l).toList = _; rw [String.toList_append]; rfl
  | periodic p l =>
    show ("A periodic function with period " ++ fmt p ++ " and lengthscale " ++ fmt l).toList = _
    simp only [String.toList_append, List.append_assoc]; rfl
  | periodics m more =>
    show ("A periodic function with main period " ++ fmt m.1 ++ " and lengthscale " ++ fmt m.2 ++ ", then " ++ moreTxt more ++
      commaAnd (more.map (perText fmt))).toList = _
    simp only [String.toList_append, List.append_assoc]; rfl
  | linear o => rw [linear_text, String.toList_append]; rfl
  | polynomial n o => rw [poly_text]; simp only [String.toList_append, List.append_assoc]; rfl

theorem lin_cut' (hf : Plain fmt) {o o' : Option α} {t t' : List Char} (ht : Tail t) (ht' : Tail t')
    (h : (linTxt fmt o).toList ++ t = (linTxt fmt o').toList ++ t') : Option.Rel (Alike fmt) o o' ∧ t = t' := lin_cut hf ht ht' h

theorem poly_cut' (hf : Plain fmt) {n n' : Nat} {o o' : Option (List α)} {t t' : List Char} (ht : Tail t) (ht' : Tail t')
    (h : (toString n).toList ++ ((rootTxt fmt o).toList ++ t) = (toString n').toList ++ ((rootTxt fmt o').toList ++ t')) :
    n = n' ∧ Option.Rel (List.Forall₂ (Alike fmt)) o o' ∧ t = t' := poly_cut hf ht ht' h

theorem more_cut {l m : List (α × α)} {t t' : List Char} (h : (moreTxt l).toList ++ t = (moreTxt m).toList ++ t') : t = t' := by
  have n1 : ∀ {r : List Char}, NE (" more periodic functions (by decreasing period) of ".toList ++ r) := ne_lit (by decide)
  have d1 : ∀ {r r' : List Char}, "modulated by another periodic function of ".toList ++ r = "repeatedly modulated by ".toList ++ r' → False := by
    intro r r'; simp
  unfold moreTxt at h
  split at h <;> split at h
  · exact List.append_cancel_left h
  · simp only [String.toList_append, List.append_assoc] at h; exact (d1 h).elim
  · simp only [String.toList_append, List.append_assoc] at h; exact (d1 h.symm).elim
  · simp only [String.toList_append, List.append_assoc] at h
    exact List.append_cancel_left (nat_cut n1 n1 (List.append_cancel_left h)).2

theorem first_cut (hf : Plain fmt) {f f' : First α} {t t' : List Char} (ht : Tail t) (ht' : Tail t')
    (h : (f.text fmt).toList ++ t = (f'.text fmt).toList ++ t') : First.Rel (Alike fmt) f f' ∧ t = t' := by
  have n1 : ∀ {r : List Char}, NE (" and lengthscale ".toList ++ r) := ne_lit (by decide)
  have n2 : ∀ {r : List Char}, NE (", then ".toList ++ r) := ne_lit (by decide)
  rw [first_toList, first_toList, List.append_assoc, List.append_assoc] at h
  obtain ⟨hk, h⟩ := key_cut fKey fKey_ok h
  cases f <;> cases f' <;> first | (exfalso; revert hk; simp only [fKind]; decide) | skip
  · exact ⟨.noise, h⟩
  · exact ⟨.constant, h⟩
  · obtain ⟨h1, h2⟩ := num_cut hf ht.sep.ne ht'.sep.ne h
    exact ⟨.smooth h1, h2⟩
  · simp only [fBody, List.append_assoc] at h
    obtain ⟨h1, h2⟩ := num_cut hf n1 n1 h
    obtain ⟨h3, h4⟩ := num_cut hf ht.sep.ne ht'.sep.ne (List.append_cancel_left h2)
    exact ⟨.periodic h1 h3, h4⟩
  · simp only [fBody, List.append_assoc] at h
    obtain ⟨h1, h2⟩ := num_cut hf n1 n1 h
    obtain ⟨h3, h4⟩ := num_cut hf n2 n2 (List.append_cancel_left h2)
    obtain ⟨h5, h6⟩ := pers_cut hf ht ht' (more_cut (List.append_cancel_left h4))
    exact ⟨.periodics h1 h3 h5, h6⟩
  · obtain ⟨h1, h2⟩ := lin_cut' hf ht ht' h
    exact ⟨.linear h1, h2⟩
  · simp only [fBody, List.append_assoc] at h
    obtain ⟨h1, h2, h3⟩ := poly_cut' hf ht ht' h
    subst h1
    exact ⟨.polynomial h2, h3⟩

/-! ## Modifiers and the end -/

/-- The beginnings of modifiers and of the end of a sentence. -/
def mKey : Fin 6 → List Char
  | 0 => ", whose shape changes smoothly with lengthscale ".toList
  | 1 => ", with linearly varying amplitude".toList
  | 2 => ", with polynomially varying amplitude of order ".toList
  | 3 => "; this component applies ".toList
  | 4 => ", and it has overall variance ".toList
  | 5 => "; this component has overall variance ".toList

theorem mKey_ok : ∀ i j, i ≠ j → (mKey i).isPrefixOf (mKey j) = false := by decide

/-- Which beginning. -/
def mKind : Modifier α → Fin 6
  | .smooth _ => 0
  | .linear _ => 1
  | .polynomial _ _ => 2
  | .intervals _ => 3

/-- The rest. -/
def mBody (fmt : α → String) (m : Modifier α) : List Char :=
  match m with
  | .smooth l => (fmt l).toList
  | .linear o => (linTxt fmt o).toList
  | .polynomial n o => (toString n).toList ++ (rootTxt fmt o).toList
  | .intervals l => (commaAnd (l.map (IvlText.text fmt))).toList

theorem mod_toList (m : Modifier α) : (m.joined fmt).toList = mKey (mKind m) ++ mBody fmt m := by
  cases m with
  | smooth l =>
    show (", " ++ ("whose shape changes smoothly with lengthscale " ++ fmt l)).toList = _
    simp only [String.toList_append, ← List.append_assoc]; rfl
  | linear o =>
    cases o with
    | none => show (", " ++ "with linearly varying amplitude").toList = _ ++ "".toList; rw [String.toList_append]; rfl
    | some x =>
      show (", " ++ ("with linearly varying amplitude with horizontal offset " ++ fmt x)).toList = _ ++ (" with horizontal offset " ++ fmt x).toList
      simp only [String.toList_append, ← List.append_assoc]; rfl
  | polynomial n o =>
    cases o with
    | none =>
      show (", " ++ ("with polynomially varying amplitude of order " ++ toString n)).toList = _ ++ (_ ++ "".toList)
      simp only [String.toList_append, ← List.append_assoc, String.toList_empty, List.append_nil]; rfl
    | some x =>
      show (", " ++ ("with polynomially varying amplitude of order " ++ toString n ++ " with roots " ++ commaAnd (x.map fmt))).toList =
        _ ++ (_ ++ (" with roots " ++ commaAnd (x.map fmt)).toList)
      simp only [String.toList_append, ← List.append_assoc]; rfl
  | intervals l => show ("; this component applies " ++ commaAnd (l.map (IvlText.text fmt))).toList = _; rw [String.toList_append]; rfl

/-- The end. -/
def eKind (b : Bool) : Fin 6 := if b then 4 else 5

theorem end_toList (b : Bool) : ((if b then ", and it" else "; this component") ++ " has overall variance ").toList = mKey (eKind b) := by
  cases b <;> rfl

/-- The text of modifiers and end. -/
def endL (fmt : α → String) (b : Bool) (v : α) : List (Modifier α) → List Char
  | [] => mKey (eKind b) ++ (fmt v).toList
  | m :: ms => mKey (mKind m) ++ (mBody fmt m ++ endL fmt b v ms)

theorem mKey_tail (i : Fin 6) (r : List Char) : Tail (mKey i ++ r) := by
  match i with
  | 0 => exact Or.inr (Or.inl ⟨_, rfl⟩)
  | 1 => exact Or.inr (Or.inl ⟨_, rfl⟩)
  | 2 => exact Or.inr (Or.inl ⟨_, rfl⟩)
  | 3 => exact Or.inl ⟨_, rfl⟩
  | 4 => exact Or.inr (Or.inr ⟨_, rfl⟩)
  | 5 => exact Or.inl ⟨_, rfl⟩

theorem endL_tail (b : Bool) (v : α) (ms : List (Modifier α)) (t : List Char) : Tail (endL fmt b v ms ++ t) := by
  cases ms <;> simp only [endL, List.append_assoc] <;> exact mKey_tail _ _

theorem mods_cut (hf : Plain fmt) {b b' : Bool} {v v' : α} {t t' : List Char} (ht : NE t) (ht' : NE t') :
    ∀ (ms ms' : List (Modifier α)), endL fmt b v ms ++ t = endL fmt b' v' ms' ++ t' →
      List.Forall₂ (Modifier.Rel (Alike fmt)) ms ms' ∧ b = b' ∧ fmt v = fmt v' ∧ t = t' := by
  intro ms
  induction ms with
  | nil =>
    intro ms' h
    cases ms' with
    | nil =>
      simp only [endL, List.append_assoc] at h
      obtain ⟨hk, h⟩ := key_cut mKey mKey_ok h
      obtain ⟨h1, h2⟩ := num_cut hf ht ht' h
      refine ⟨.nil, ?_, h1, h2⟩
      cases b <;> cases b' <;> first | rfl | exact absurd hk (by decide)
    | cons m ms' =>
      simp only [endL, List.append_assoc] at h
      obtain ⟨hk, _⟩ := key_cut mKey mKey_ok h
      cases b <;> cases m <;> exact absurd hk (by simp [eKind, mKind])
  | cons m ms ih =>
    intro ms' h
    cases ms' with
    | nil =>
      simp only [endL, List.append_assoc] at h
      obtain ⟨hk, _⟩ := key_cut mKey mKey_ok h
      cases b' <;> cases m <;> exact absurd hk (by simp [eKind, mKind])
    | cons m' ms' =>
      simp only [endL, List.append_assoc] at h
      obtain ⟨hk, h⟩ := key_cut mKey mKey_ok h
      have T := endL_tail (fmt := fmt) b v ms t
      have T' := endL_tail (fmt := fmt) b' v' ms' t'
      suffices Modifier.Rel (Alike fmt) m m' ∧ endL fmt b v ms ++ t = endL fmt b' v' ms' ++ t' by
        obtain ⟨h1, h2, h3, h4⟩ := ih ms' this.2
        exact ⟨.cons this.1 h1, h2, h3, h4⟩
      cases m <;> cases m' <;> first | (exfalso; revert hk; simp only [mKind]; decide) | skip
      · obtain ⟨h1, h2⟩ := num_cut hf T.sep.ne T'.sep.ne h
        exact ⟨.smooth h1, h2⟩
      · obtain ⟨h1, h2⟩ := lin_cut' hf T T' h
        exact ⟨.linear h1, h2⟩
      · simp only [mBody, List.append_assoc] at h
        obtain ⟨h1, h2, h3⟩ := poly_cut' hf T T' h
        subst h1
        exact ⟨.polynomial h2, h3⟩
      · obtain ⟨h1, h2⟩ := ivls_cut hf T T' h
        exact ⟨.intervals h1, h2⟩

theorem join_toList (l : List String) : (String.join l).toList = l.flatMap String.toList := by
  induction l with
  | nil => rfl
  | cons a l ih => rw [String.join_cons, String.toList_append, ih]; rfl

theorem sentence_toList (s : Sentence α) : (s.text fmt).toList = (s.first.text fmt).toList ++ endL fmt s.bounded s.var s.mods := by
  have key : ∀ ms : List (Modifier α), (String.join (ms.map (Modifier.joined fmt))).toList ++ (mKey (eKind s.bounded) ++ (fmt s.var).toList) =
      endL fmt s.bounded s.var ms := by
    intro ms
    induction ms with
    | nil => rfl
    | cons m ms ih =>
      rw [join_toList] at ih ⊢
      simp only [List.map_cons, List.flatMap_cons, List.append_assoc, ih, endL, mod_toList]
  rw [← key s.mods, ← end_toList, Sentence.text]
  simp only [String.toList_append, List.append_assoc]

theorem sentence_cut (hf : Plain fmt) {s s' : Sentence α} {t t' : List Char} (ht : NE t) (ht' : NE t')
    (h : (s.text fmt).toList ++ t = (s'.text fmt).toList ++ t') : Sentence.Rel (Alike fmt) s s' ∧ t = t' := by
  rw [sentence_toList, sentence_toList, List.append_assoc, List.append_assoc] at h
  obtain ⟨h1, h2⟩ := first_cut hf (endL_tail _ _ _ _) (endL_tail _ _ _ _) h
  obtain ⟨h3, h4, h5, h6⟩ := mods_cut hf ht ht' _ _ h2
  exact ⟨⟨h1, h3, h4, h5⟩, h6⟩

theorem sentences_cut (hf : Plain fmt) : ∀ (l m : List (Sentence α)),
    (String.join (l.map (fun s => "\n\t" ++ s.text fmt))).toList = (String.join (m.map (fun s => "\n\t" ++ s.text fmt))).toList →
      List.Forall₂ (Sentence.Rel (Alike fmt)) l m := by
  intro l
  induction l with
  | nil =>
    intro m h
    cases m with
    | nil => exact .nil
    | cons s m => simp [join_toList, String.toList_append] at h
  | cons s l ih =>
    intro m h
    cases m with
    | nil => simp [join_toList, String.toList_append] at h
    | cons s' m =>
      have hne : ∀ l : List (Sentence α), NE (String.join (l.map (fun s => "\n\t" ++ s.text fmt))).toList := by
        intro l
        rw [join_toList]
        cases l with
        | nil => intro c hc; simp at hc
        | cons s l =>
          simp only [List.map_cons, List.flatMap_cons, String.toList_append, List.append_assoc]
          exact ne_lit (by decide)
      rw [List.map_cons, List.map_cons, String.join_cons, String.join_cons] at h
      simp only [String.toList_append, List.append_assoc] at h
      obtain ⟨h1, h2⟩ := sentence_cut hf (hne l) (hne m) (List.append_cancel_left h)
      exact .cons h1 (ih m h2)

end

end Interp
end GPyABCD
