import Verif.Lemmas.ParamsSides
import Verif.Spec.Params
import Mathlib.Data.List.Basic

/-!
# Names of parameters and the dictionary of them
-/

namespace GPyABCD
namespace Params
open Sops

variable {α : Type}

/-! ## Names -/

/-- No digit and no dot. -/
def plainName (s : Str) : Bool := s.all (fun c => !c.isDigit && decide (c ≠ '.'))

theorem plain_base (cfg : Cfg) {b : Base} {n : Str} (h : baseName cfg b = some n) : plainName n = true := by
  cases b <;> simp only [baseName, Option.some.injEq, reduceCtorEq] at h <;> subst h <;> try decide
  cases cfg.linOffset <;> decide

theorem plain_op (op : Op) : plainName (opName op) = true := by cases op <;> decide
theorem plain_change (c : CC) : plainName (changeName c) = true := by cases c <;> decide

theorem plain_gname (cfg : Cfg) (g : GK α) : plainName (gname cfg g) = true := by
  cases g with
  | base b p =>
    simp only [gname]
    cases h : baseName cfg b with
    | none => rfl
    | some n => exact plain_base cfg h
  | comb op _ => exact plain_op op
  | change c _ _ _ => exact plain_change c

theorem par_nodot (q : Par) : '.' ∉ q.str := by cases q <;> decide

theorem par_inj {q q' : Par} (h : q.str = q'.str) : q = q' := by
  cases q <;> cases q' <;> first | rfl | (exfalso; revert h; decide)

private theorem take_drop_append {p : Char → Bool} {a b : Str} (ha : ∀ c ∈ a, p c = true) (hb : ∀ c ∈ b.head?, p c = false) :
    (a ++ b).takeWhile p = a ∧ (a ++ b).dropWhile p = b := by
  induction a with
  | nil => cases b with
    | nil => simp
    | cons x b => simp [hb x (by simp)]
  | cons x a ih =>
    have := ih (fun c hc => ha c (List.mem_cons_of_mem _ hc))
    simp [ha x (List.mem_cons_self ..), this]

theorem split_unique {p : Char → Bool} {a b a' b' : Str} (ha : ∀ c ∈ a, p c = true) (hb : ∀ c ∈ b.head?, p c = false)
    (ha' : ∀ c ∈ a', p c = true) (hb' : ∀ c ∈ b'.head?, p c = false) (h : a ++ b = a' ++ b') : a = a' ∧ b = b' := by
  have h1 := take_drop_append ha hb
  have h2 := take_drop_append ha' hb'
  rw [h] at h1
  exact ⟨h1.1.symm.trans h2.1, h1.2.symm.trans h2.2⟩

theorem under_inj {c c' e e' : Str} (h : '.' ∉ c) (h' : '.' ∉ c') (he : c ++ '.' :: e = c' ++ '.' :: e') : c = c' ∧ e = e' := by
  have := split_unique (p := fun x => decide (x ≠ '.')) (a := c) (b := '.' :: e) (a' := c') (b' := '.' :: e')
    (fun x hx => by simp; rintro rfl; exact h hx) (by simp) (fun x hx => by simp; rintro rfl; exact h' hx) (by simp) he
  exact ⟨this.1, by simpa using this.2⟩

theorem digits_digit {n : Nat} : ∀ c ∈ Nat.toDigits 10 n, c.isDigit = true := fun _ hc => Nat.isDigit_of_mem_toDigits (by decide) (by decide) hc

theorem digits_inj {m n : Nat} (h : Nat.toDigits 10 m = Nat.toDigits 10 n) : m = n := by
  have := congrArg (fun l => Nat.ofDigitChars 10 l 0) h
  simpa [Nat.ofDigitChars_ten_toDigits] using this

theorem sib_nodot {seen : List Str} {n : Str} (hn : plainName n = true) : '.' ∉ sib seen n := by
  have h : '.' ∉ n := by
    intro h
    simp only [plainName, List.all_eq_true] at hn
    simpa using hn _ h
  unfold sib
  split
  · exact h
  · simp only [List.mem_append, List.mem_cons, not_or]
    exact ⟨h, by decide, fun h2 => by simpa using digits_digit _ h2⟩

theorem sib_inj {seen seen' : List Str} {n n' : Str} (hn : plainName n = true) (hn' : plainName n' = true) (h : sib seen n = sib seen' n') :
    n = n' ∧ seen.count n = seen'.count n' := by
  have H : ∀ m : Str, plainName m = true → ∀ c ∈ m, (!c.isDigit) = true := by
    intro m hm c hc
    simp only [plainName, List.all_eq_true] at hm
    have := hm c hc
    simp only [Bool.and_eq_true] at this
    exact this.1
  have H2 : ∀ m : Str, plainName m = true → ∀ c ∈ m ++ ['_'], (!c.isDigit) = true := by
    intro m hm c hc
    rcases List.mem_append.1 hc with hc | hc
    · exact H m hm c hc
    · simp only [List.mem_singleton] at hc; subst hc; decide
  have H3 : ∀ k, ∀ c ∈ (Nat.toDigits 10 k).head?, (!c.isDigit) = false := by
    intro k c hc
    rw [digits_digit c (List.mem_of_mem_head? hc)]; rfl
  unfold sib at h
  by_cases h1 : seen.count n = 0 <;> by_cases h2 : seen'.count n' = 0
  · rw [if_pos h1, if_pos h2] at h
    exact ⟨h, by rw [h1, h2]⟩
  · rw [if_pos h1, if_neg h2, ← List.append_nil n, show n' ++ '_' :: Nat.toDigits 10 (seen'.count n') = (n' ++ ['_']) ++ Nat.toDigits 10 (seen'.count n') by simp] at h
    have := (split_unique (H n hn) (by simp) (H2 n' hn') (H3 _) h).2
    exact absurd this.symm Nat.toDigits_ne_nil
  · rw [if_neg h1, if_pos h2, ← List.append_nil n', show n ++ '_' :: Nat.toDigits 10 (seen.count n) = (n ++ ['_']) ++ Nat.toDigits 10 (seen.count n) by simp] at h
    have := (split_unique (H2 n hn) (H3 _) (H n' hn') (by simp) h).2
    exact absurd this Nat.toDigits_ne_nil
  · rw [if_neg h1, if_neg h2, show n ++ '_' :: Nat.toDigits 10 (seen.count n) = (n ++ ['_']) ++ Nat.toDigits 10 (seen.count n) by simp,
      show n' ++ '_' :: Nat.toDigits 10 (seen'.count n') = (n' ++ ['_']) ++ Nat.toDigits 10 (seen'.count n') by simp] at h
    have := split_unique (H2 n hn) (H3 _) (H2 n' hn') (H3 _) h
    exact ⟨by simpa using this.1, digits_inj this.2⟩

/-- The postfix the code expects is the one the child has. -/
theorem postfix_sib (seen : List Str) (n key : Str) : n ++ postfixOf (seen.count n + 1) ++ key = sib seen n ++ '.' :: key := by
  unfold postfixOf sib
  by_cases h : seen.count n = 0
  · simp [h]
  · rw [if_pos (by omega), if_neg h]; simp

/-! ## The dictionary -/

theorem pyDict_append (a b : List (Str × α)) (key : Str) : pyDict (a ++ b) key = (pyDict b key).or (pyDict a key) := by
  induction a with
  | nil => simp [pyDict]
  | cons e a ih => obtain ⟨k, v⟩ := e; simp only [List.cons_append, pyDict, ih, Option.or_assoc]

theorem pyDict_none {l : List (Str × α)} {key : Str} (h : ∀ e ∈ l, e.1 ≠ key) : pyDict l key = none := by
  induction l with
  | nil => rfl
  | cons e l ih =>
    obtain ⟨k, v⟩ := e
    rw [pyDict, ih (fun e he => h e (List.mem_cons_of_mem _ he)), if_neg (h _ (List.mem_cons_self ..))]; rfl

theorem pyDict_under {c : Str} (l : List (Str × α)) (key : Str) : pyDict (l.map (under c)) (c ++ '.' :: key) = pyDict l key := by
  induction l with
  | nil => rfl
  | cons e l ih =>
    obtain ⟨k, v⟩ := e
    rw [List.map_cons, under, pyDict, ih, pyDict]
    simp

theorem pyDict_under_ne {c c' : Str} (hc : '.' ∉ c) (hc' : '.' ∉ c') (h : c ≠ c') (l : List (Str × α)) (key : Str) :
    pyDict (l.map (under c)) (c' ++ '.' :: key) = none := by
  refine pyDict_none ?_
  intro e he
  obtain ⟨x, _, rfl⟩ := List.mem_map.1 he
  exact fun h2 => h (under_inj hc hc' h2).1

theorem pyDict_under_par {c : Str} (l : List (Str × α)) (q : Par) : pyDict (l.map (under c)) q.str = none := by
  refine pyDict_none ?_
  intro e he
  obtain ⟨x, _, rfl⟩ := List.mem_map.1 he
  intro h2
  apply par_nodot q
  rw [← h2]; simp [under]

theorem pyDict_own_dot (ps : List Par) (p : PD α) (c key : Str) : pyDict (own ps p) (c ++ '.' :: key) = none := by
  refine pyDict_none ?_
  intro e he
  simp only [own, List.mem_filterMap, Option.map_eq_some_iff] at he
  obtain ⟨q, _, v, _, rfl⟩ := he
  intro h2
  apply par_nodot q
  rw [show q.str = c ++ '.' :: key from h2]; simp

theorem pyDict_own (ps : List Par) (p : PD α) (q : Par) : pyDict (own ps p) q.str = if q ∈ ps then q.get p else none := by
  induction ps with
  | nil => rfl
  | cons q' ps ih =>
    have e : own (q' :: ps) p = ((q'.get p).map (fun v => (q'.str, v))).toList ++ own ps p := by
      simp only [own, List.filterMap_cons]
      cases q'.get p <;> rfl
    rw [e, pyDict_append, ih]
    by_cases h : q = q'
    · subst h
      rw [if_pos (List.mem_cons_self ..)]
      by_cases h2 : q ∈ ps
      · rw [if_pos h2]
        cases hg : q.get p <;> simp [pyDict]
      · rw [if_neg h2]
        cases hg : q.get p <;> simp [pyDict]
    · have hn : pyDict ((q'.get p).map (fun v => (q'.str, v))).toList q.str = none := by
        refine pyDict_none ?_
        intro e he
        simp only [Option.mem_toList, Option.mem_def, Option.map_eq_some_iff] at he
        obtain ⟨v, _, rfl⟩ := he
        exact fun h2 => h (par_inj h2).symm
      rw [hn, Option.or_none]
      simp [h]

/-- Below a child one finds what is below it. -/
theorem pyDict_child (cfg : Cfg) (xs : List (GK α)) (g : GK α) (ys : List (GK α)) (seen : List Str) (key : Str) :
    pyDict (flatL cfg seen (xs ++ g :: ys)) (sib ((xs.map (gname cfg)).reverse ++ seen) (gname cfg g) ++ '.' :: key) = pyDict (flat cfg g) key := by
  have later : ∀ (ys : List (GK α)) (seen' : List Str) (m : Nat), m < seen'.count (gname cfg g) →
      ∀ s : List Str, s.count (gname cfg g) = m → pyDict (flatL cfg seen' ys) (sib s (gname cfg g) ++ '.' :: key) = none := by
    intro ys
    induction ys with
    | nil => intros; rfl
    | cons y ys ih =>
      intro seen' m hm s hs
      rw [flatL, pyDict_append, ih _ m (by rw [List.count_cons]; omega) s hs, Option.none_or]
      refine pyDict_under_ne (sib_nodot (plain_gname _ _)) (sib_nodot (plain_gname _ _)) ?_ _ _
      intro h
      obtain ⟨h1, h2⟩ := sib_inj (plain_gname _ _) (plain_gname _ _) h
      rw [h1] at h2
      omega
  induction xs generalizing seen with
  | nil =>
    simp only [List.nil_append, List.map_nil, List.reverse_nil]
    rw [flatL, pyDict_append, pyDict_under, later ys _ (seen.count (gname cfg g)) (by simp) seen rfl, Option.none_or]
  | cons x xs ih =>
    have e : sib (((x :: xs).map (gname cfg)).reverse ++ seen) (gname cfg g) = sib ((xs.map (gname cfg)).reverse ++ gname cfg x :: seen) (gname cfg g) := by
      simp
    rw [e, List.cons_append, flatL, pyDict_append, ih, pyDict_under_ne (sib_nodot (plain_gname _ _)) (sib_nodot (plain_gname _ _)), Option.or_none]
    intro h
    obtain ⟨h1, h2⟩ := sib_inj (plain_gname _ _) (plain_gname _ _) h
    rw [h1, List.count_append, List.count_cons] at h2
    simp at h2
    omega

theorem nameOf_base_inj {cfg : Cfg} {b b' : Base} {n : Str} (h : baseName cfg b = some n) (h' : baseName cfg b' = some n) : b = b' := by
  cases b <;> cases b' <;> simp only [baseName, Option.some.injEq, reduceCtorEq] at h h' <;> first | rfl | skip
  all_goals
    exfalso
    rw [← h'] at h
    revert h
    cases cfg.linOffset <;> decide

theorem name_base_ne_op {cfg : Cfg} {b : Base} {n : Str} (h : baseName cfg b = some n) (op : Op) : n ≠ opName op := by
  cases b <;> simp only [baseName, Option.some.injEq, reduceCtorEq] at h <;> subst h <;> cases op <;> (try decide) <;> cases cfg.linOffset <;> decide

theorem name_base_ne_change {cfg : Cfg} {b : Base} {n : Str} (h : baseName cfg b = some n) (c : CC) : n ≠ changeName c := by
  cases b <;> simp only [baseName, Option.some.injEq, reduceCtorEq] at h <;> subst h <;> cases c <;> (try decide) <;> cases cfg.linOffset <;> decide

end Params
end GPyABCD
