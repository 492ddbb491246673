import Verif.Spec.Bench
import Mathlib.Data.List.Sort
import Mathlib.Tactic.FieldSimp
import Mathlib.Tactic.Linarith
import Mathlib.Algebra.Order.BigOperators.Group.List

/-!
# Lemmas on benchmark tables
-/

namespace GPyABCD
namespace Bench

variable {K : Type} [Field K] [LinearOrder K]

/-- The row of a function, without the exceptions. -/
def summary (f : String × List K) : Row K :=
  ⟨f.1, f.2.sum / f.2.length, f.2.tail.sum / ((f.2.length - 1 : Nat) : K), f.2.getD 0 0, f.2.getD 1 0, f.2.getD 2 0⟩

/-- The lines of a table, without the exceptions and the filters. -/
def lines (first : Row K) : K → K → List (Row K) → List (Line K)
  | _, _, [] => []
  | last, last1, r :: rs =>
    ⟨r.name, r.mean, r.mean1, r.mean / first.mean, r.mean1 / first.mean1, r.mean / last, r.mean1 / last1, r.t0, r.t1, r.t2⟩ ::
      lines first r.mean r.mean1 rs

/-- The row a line was made of. -/
def Line.row (l : Line K) : Row K := ⟨l.name, l.mean, l.mean1, l.t0, l.t1, l.t2⟩

theorem lines_row (first : Row K) : ∀ (rs : List (Row K)) (a b : K), (lines first a b rs).map Line.row = rs
  | [], _, _ => rfl
  | r :: rs, a, b => by simp only [lines, List.map_cons, lines_row first rs]; rfl

theorem row_ok [IsStrictOrderedRing K] {f : String × List K} (h : 3 ≤ f.2.length) : row f = .ok (summary f) := by
  obtain ⟨n, ts⟩ := f
  match ts, h with
  | t0 :: t1 :: t2 :: ts, _ =>
    have h1 : ((List.length (t0 :: t1 :: t2 :: ts) : Nat) : K) ≠ 0 := Nat.cast_ne_zero.2 (by simp)
    have h2 : ((List.length (t0 :: t1 :: t2 :: ts) - 1 : Nat) : K) ≠ 0 := Nat.cast_ne_zero.2 (by simp)
    simp only [row, pyDiv, if_neg h1, if_neg h2]
    rfl

theorem rows_ok [IsStrictOrderedRing K] : ∀ {fs : List (String × List K)}, (∀ f ∈ fs, 3 ≤ f.2.length) → rows fs = .ok (fs.map summary)
  | [], _ => rfl
  | f :: fs, h => by
    have e := rows_ok (fs := fs) (fun g hg => h g (List.mem_cons_of_mem _ hg))
    simp only [rows, row_ok (h f (by simp)), e]
    rfl

theorem ratios_ok {first : Row K} (h : first.mean ≠ 0) (h1 : first.mean1 ≠ 0) : ∀ (rs : List (Row K)) {last last1 : K}, last ≠ 0 → last1 ≠ 0 →
    (∀ r ∈ rs, r.mean ≠ 0) → ratios first last last1 rs = .ok (lines first last last1 (rs.filter fun r => decide (r.mean1 ≠ 0)))
  | [], _, _, _, _, _ => rfl
  | r :: rs, last, last1, hl, hl1, hr => by
    have e : r.mean ≠ 0 := hr r (by simp)
    have e' : r.mean / last ≠ 0 := div_ne_zero e hl
    have IH := @ratios_ok first h h1 rs
    by_cases h0 : r.mean1 = 0
    · simp only [ratios, pyDiv, if_neg hl, if_neg hl1, bind, Except.bind, if_neg e', h0, zero_div, if_true]
      rw [IH hl hl1 (fun x hx => hr x (by simp [hx])), List.filter_cons_of_neg (by simp [h0])]
    · simp only [ratios, pyDiv, if_neg hl, if_neg hl1, bind, Except.bind, if_neg e', if_neg e, if_neg h0, if_neg (div_ne_zero h0 hl1), if_neg h, if_neg h1]
      rw [IH e h0 (fun x hx => hr x (by simp [hx])), List.filter_cons_of_pos (by simp [h0])]
      rfl

theorem ratios_zero (r : Row K) (h : r.mean = 0 ∨ r.mean1 = 0) (rs : List (Row K)) : ratios r r.mean r.mean1 (r :: rs) = .error .zeroDivision := by
  by_cases h0 : r.mean = 0
  · simp only [ratios, pyDiv, if_pos h0, bind, Except.bind]
  · have h1 : r.mean1 = 0 := h.resolve_left h0
    simp only [ratios, pyDiv, if_neg h0, bind, Except.bind, if_neg (div_ne_zero h0 h0), if_pos h1]

/-- What `finish` sorts. -/
theorem sorted_rows (rs : List (Row K)) : (rs.insertionSort (fun a b => a.mean ≤ b.mean)).Pairwise (fun a b => a.mean ≤ b.mean) := by
  haveI : Std.Total (fun a b : Row K => a.mean ≤ b.mean) := ⟨fun a b => le_total a.mean b.mean⟩
  haveI : IsTrans (Row K) (fun a b : Row K => a.mean ≤ b.mean) := ⟨fun a b c h h' => le_trans h h'⟩
  exact List.pairwise_insertionSort _ rs

theorem mem_lines {first : Row K} : ∀ {rs : List (Row K)} {a b : K} {l : Line K}, l ∈ lines first a b rs →
    l.row ∈ rs ∧ l.best = l.mean / first.mean ∧ l.best1 = l.mean1 / first.mean1
  | r :: rs, a, b, l, h => by
    rcases List.mem_cons.1 h with rfl | h
    · exact ⟨List.mem_cons_self, rfl, rfl⟩
    · have := mem_lines h
      exact ⟨List.mem_cons_of_mem _ this.1, this.2⟩

theorem lines_next {first : Row K} : ∀ {rs : List (Row K)} {a b : K} (i : Nat) {x y : Line K}, (lines first a b rs)[i]? = some x →
    (lines first a b rs)[i + 1]? = some y → y.next = y.mean / x.mean ∧ y.next1 = y.mean1 / x.mean1
  | [], _, _, _, _, _, h, _ => by simp [lines] at h
  | r :: rs, a, b, 0, x, y, h, h' => by
    simp only [lines, List.getElem?_cons_zero, Option.some.injEq] at h
    subst h
    match rs, h' with
    | r' :: rs, h' =>
      simp only [lines, List.getElem?_cons_succ, List.getElem?_cons_zero, Option.some.injEq] at h'
      subst h'
      exact ⟨rfl, rfl⟩
  | r :: rs, a, b, i + 1, x, y, h, h' => by
    simp only [lines, List.getElem?_cons_succ] at h h'
    exact lines_next i h h'

/-- The lines made of positive rows say the right ratios. -/
theorem compared_lines {r : Row K} {rs : List (Row K)} (h : ∀ x ∈ r :: rs, x.mean ≠ 0 ∧ x.mean1 ≠ 0) : Compared (lines r r.mean r.mean1 (r :: rs)) := by
  have hr := h r (by simp)
  refine ⟨fun a ha b hb => ?_, fun i a b ha hb => ?_, fun a ha => ?_⟩
  · simp only [lines, List.head?_cons, Option.mem_def, Option.some.injEq] at ha
    subst ha
    obtain ⟨_, e, e1⟩ := mem_lines hb
    exact ⟨by rw [e, div_mul_cancel₀ _ hr.1], by rw [e1, div_mul_cancel₀ _ hr.2]⟩
  · obtain ⟨e, e1⟩ := lines_next i ha hb
    have : a.mean ≠ 0 ∧ a.mean1 ≠ 0 := h _ (mem_lines (List.mem_of_getElem? ha)).1
    exact ⟨by rw [e, div_mul_cancel₀ _ this.1], by rw [e1, div_mul_cancel₀ _ this.2]⟩
  · simp only [lines, List.head?_cons, Option.mem_def, Option.some.injEq] at ha
    subst ha
    exact ⟨div_self hr.1, div_self hr.2⟩

theorem ordered_of_rows {ls : List (Line K)} (h : (ls.map Line.row).Pairwise (fun a b => a.mean ≤ b.mean)) : Ordered ls := by
  exact (List.pairwise_map (f := Line.row) (R := fun a b : Row K => a.mean ≤ b.mean)).1 h

theorem reports_summary [IsStrictOrderedRing K] {f : String × List K} (h : 3 ≤ f.2.length) {l : Line K} (e : l.row = summary f) : Reports f l := by
  obtain ⟨n, ts⟩ := f
  match ts, h with
  | t0 :: t1 :: t2 :: ts, h =>
    have h1 : ((List.length (t0 :: t1 :: t2 :: ts) : Nat) : K) ≠ 0 := Nat.cast_ne_zero.2 (by simp)
    have h2 : ((List.length (t0 :: t1 :: t2 :: ts) - 1 : Nat) : K) ≠ 0 := Nat.cast_ne_zero.2 (by simp)
    simp only [Line.row, summary, Row.mk.injEq] at e
    obtain ⟨e1, e2, e3, e4, e5, e6⟩ := e
    have e7 : ((List.length (t0 :: t1 :: t2 :: ts) : Nat) : K) - 1 = ((List.length (t0 :: t1 :: t2 :: ts) - 1 : Nat) : K) := by
      rw [Nat.cast_sub (by simp)]; simp
    refine ⟨e1, ?_, ?_, ?_⟩
    · rw [e2, div_mul_cancel₀ _ h1]
    · rw [e3, e7, div_mul_cancel₀ _ h2, e4]
      simp [add_comm]
    · rw [e4, e5, e6]; rfl

theorem sum_zero [IsStrictOrderedRing K] : ∀ {l : List K}, (∀ t ∈ l, 0 ≤ t) → l.sum = 0 → ∀ t ∈ l, t = 0
  | [], _, _ => by simp
  | a :: l, h, e => by
    have h0 : 0 ≤ l.sum := List.sum_nonneg (fun t ht => h t (by simp [ht]))
    have h1 := h a (by simp)
    rw [List.sum_cons] at e
    have ea : a = 0 := by linarith
    have el : l.sum = 0 := by linarith
    intro t ht
    rcases List.mem_cons.1 ht with rfl | ht
    · exact ea
    · exact sum_zero (fun t ht => h t (by simp [ht])) el t ht

omit [LinearOrder K] in
theorem sum_of_zero : ∀ {l : List K}, (∀ t ∈ l, t = 0) → l.sum = 0
  | [], _ => rfl
  | a :: l, h => by rw [List.sum_cons, h a (by simp), sum_of_zero (fun t ht => h t (by simp [ht])), add_zero]

theorem mean1_zero [IsStrictOrderedRing K] {f : String × List K} (h : 3 ≤ f.2.length) (hp : ∀ t ∈ f.2, 0 ≤ t) :
    (summary f).mean1 = 0 ↔ ∀ t ∈ f.2.tail, t = 0 := by
  have h2 : ((f.2.length - 1 : Nat) : K) ≠ 0 := Nat.cast_ne_zero.2 (by omega)
  simp only [summary, div_eq_zero_iff, h2, or_false]
  exact ⟨sum_zero (fun t ht => hp t (List.mem_of_mem_tail ht)), sum_of_zero⟩

theorem mean_zero [IsStrictOrderedRing K] {f : String × List K} (h : 3 ≤ f.2.length) (hp : ∀ t ∈ f.2, 0 ≤ t) :
    (summary f).mean = 0 → (summary f).mean1 = 0 := by
  have h1 : (f.2.length : K) ≠ 0 := Nat.cast_ne_zero.2 (by omega)
  intro e
  simp only [summary, div_eq_zero_iff, h1, or_false] at e
  exact (mean1_zero h hp).2 (fun t ht => sum_zero hp e t (List.mem_of_mem_tail ht))

theorem mean_nonneg [IsStrictOrderedRing K] {f : String × List K} (hp : ∀ t ∈ f.2, 0 ≤ t) : 0 ≤ (summary f).mean :=
  div_nonneg (List.sum_nonneg hp) (Nat.cast_nonneg _)

theorem mean1_pos [IsStrictOrderedRing K] {f : String × List K} (h : 3 ≤ f.2.length) (hp : ∀ t ∈ f.2, 0 < t) : (summary f).mean1 ≠ 0 := by
  intro e
  have := (mean1_zero h (fun t ht => (hp t ht).le)).1 e
  obtain ⟨n, ts⟩ := f
  match ts, h with
  | t0 :: t1 :: t2 :: ts, _ =>
    have := this t1 (by simp)
    have := hp t1 (by simp)
    linarith

theorem forall_reports [IsStrictOrderedRing K] : ∀ {fs : List (String × List K)} {ls : List (Line K)}, (∀ f ∈ fs, 3 ≤ f.2.length) →
    ls.map Line.row = fs.map summary → List.Forall₂ Reports fs ls
  | [], [], _, _ => .nil
  | f :: fs, l :: ls, h, e => by
    simp only [List.map_cons, List.cons.injEq] at e
    exact .cons (reports_summary (h f (by simp)) e.1) (forall_reports (fun g hg => h g (by simp [hg])) e.2)

/-- `finish` of rows made of functions, with the functions in the order of the table. -/
theorem finish_rows [IsStrictOrderedRing K] (all : List (String × List K)) (hne : all ≠ []) (hl : ∀ f ∈ all, 3 ≤ f.2.length)
    (hp : ∀ f ∈ all, ∀ t ∈ f.2, 0 ≤ t) : ∃ f fs, (f :: fs).Perm all ∧ ((f :: fs).map summary).Pairwise (fun a b => a.mean ≤ b.mean) ∧
      (all.map summary).insertionSort (fun a b => a.mean ≤ b.mean) = (f :: fs).map summary ∧
      finish (all.map summary) = if (summary f).mean1 = 0 then .error .zeroDivision else
        .ok (lines (summary f) (summary f).mean (summary f).mean1 (((f :: fs).filter fun g => decide ((summary g).mean1 ≠ 0)).map summary)) := by
  have hs := sorted_rows (all.map summary)
  have hm : (all.insertionSort (fun a b => (summary a).mean ≤ (summary b).mean)).map summary = (all.map summary).insertionSort (fun a b => a.mean ≤ b.mean) :=
    List.map_insertionSort _ _ summary all (fun a _ b _ => Iff.rfl)
  have hperm := List.perm_insertionSort (fun a b => (summary a).mean ≤ (summary b).mean) all
  generalize all.insertionSort (fun a b => (summary a).mean ≤ (summary b).mean) = fs0 at hm hperm
  match fs0, hm, hperm with
  | [], _, hperm => exact absurd hperm.symm.eq_nil hne
  | f :: fs, hm, hperm =>
    rw [← hm] at hs
    refine ⟨f, fs, hperm, hs, hm.symm, ?_⟩
    have hf : f ∈ all := hperm.subset (by simp)
    simp only [finish, ← hm, List.map_cons]
    by_cases h0 : (summary f).mean1 = 0
    · rw [if_pos h0]
      exact ratios_zero _ (.inr h0) _
    · rw [if_neg h0]
      have h1 : (summary f).mean ≠ 0 := fun e => h0 (mean_zero (hl f hf) (hp f hf) e)
      rw [ratios_ok h1 h0 _ h1 h0, ← List.map_cons, List.filter_map]
      · rfl
      · intro r hr
        have h2 : 0 < (summary f).mean := lt_of_le_of_ne (mean_nonneg (hp f hf)) (Ne.symm h1)
        rcases List.mem_cons.1 hr with rfl | hr
        · exact h1
        · have := List.rel_of_pairwise_cons hs hr
          exact (lt_of_lt_of_le h2 this).ne'

/-- With positive times nothing is filtered out. -/
theorem compare_pos [IsStrictOrderedRing K] {n : Nat} (hn : 3 ≤ n) {all : List (String × List K)} (hne : all ≠ []) (hl : ∀ f ∈ all, f.2.length = n)
    (hp : ∀ f ∈ all, ∀ t ∈ f.2, 0 < t) : ∃ f fs, (f :: fs).Perm all ∧ ((f :: fs).map summary).Pairwise (fun a b => a.mean ≤ b.mean) ∧
      (summary f).mean ≠ 0 ∧ (summary f).mean1 ≠ 0 ∧
      compare n all [] = .ok (lines (summary f) (summary f).mean (summary f).mean1 ((f :: fs).map summary)) := by
  have h3 : ∀ f ∈ all, 3 ≤ f.2.length := fun f hf => by rw [hl f hf]; exact hn
  obtain ⟨f, fs, hperm, hs, -, he⟩ := finish_rows all hne h3 (fun f hf t ht => (hp f hf t ht).le)
  have hc : compare n all [] = finish (all.map summary) := by
    simp only [compare, if_neg (not_lt.2 hn), List.append_nil, rows_ok h3]; rfl
  have hf : f ∈ all := hperm.subset (by simp)
  have h1 : ∀ g ∈ f :: fs, (summary g).mean1 ≠ 0 := fun g hg => mean1_pos (h3 g (hperm.subset hg)) (hp g (hperm.subset hg))
  refine ⟨f, fs, hperm, hs, fun e => h1 f (by simp) (mean_zero (h3 f hf) (fun t ht => (hp f hf t ht).le) e), h1 f (by simp), ?_⟩
  rw [hc, he, if_neg (h1 f (by simp)), List.filter_eq_self.2 (fun g hg => by simpa using h1 g hg)]

theorem shifted_lines (first : Row K) : ∀ (ls : List (Line K)) (a b : K),
    shifted a b (ls.map fun x => { x with best := x.mean / first.mean, best1 := x.mean1 / first.mean1 }) = lines first a b (ls.map Line.row)
  | [], _, _ => rfl
  | l :: ls, a, b => by
    simp only [List.map_cons, shifted, lines, shifted_lines first ls]
    rfl

theorem merge_rows {sort : List (Line K) → List (Line K)} {tables : List (List (Line K))} {l : Line K} {ls : List (Line K)}
    (h : sort tables.flatten = l :: ls) (h0 : l.mean ≠ 0) (h1 : l.mean1 ≠ 0) :
    merge sort tables = .ok (lines l.row l.mean l.mean1 ((l :: ls).map Line.row)) := by
  have e := shifted_lines l.row ls l.mean l.mean1
  have e0 : l.row.mean = l.mean := rfl
  have e1 : l.row.mean1 = l.mean1 := rfl
  rw [e0, e1] at e
  simp only [merge, h, List.map_cons, lines, e, e0, e1, div_self h0, div_self h1]
  rfl

theorem flatten_rows [IsStrictOrderedRing K] {n : Nat} (hn : 3 ≤ n) : ∀ {parts : List (List (String × List K))} {tables : List (List (Line K))},
    (∀ f ∈ parts.flatten, f.2.length = n) → (∀ f ∈ parts.flatten, ∀ t ∈ f.2, 0 < t) →
    List.Forall₂ (fun p t => compare n p [] = .ok t) parts tables → (tables.flatten.map Line.row).Perm (parts.flatten.map summary)
  | [], [], _, _, _ => .refl _
  | p :: ps, t :: ts, hl, hp, hc => by
    obtain ⟨h, hs⟩ := List.forall₂_cons.1 hc
    have IH := flatten_rows hn (parts := ps) (tables := ts) (fun f hf => hl f (by simp at hf ⊢; exact .inr hf)) (fun f hf => hp f (by simp at hf ⊢; exact .inr hf)) hs
    simp only [List.flatten_cons, List.map_append]
    refine .append ?_ IH
    by_cases hne : p = []
    · subst hne
      simp only [compare, if_neg (not_lt.2 hn), List.append_nil, rows] at h
      cases h
    · obtain ⟨f, fs, hperm, -, -, -, he⟩ := compare_pos hn hne (fun f hf => hl f (by simp [hf])) (fun f hf => hp f (by simp [hf]))
      rw [h, Except.ok.injEq] at he
      rw [he, lines_row]
      exact hperm.map _

end Bench
end GPyABCD
