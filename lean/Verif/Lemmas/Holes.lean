import Verif.Lemmas.Intervals

/-!
# When reversed windows can be reduced (C45)
-/

namespace GPyABCD
namespace Interval

variable {α : Type} [LinearOrder α] [Add α]

/-- The intervals after some windows. -/
structure Holed (qs : List (SigP α)) (acc : List (Ivl α)) : Prop where
  /-- the parts: before, between and after -/
  parts : ∃ F Fs segs E Es, acc = (⟨none, some F, none, some Fs⟩ : Ivl α) :: (segs ++ [⟨some E, none, some Es, none⟩]) ∧
    (∀ f ∈ qs.head?, f.loc = F) ∧ (∀ i ∈ segs, ∃ s e a b, i = ⟨some s, some e, some a, some b⟩) ∧
    (∀ s e, (∃ i ∈ segs, i.start = some s ∧ i.stop = some e) ↔ Gap qs s e) ∧
    (∃ a ∈ qs, a.loc + a.width = E) ∧ ∀ q ∈ qs, q.loc + q.width ≤ E

theorem holed_one (p : SigP α) (hp : p.loc ≤ p.loc + p.width) : ∃ acc, sirSplit (sirHole p) = .ok acc ∧ Holed [p] acc := by
  refine ⟨_, rfl, ⟨p.loc, p.slope, [], p.loc + p.width, p.slope, rfl, by simp, by simp, fun s e => ?_, by simp, by simp⟩⟩
  simp only [Gap, List.mem_cons, List.not_mem_nil, or_false, exists_eq_left, forall_eq, false_and, exists_false, false_iff, not_and]
  intro h1 h2 h3
  exact absurd (lt_of_lt_of_le (h3 ▸ h1) (h2 ▸ hp)) (lt_irrefl _)

theorem segmentHole_eq {s e a b : α} (h : s < e) (p : SigP α) (hp : p.loc ≤ p.loc + p.width) :
    segmentHole ⟨some s, some e, some a, some b⟩ (sirHole p) =
      if (s < p.loc ∧ p.loc ≤ e) ∨ (s ≤ p.loc + p.width ∧ p.loc + p.width < e) then .error .key
      else .ok (if e < p.loc ∨ p.loc + p.width < s then [⟨some s, some e, some a, some b⟩] else []) := by
  simp only [segmentHole, sirHole, get, Ivl.slope, bind, Except.bind, pure, Except.pure, gt_iff_lt]
  by_cases c1 : s < p.loc
  · by_cases c2 : e < p.loc
    · have c3 : ¬ p.loc + p.width < e := not_lt.2 (c2.le.trans hp)
      simp [c1, c2, c3, not_le.2 c2]
    · simp [c1, c2, not_lt.1 c2]
  · by_cases c3 : p.loc + p.width < e
    · by_cases c4 : p.loc + p.width < s
      · simp [c1, c3, c4, not_le.2 c4]
      · simp [c1, c3, c4, not_lt.1 c4]
    · have c2 : ¬ e < p.loc := fun hh => c1 (h.trans hh)
      have c4 : ¬ p.loc + p.width < s := fun hh => c3 (hh.trans h)
      simp [c1, c2, c3, c4]

theorem segs_step {segs : List (Ivl α)} (hs : ∀ i ∈ segs, ∃ s e a b, i = ⟨some s, some e, some a, some b⟩ ∧ s < e) (last : Ivl α) (p : SigP α)
    (hp : p.loc ≤ p.loc + p.width) :
    ((∀ i ∈ segs, ∀ s e, i.start = some s → i.stop = some e → ¬ (s < p.loc ∧ p.loc ≤ e) ∧ ¬ (s ≤ p.loc + p.width ∧ p.loc + p.width < e)) →
      ∃ out, (∀ i, i ∈ out ↔ i ∈ segs ∧ ∀ s e, i.start = some s → i.stop = some e → e < p.loc ∨ p.loc + p.width < s) ∧
        ∀ l, sirOne last (sirHole p) = .ok l → sirStep (segs ++ [last]) (sirHole p) = .ok (out ++ l)) ∧
    ((∃ i ∈ segs, ∃ s e, i.start = some s ∧ i.stop = some e ∧ ((s < p.loc ∧ p.loc ≤ e) ∨ (s ≤ p.loc + p.width ∧ p.loc + p.width < e))) →
      sirStep (segs ++ [last]) (sirHole p) = .error .key) := by
  induction segs with
  | nil =>
    refine ⟨fun _ => ⟨[], by simp, fun l hl => ?_⟩, by simp⟩
    simp [sirStep, hl, bind, Except.bind, pure, Except.pure]
  | cons i segs ih =>
    obtain ⟨s, e, a, b, rfl, hse⟩ := hs i (List.mem_cons_self ..)
    obtain ⟨ih1, ih2⟩ := ih (fun i hi => hs i (List.mem_cons_of_mem _ hi))
    have h1 : sirOne ⟨some s, some e, some a, some b⟩ (sirHole p) = segmentHole ⟨some s, some e, some a, some b⟩ (sirHole p) := by simp [sirOne, isSemiline]
    constructor
    · intro hok
      have hi := hok _ (List.mem_cons_self ..) s e rfl rfl
      obtain ⟨out, ho, hl⟩ := ih1 (fun i hi => hok i (List.mem_cons_of_mem _ hi))
      refine ⟨(if e < p.loc ∨ p.loc + p.width < s then [⟨some s, some e, some a, some b⟩] else []) ++ out, ?_, ?_⟩
      · intro j
        rw [List.mem_append, ho, List.mem_cons]
        by_cases c : e < p.loc ∨ p.loc + p.width < s
        · rw [if_pos c, List.mem_singleton]
          constructor
          · rintro (rfl | ⟨q1, q2⟩)
            · refine ⟨Or.inl rfl, fun s' e' q q' => ?_⟩
              cases q; cases q'; exact c
            · exact ⟨Or.inr q1, q2⟩
          · rintro ⟨rfl | q1, q2⟩
            · exact Or.inl rfl
            · exact Or.inr ⟨q1, q2⟩
        · rw [if_neg c]
          constructor
          · rintro (q | ⟨q1, q2⟩)
            · cases q
            · exact ⟨Or.inr q1, q2⟩
          · rintro ⟨rfl | q1, q2⟩
            · exact absurd (q2 s e rfl rfl) c
            · exact Or.inr ⟨q1, q2⟩
      · intro l hlast
        rw [List.cons_append, sirStep, h1, segmentHole_eq hse p hp, if_neg (by rintro (q | q); exacts [hi.1 q, hi.2 q])]
        simp [hl l hlast, bind, Except.bind, pure, Except.pure]
    · rintro ⟨j, hj, s', e', q1, q2, q3⟩
      rw [List.cons_append, sirStep, h1, segmentHole_eq hse p hp]
      rcases List.mem_cons.1 hj with rfl | hj
      · cases q1; cases q2
        rw [if_pos q3]
        rfl
      · split
        · rfl
        · simp [ih2 ⟨j, hj, s', e', q1, q2, q3⟩, bind, Except.bind]

omit [Add α] in
/-- The last of the elements that satisfy a condition. -/
private theorem exists_max {β : Type} (f : β → α) (P : β → Prop) : ∀ (l : List β), (∃ x ∈ l, P x) → ∃ x ∈ l, P x ∧ ∀ y ∈ l, P y → f y ≤ f x
  | [], h => by obtain ⟨x, hx, _⟩ := h; cases hx
  | a :: l, h => by
    classical
    by_cases c : ∃ x ∈ l, P x
    · obtain ⟨x, hx, px, hm⟩ := exists_max f P l c
      by_cases d : P a ∧ f x < f a
      · refine ⟨a, List.mem_cons_self .., d.1, fun y hy py => ?_⟩
        rcases List.mem_cons.1 hy with rfl | hy
        · exact le_refl _
        · exact (hm y hy py).trans d.2.le
      · refine ⟨x, List.mem_cons_of_mem _ hx, px, fun y hy py => ?_⟩
        rcases List.mem_cons.1 hy with rfl | hy
        · exact not_lt.1 (fun hh => d ⟨py, hh⟩)
        · exact hm y hy py
    · obtain ⟨x, hx, px⟩ := h
      rcases List.mem_cons.1 hx with rfl | hx
      · refine ⟨x, List.mem_cons_self .., px, fun y hy py => ?_⟩
        rcases List.mem_cons.1 hy with rfl | hy
        · exact le_refl _
        · exact absurd ⟨y, hy, py⟩ c
      · exact absurd ⟨x, hx, px⟩ c

omit [Add α] in
/-- The first of the elements that satisfy a condition. -/
private theorem exists_min {β : Type} (f : β → α) (P : β → Prop) (l : List β) (h : ∃ x ∈ l, P x) : ∃ x ∈ l, P x ∧ ∀ y ∈ l, P y → f x ≤ f y :=
  exists_max (α := αᵒᵈ) (fun b => OrderDual.toDual (f b)) P l h

/-- The gaps after one more window. -/
theorem gap_snoc {qs : List (SigP α)} {p : SigP α} (hq : qs ≠ []) (hf : Fits qs p) (hp : p.loc ≤ p.loc + p.width) {E : α}
    (hE : ∃ a ∈ qs, a.loc + a.width = E) (hm : ∀ q ∈ qs, q.loc + q.width ≤ E) (s e : α) :
    Gap (qs ++ [p]) s e ↔ (Gap qs s e ∧ (e < p.loc ∨ p.loc + p.width < s)) ∨ (s = E ∧ e = p.loc ∧ E < p.loc) := by
  obtain ⟨f, qs', rfl⟩ : ∃ f qs', qs = f :: qs' := by cases qs with | nil => exact absurd rfl hq | cons f qs' => exact ⟨f, qs', rfl⟩
  have hfp := hf.1 f rfl
  constructor
  · rintro ⟨hse, ⟨a, ha, has⟩, ⟨b, hb, hbe⟩, hall⟩
    have hpa := hall p (by simp)
    have hall' : ∀ q ∈ f :: qs', q.loc + q.width ≤ s ∨ e ≤ q.loc := fun q hq => hall q (List.mem_append_left _ hq)
    rw [List.mem_append, List.mem_singleton] at ha hb
    rcases ha with ha | rfl
    · rcases hb with hb | rfl
      · left
        have hg : Gap (f :: qs') s e := ⟨hse, ⟨a, ha, has⟩, ⟨b, hb, hbe⟩, hall'⟩
        refine ⟨hg, ?_⟩
        obtain ⟨n1, n2⟩ := hf.2 s e hg
        rcases hpa with h | h
        · exact Or.inr (lt_of_le_of_ne h (fun hh => n2 ⟨hh.ge, hh ▸ hse⟩))
        · exact Or.inl (lt_of_le_of_ne h (fun hh => n1 ⟨hh ▸ hse, hh.ge⟩))
      · right
        subst hbe
        have hEs : ∀ q ∈ f :: qs', q.loc + q.width ≤ s := by
          by_contra hcon
          simp only [not_forall] at hcon
          obtain ⟨q, hq, hqs⟩ := hcon
          obtain ⟨x, hx, px, hmin⟩ := exists_min (fun q : SigP α => q.loc) (fun q => b.loc ≤ q.loc) (f :: qs') ⟨q, hq, (hall' q hq).resolve_left hqs⟩
          refine (hf.2 s x.loc ⟨lt_of_lt_of_le hse px, ⟨a, ha, has⟩, ⟨x, hx, rfl⟩, fun q hq => ?_⟩).1 ⟨hse, px⟩
          rcases hall' q hq with h | h
          · exact Or.inl h
          · exact Or.inr (hmin q hq h)
        obtain ⟨a', ha', hae⟩ := hE
        have : s = E := le_antisymm (has ▸ hm a ha) (hae ▸ hEs a' ha')
        exact ⟨this, rfl, this ▸ hse⟩
    · exfalso
      subst has
      rcases hb with hb | rfl
      · have hfe : f.loc + f.width ≤ a.loc + a.width := (hall' f (List.mem_cons_self ..)).resolve_right
          (fun h => absurd ((h.trans hfp).trans hp) (not_le.2 hse))
        obtain ⟨x, hx, px, hmax⟩ := exists_max (fun q : SigP α => q.loc + q.width) (fun q => q.loc + q.width ≤ a.loc + a.width) (f :: qs')
          ⟨f, List.mem_cons_self .., hfe⟩
        refine (hf.2 (x.loc + x.width) e ⟨lt_of_le_of_lt px hse, ⟨x, hx, rfl⟩, ⟨b, hb, hbe⟩, fun q hq => ?_⟩).2 ⟨px, hse⟩
        rcases hall' q hq with h | h
        · exact Or.inl (hmax q hq h)
        · exact Or.inr h
      · exact absurd (hbe ▸ hse) (not_lt.2 hp)
  · rintro (⟨⟨hse, ⟨a, ha, has⟩, ⟨b, hb, hbe⟩, hall⟩, hpp⟩ | ⟨rfl, rfl, hlt⟩)
    · refine ⟨hse, ⟨a, List.mem_append_left _ ha, has⟩, ⟨b, List.mem_append_left _ hb, hbe⟩, fun q hq => ?_⟩
      rcases List.mem_append.1 hq with hq | hq
      · exact hall q hq
      · rw [List.mem_singleton] at hq
        subst hq
        exact hpp.symm.imp le_of_lt le_of_lt
    · obtain ⟨a, ha, hae⟩ := hE
      refine ⟨hlt, ⟨a, List.mem_append_left _ ha, hae⟩, ⟨p, by simp, rfl⟩, fun q hq => ?_⟩
      rcases List.mem_append.1 hq with hq | hq
      · exact Or.inl (hm q hq)
      · rw [List.mem_singleton] at hq
        subst hq
        exact Or.inr (le_refl _)

/-- One more window. -/
theorem holed_step {qs : List (SigP α)} {acc : List (Ivl α)} (hq : qs ≠ []) (h : Holed qs acc) (p : SigP α) (hp : p.loc ≤ p.loc + p.width) :
    (Fits qs p → ∃ acc', sirStep acc (sirHole p) = .ok acc' ∧ Holed (qs ++ [p]) acc') ∧ (¬ Fits qs p → sirStep acc (sirHole p) = .error .key) := by
  obtain ⟨F, Fs, segs, E, Es, rfl, hF, hsh, hg, hE, hm⟩ := h.parts
  have hsh' : ∀ i ∈ segs, ∃ s e a b, i = ⟨some s, some e, some a, some b⟩ ∧ s < e := by
    intro i hi
    obtain ⟨s, e, a, b, rfl⟩ := hsh i hi
    exact ⟨s, e, a, b, rfl, ((hg s e).1 ⟨_, hi, rfl, rfl⟩).1⟩
  obtain ⟨f, qs', rfl⟩ : ∃ f qs', qs = f :: qs' := by cases qs with | nil => exact absurd rfl hq | cons f qs' => exact ⟨f, qs', rfl⟩
  have hFf : f.loc = F := hF f rfl
  obtain ⟨s1, s2⟩ := segs_step hsh' ⟨some E, none, some Es, none⟩ p hp
  have hleft : sirOne (⟨none, some F, none, some Fs⟩ : Ivl α) (sirHole p) = if p.loc < F then .error .key else .ok [⟨none, some F, none, some Fs⟩] := by
    by_cases c : p.loc < F <;> simp [sirOne, isSemiline, semilineHole, sirHole, get, Ivl.slope, bind, Except.bind, pure, Except.pure, c]
  constructor
  · intro hf
    have hnl : ¬ p.loc < F := not_lt.2 (hFf ▸ hf.1 f rfl)
    obtain ⟨out, ho, hl⟩ := s1 (fun i hi s e h1 h2 => hf.2 s e ((hg s e).1 ⟨i, hi, h1, h2⟩))
    have hout : ∀ s e, (∃ i ∈ out, i.start = some s ∧ i.stop = some e) ↔ (Gap (f :: qs') s e ∧ (e < p.loc ∨ p.loc + p.width < s)) := by
      intro s e
      rw [← hg s e]
      constructor
      · rintro ⟨i, hi, h1, h2⟩
        obtain ⟨h3, h4⟩ := (ho i).1 hi
        exact ⟨⟨i, h3, h1, h2⟩, h4 s e h1 h2⟩
      · rintro ⟨⟨i, hi, h1, h2⟩, h3⟩
        refine ⟨i, (ho i).2 ⟨hi, fun s' e' h1' h2' => ?_⟩, h1, h2⟩
        rw [h1] at h1'; rw [h2] at h2'
        cases h1'; cases h2'
        exact h3
    have hosh : ∀ i ∈ out, ∃ s e a b, i = ⟨some s, some e, some a, some b⟩ := fun i hi => hsh i ((ho i).1 hi).1
    by_cases c1 : E < p.loc + p.width
    · by_cases c2 : E < p.loc
      · have hr : sirOne (⟨some E, none, some Es, none⟩ : Ivl α) (sirHole p) =
            .ok [⟨some E, some p.loc, some Es, some p.slope⟩, ⟨some (p.loc + p.width), none, some p.slope, none⟩] := by
          simp [sirOne, isSemiline, semilineHole, sirHole, get, bind, Except.bind, pure, Except.pure, c1, c2]
        refine ⟨_, ?_, ⟨F, Fs, out ++ [⟨some E, some p.loc, some Es, some p.slope⟩], p.loc + p.width, p.slope, rfl, by simpa using hFf, ?_, fun s e => ?_,
          ⟨p, by simp, rfl⟩, ?_⟩⟩
        · rw [sirStep, hleft, if_neg hnl]
          simp [hl _ hr, bind, Except.bind, pure, Except.pure]
        · intro i hi
          rcases List.mem_append.1 hi with hi | hi
          · exact hosh i hi
          · rw [List.mem_singleton] at hi
            exact ⟨_, _, _, _, hi⟩
        · rw [gap_snoc hq hf hp hE hm, ← hout]
          constructor
          · rintro ⟨i, hi, h1, h2⟩
            rcases List.mem_append.1 hi with hi | hi
            · exact Or.inl ⟨i, hi, h1, h2⟩
            · rw [List.mem_singleton] at hi
              subst hi
              cases h1; cases h2
              exact Or.inr ⟨rfl, rfl, c2⟩
          · rintro (⟨i, hi, h1, h2⟩ | ⟨rfl, rfl, _⟩)
            · exact ⟨i, List.mem_append_left _ hi, h1, h2⟩
            · exact ⟨_, List.mem_append_right _ (List.mem_singleton.2 rfl), rfl, rfl⟩
        · intro q hq
          rcases List.mem_append.1 hq with hq | hq
          · exact (hm q hq).trans c1.le
          · rw [List.mem_singleton] at hq
            rw [hq]
      · have hr : sirOne (⟨some E, none, some Es, none⟩ : Ivl α) (sirHole p) = .ok [⟨some (p.loc + p.width), none, some p.slope, none⟩] := by
          simp [sirOne, isSemiline, semilineHole, sirHole, get, bind, Except.bind, pure, Except.pure, c1, c2]
        refine ⟨_, ?_, ⟨F, Fs, out, p.loc + p.width, p.slope, rfl, by simpa using hFf, hosh, fun s e => ?_, ⟨p, by simp, rfl⟩, ?_⟩⟩
        · rw [sirStep, hleft, if_neg hnl]
          simp [hl _ hr, bind, Except.bind, pure, Except.pure]
        · rw [gap_snoc hq hf hp hE hm, ← hout]
          exact ⟨Or.inl, fun h => h.resolve_right (fun hh => c2 hh.2.2)⟩
        · intro q hq
          rcases List.mem_append.1 hq with hq | hq
          · exact (hm q hq).trans c1.le
          · rw [List.mem_singleton] at hq
            rw [hq]
    · have hr : sirOne (⟨some E, none, some Es, none⟩ : Ivl α) (sirHole p) = .ok [⟨some E, none, some Es, none⟩] := by
        simp [sirOne, isSemiline, semilineHole, sirHole, get, bind, Except.bind, pure, Except.pure, c1]
      refine ⟨_, ?_, ⟨F, Fs, out, E, Es, rfl, by simpa using hFf, hosh, fun s e => ?_, ?_, ?_⟩⟩
      · rw [sirStep, hleft, if_neg hnl]
        simp [hl _ hr, bind, Except.bind, pure, Except.pure]
      · rw [gap_snoc hq hf hp hE hm, ← hout]
        exact ⟨Or.inl, fun h => h.resolve_right (fun hh => c1 (lt_of_lt_of_le hh.2.2 hp))⟩
      · obtain ⟨a, ha, hae⟩ := hE
        exact ⟨a, List.mem_append_left _ ha, hae⟩
      · intro q hq
        rcases List.mem_append.1 hq with hq | hq
        · exact hm q hq
        · rw [List.mem_singleton] at hq
          rw [hq]
          exact not_lt.1 c1
  · intro hf
    rw [sirStep, hleft]
    by_cases c : p.loc < F
    · rw [if_pos c]
      rfl
    · rw [if_neg c]
      have : ∃ i ∈ segs, ∃ s e, i.start = some s ∧ i.stop = some e ∧ ((s < p.loc ∧ p.loc ≤ e) ∨ (s ≤ p.loc + p.width ∧ p.loc + p.width < e)) := by
        by_contra hcon
        refine hf ⟨fun f' hf' => ?_, fun s e hgap => ?_⟩
        · cases hf'
          exact hFf ▸ not_lt.1 c
        · obtain ⟨i, hi, h1, h2⟩ := (hg s e).2 hgap
          exact ⟨fun hh => hcon ⟨i, hi, s, e, h1, h2, Or.inl hh⟩, fun hh => hcon ⟨i, hi, s, e, h1, h2, Or.inr hh⟩⟩
      simp [s2 this, bind, Except.bind]

theorem holed_fold (ps : List (SigP α)) (hp : ∀ p ∈ ps, p.loc ≤ p.loc + p.width) {qs : List (SigP α)} {acc : List (Ivl α)} (hq : qs ≠ []) (h : Holed qs acc) :
    ((∀ a p b, ps = a ++ p :: b → Fits (qs ++ a) p) → ∃ r, sirFold acc (ps.map sirHole) = .ok r) ∧
    ((∃ a p b, ps = a ++ p :: b ∧ ¬ Fits (qs ++ a) p) → sirFold acc (ps.map sirHole) = .error .key) := by
  induction ps generalizing qs acc with
  | nil => exact ⟨fun _ => ⟨acc, rfl⟩, by rintro ⟨a, p, b, h, _⟩; simp at h⟩
  | cons x ps ih =>
    obtain ⟨h1, h2⟩ := holed_step hq h x (hp x (List.mem_cons_self ..))
    by_cases hf : Fits qs x
    · obtain ⟨acc', e, h'⟩ := h1 hf
      obtain ⟨i1, i2⟩ := ih (fun p hm => hp p (List.mem_cons_of_mem _ hm)) (by simp) h'
      simp only [List.map_cons, sirFold, e, bind, Except.bind]
      constructor
      · intro hall
        refine i1 (fun a p b hab => ?_)
        have := hall (x :: a) p b (by rw [hab]; rfl)
        simpa using this
      · rintro ⟨a, p, b, hab, hn⟩
        cases a with
        | nil =>
          simp only [List.nil_append, List.cons.injEq] at hab
          obtain ⟨rfl, _⟩ := hab
          simp only [List.append_nil] at hn
          exact absurd hf hn
        | cons y a =>
          simp only [List.cons_append, List.cons.injEq] at hab
          obtain ⟨rfl, hab⟩ := hab
          exact i2 ⟨a, p, b, hab, by simpa using hn⟩
    · simp only [List.map_cons, sirFold, h2 hf, bind, Except.bind]
      exact ⟨fun hall => absurd (by simpa using hall [] x ps rfl) hf, fun _ => trivial⟩

end Interval
end GPyABCD
