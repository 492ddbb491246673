import Verif.Lemmas.Intervals

/-! Where the ends and slopes of reduced intervals come from. -/

namespace GPyABCD
namespace Interval

variable {α : Type}

/-- The ends of an interval satisfy `P` and `Q` together with their slopes, and a side without an end has no slope. -/
def Ends (P Q : α → α → Prop) (i : Ivl α) : Prop :=
  ((∃ s a, i.start = some s ∧ i.startSlope = some a ∧ P s a) ∨ (i.start = none ∧ i.startSlope = none)) ∧
  ((∃ e a, i.stop = some e ∧ i.stopSlope = some a ∧ Q e a) ∨ (i.stop = none ∧ i.stopSlope = none))

/-- For a dictionary or `None`. -/
def EndsO (P Q : α → α → Prop) (v : Option (Ivl α)) : Prop := ∀ i, v = some i → Ends P Q i

variable {P Q : α → α → Prop}

theorem Ends.start {i : Ivl α} (h : Ends P Q i) {s a : α} (h1 : i.start = some s) (h2 : i.startSlope = some a) : P s a := by
  rcases h.1 with ⟨s', a', e1, e2, hp⟩ | ⟨e1, _⟩
  · rw [h1] at e1; rw [h2] at e2; cases e1; cases e2; exact hp
  · rw [h1] at e1; cases e1

theorem Ends.stop {i : Ivl α} (h : Ends P Q i) {s a : α} (h1 : i.stop = some s) (h2 : i.stopSlope = some a) : Q s a := by
  rcases h.2 with ⟨s', a', e1, e2, hp⟩ | ⟨e1, _⟩
  · rw [h1] at e1; rw [h2] at e2; cases e1; cases e2; exact hp
  · rw [h1] at e1; cases e1

theorem ends_both {s e a b : α} (h1 : P s a) (h2 : Q e b) : Ends P Q ⟨some s, some e, some a, some b⟩ :=
  ⟨Or.inl ⟨_, _, rfl, rfl, h1⟩, Or.inl ⟨_, _, rfl, rfl, h2⟩⟩

theorem ends_start {s a : α} (h1 : P s a) : Ends P Q { start := some s, startSlope := some a } :=
  ⟨Or.inl ⟨_, _, rfl, rfl, h1⟩, Or.inr ⟨rfl, rfl⟩⟩

theorem ends_stop {e a : α} (h1 : Q e a) : Ends P Q { stop := some e, stopSlope := some a } :=
  ⟨Or.inr ⟨rfl, rfl⟩, Or.inl ⟨_, _, rfl, rfl, h1⟩⟩

/-- For a list. -/
def EndsL (P Q : α → α → Prop) (l : List (Option (Ivl α))) : Prop := ∀ v ∈ l, EndsO P Q v

/-- For a pair. -/
def EndsA (P Q : α → α → Prop) : Arg α → Prop
  | .flat _ v => EndsO P Q v
  | .holes l => EndsL P Q l

/-- For a result. -/
def EndsR (P Q : α → α → Prop) : Res α → Prop
  | .ivl i => Ends P Q i
  | .none => True
  | .list l => EndsL P Q l

theorem endsR_ofOpt {v : Option (Ivl α)} (h : EndsO P Q v) : EndsR P Q (Res.ofOpt v) := by
  cases v with
  | none => trivial
  | some i => exact h i rfl

section
variable [LinearOrder α]

theorem siOverlap_ends {ps : List (Option (Ivl α))} {r : Option (Ivl α)} (hp : EndsL P Q ps) (h : siOverlap ps = .ok r) :
    EndsO P Q r := by
  unfold siOverlap at h
  simp only [bind_ok, sub_ok] at h
  obtain ⟨a, ha, b, hb, s, ⟨ia, rfl, his⟩, e, ⟨ib, rfl, hie⟩, ss, ⟨ia', e1, hss⟩, es, ⟨ib', e2, hes⟩, h⟩ := h
  cases e1
  cases e2
  have h1 := (hp _ (sOverlap_ok ha).1 _ rfl).start his hss
  have h2 := (hp _ (srOverlap_ok hb).1 _ rfl).stop hie hes
  split at h
  · cases h
    rintro i e
    cases e
    exact ends_both h1 h2
  · cases h
    rintro i e
    cases e

theorem segmentHole_ends {i h : Ivl α} {r : List (Ivl α)} (hi : Ends P Q i) (hr : segmentHole i h = .ok r) : ∀ j ∈ r, Ends P Q j := by
  unfold segmentHole at hr
  simp only [bind_ok, get_ok, pure, Except.pure, Except.ok.injEq] at hr
  obtain ⟨s, _, he, _, r1, h1, e, _, hs, _, r2, h2, rfl⟩ := hr
  intro j hj
  have no : h.slope = none := rfl
  rcases List.mem_append.1 hj with hj | hj
  · split at h1
    · simp only [bind_ok, get_ok] at h1
      obtain ⟨e', _, h1⟩ := h1
      split at h1
      · cases h1; rw [List.mem_singleton] at hj; exact hj ▸ hi
      · simp [bind_ok, get_ok, no] at h1
    · cases h1; cases hj
  · split at h2
    · split at h2
      · cases h2; rw [List.mem_singleton] at hj; exact hj ▸ hi
      · simp [bind_ok, get_ok, no] at h2
    · cases h2; cases hj

theorem semilineHole_ends {i h : Ivl α} {r : List (Ivl α)} (hi : Ends P Q i) (hh : Ends P Q h) (hr : semilineHole i h = .ok r) :
    ∀ j ∈ r, Ends P Q j := by
  unfold semilineHole at hr
  have no : h.slope = none := rfl
  intro j hj
  split at hr
  · simp only [bind_ok, get_ok] at hr
    obtain ⟨he, _, e, _, hr⟩ := hr
    split at hr
    · simp [bind_ok, get_ok, no] at hr
    · cases hr; rw [List.mem_singleton] at hj; exact hj ▸ hi
  · rename_i s hs0
    simp only [bind_ok, get_ok] at hr
    obtain ⟨hs, ehs, hr⟩ := hr
    split at hr
    · simp only [bind_ok, get_ok, pure, Except.pure, Except.ok.injEq] at hr
      obtain ⟨he, ehe, r1, h1, hss, ehss, rfl⟩ := hr
      rcases List.mem_append.1 hj with hj | hj
      · split at h1
        · simp only [bind_ok, get_ok, Except.ok.injEq] at h1
          obtain ⟨ss, ess, hes, ehes, rfl⟩ := h1
          rw [List.mem_singleton] at hj
          subst hj
          exact ends_both (hi.start hs0 ess) (hh.stop ehe ehes)
        · cases h1; cases hj
      · rw [List.mem_singleton] at hj
        subst hj
        exact ends_start (hh.start ehs ehss)
    · cases hr; rw [List.mem_singleton] at hj; exact hj ▸ hi

theorem sirStep_ends {acc : List (Ivl α)} {h : Ivl α} {r : List (Ivl α)} (ha : ∀ j ∈ acc, Ends P Q j) (hh : Ends P Q h)
    (hr : sirStep acc h = .ok r) : ∀ j ∈ r, Ends P Q j := by
  induction acc generalizing r with
  | nil =>
    simp only [sirStep, Except.ok.injEq] at hr
    subst hr
    simp
  | cons a as ih =>
    simp only [sirStep, bind_ok] at hr
    obtain ⟨r1, h1, r2, h2, hr⟩ := hr
    simp only [pure, Except.pure, Except.ok.injEq] at hr
    subst hr
    intro j hj
    rcases List.mem_append.1 hj with hj | hj
    · unfold sirOne at h1
      split at h1
      · exact semilineHole_ends (ha a (List.mem_cons_self ..)) hh h1 j hj
      · exact segmentHole_ends (ha a (List.mem_cons_self ..)) h1 j hj
    · exact ih (fun j hj => ha j (List.mem_cons_of_mem _ hj)) h2 j hj

theorem sirFold_ends {hs acc r : List (Ivl α)} (ha : ∀ j ∈ acc, Ends P Q j) (hh : ∀ h ∈ hs, Ends P Q h) (hr : sirFold acc hs = .ok r) :
    ∀ j ∈ r, Ends P Q j := by
  induction hs generalizing acc with
  | nil =>
    simp only [sirFold, Except.ok.injEq] at hr
    subst hr
    exact ha
  | cons h hs ih =>
    simp only [sirFold, bind_ok] at hr
    obtain ⟨acc', h1, hr⟩ := hr
    exact ih (sirStep_ends ha (hh h (List.mem_cons_self ..)) h1) (fun h' hm => hh h' (List.mem_cons_of_mem _ hm)) hr

theorem sirOverlap_ends {hs r : List (Ivl α)} (hh : ∀ h ∈ hs, Ends P Q h) (hr : sirOverlap hs = .ok r) : ∀ j ∈ r, Ends P Q j := by
  cases hs with
  | nil => cases hr
  | cons h hs =>
    simp only [sirOverlap, bind_ok] at hr
    obtain ⟨acc, h1, hr⟩ := hr
    refine sirFold_ends ?_ (fun h' hm => hh h' (List.mem_cons_of_mem _ hm)) hr
    have := hh h (List.mem_cons_self ..)
    unfold sirSplit at h1
    simp only [bind_ok, get_ok, pure, Except.pure, Except.ok.injEq] at h1
    obtain ⟨e, ee, es, ees, s, e1, ss, e2, rfl⟩ := h1
    simp only [List.mem_cons, List.not_mem_nil, or_false]
    rintro j (rfl | rfl)
    · exact ends_stop (this.stop ee ees)
    · exact ends_start (this.start e1 e2)

theorem segmentSemiline_ends {seg semi r : Option (Ivl α)} (h1 : EndsO P Q seg) (h2 : EndsO P Q semi)
    (hr : segmentSemiline seg semi = .ok r) : EndsO P Q r := by
  unfold segmentSemiline at hr
  split at hr
  · cases hr
  · rename_i l
    simp only [bind_ok] at hr
    obtain ⟨f, _, hr⟩ := hr
    have hl := h2 l rfl
    split at hr
    · simp only [bind_ok, get_ok, sub_ok] at hr
      obtain ⟨e, _, le, ele, hr⟩ := hr
      split at hr
      · cases hr; exact h1
      · simp only [bind_ok, get_ok, sub_ok, pure, Except.pure, Except.ok.injEq] at hr
        obtain ⟨s, ⟨i, rfl, es⟩, ss, ⟨i', e1, ess⟩, les, eles, rfl⟩ := hr
        cases e1
        rintro j e
        cases e
        exact ends_both ((h1 i rfl).start es ess) (hl.stop ele eles)
    · simp only [bind_ok] at hr
      obtain ⟨g, _, hr⟩ := hr
      split at hr
      · simp only [bind_ok, get_ok, sub_ok] at hr
        obtain ⟨s, _, ls, els, hr⟩ := hr
        split at hr
        · cases hr; exact h1
        · simp only [bind_ok, get_ok, sub_ok, pure, Except.pure, Except.ok.injEq] at hr
          obtain ⟨e, ⟨i, rfl, ee⟩, lss, elss, es, ⟨i', e1, ees⟩, rfl⟩ := hr
          cases e1
          rintro j e
          cases e
          exact ends_both (hl.start els elss) ((h1 i rfl).stop ee ees)
      · cases hr
        rintro j e
        cases e

theorem merge_ends {a b : Ivl α} (ha : Ends P Q a) (hb : Ends P Q b) : Ends P Q (merge a b) := by
  obtain ⟨a1, a2, a3, a4⟩ := a
  obtain ⟨b1, b2, b3, b4⟩ := b
  refine ⟨?_, ?_⟩
  · rcases hb.1 with ⟨s, x, e1, e2, h⟩ | ⟨e1, e2⟩
    · cases e1; cases e2; exact Or.inl ⟨_, _, rfl, rfl, h⟩
    · cases e1; cases e2; exact ha.1
  · rcases hb.2 with ⟨s, x, e1, e2, h⟩ | ⟨e1, e2⟩
    · cases e1; cases e2; exact Or.inl ⟨_, _, rfl, rfl, h⟩
    · cases e1; cases e2; exact ha.2

theorem endsL_pair {v w : Option (Ivl α)} (hv : EndsO P Q v) (hw : EndsO P Q w) : EndsL P Q [v, w] := by
  intro x hx
  simp only [List.mem_cons, List.not_mem_nil, or_false] at hx
  rcases hx with rfl | rfl
  · exact hv
  · exact hw

theorem pairFlat_ends {k1 k2 : Kind} {v1 v2 : Option (Ivl α)} {r : Res α} (h1 : EndsO P Q v1) (h2 : EndsO P Q v2)
    (hr : pairFlat k1 v1 k2 v2 = .ok r) : EndsR P Q r := by
  have hl := endsL_pair h1 h2
  have of : ∀ k, EndsO P Q (if k1 = k then v1 else v2) := by
    intro k; split
    · exact h1
    · exact h2
  unfold pairFlat at hr
  split at hr
  · split at hr
    · obtain ⟨q, hq, rfl⟩ := map_ok.1 hr
      exact endsR_ofOpt (siOverlap_ends hl hq)
    · obtain ⟨q, hq, rfl⟩ := map_ok.1 hr
      exact endsR_ofOpt (hl _ (sOverlap_ok hq).1)
    · obtain ⟨q, hq, rfl⟩ := map_ok.1 hr
      exact endsR_ofOpt (hl _ (srOverlap_ok hq).1)
  · simp only at hr
    split at hr
    · unfold pairSeg at hr
      obtain ⟨q, hq, hr⟩ := bind_ok.1 hr
      have := segmentSemiline_ends (of _) (of _) hq
      split at hr
      · cases hr; exact this _ rfl
      · cases hr; intro v hv; cases hv
    · unfold pairEnds at hr
      simp only [bind_ok] at hr
      obtain ⟨s, _, e, _, hr⟩ := hr
      split at hr
      · split at hr
        · rename_i a b ea eb
          cases hr
          exact merge_ends (of .S a ea) (of .Sr b eb)
        · cases hr
      · cases hr; intro v hv; cases hv

theorem identify_ends {i : Ivl α} (h : Ends P Q i) : EndsA P Q (identify i) := by
  unfold identify
  split
  · rintro j e; cases e; exact h
  · split
    · rintro j e; cases e; exact h
    · rintro j e; cases e; exact h

theorem pairHoles_ends {k : Kind} {v : Option (Ivl α)} {l r : List (Option (Ivl α))} (hv : EndsO P Q v) (hl : EndsL P Q l)
    (hr : pairHoles k v l = .ok r) : EndsL P Q r := by
  induction l generalizing r with
  | nil =>
    simp only [pairHoles, Except.ok.injEq] at hr
    subst hr
    exact hl
  | cons w l ih =>
    cases w with
    | none => cases hr
    | some i =>
      have hi := identify_ends (hl (some i) (List.mem_cons_self ..) i rfl)
      unfold pairHoles at hr
      cases hid : identify i with
      | holes l' => rw [hid] at hr; cases hr
      | flat k' v' =>
        rw [hid] at hr hi
        simp only [bind_ok] at hr
        obtain ⟨q, hq, rs, hrs, hr⟩ := hr
        have t := ih (fun w hw => hl w (List.mem_cons_of_mem _ hw)) hrs
        have u := pairFlat_ends hv hi hq
        cases q with
        | ivl j =>
          cases hr
          intro w hw
          rcases List.mem_cons.1 hw with rfl | hw
          · rintro j' e; cases e; exact u
          · exact t w hw
        | none =>
          cases hr
          intro w hw
          rcases List.mem_cons.1 hw with rfl | hw
          · rintro j' e; cases e
          · exact t w hw
        | list l' => cases hr; exact t

theorem unwrap_ends {l : List (Option (Ivl α))} (h : EndsL P Q l) : EndsR P Q (unwrap l) := by
  unfold unwrap
  split
  · exact endsR_ofOpt (h _ (List.mem_cons_self ..))
  · exact h

theorem pair_ends {a b : Arg α} {r : Res α} (ha : EndsA P Q a) (hb : EndsA P Q b) (hr : pair a b = .ok r) : EndsR P Q r := by
  cases a with
  | flat k1 v1 =>
    cases b with
    | flat k2 v2 => exact pairFlat_ends ha hb hr
    | holes l =>
      obtain ⟨q, hq, rfl⟩ := map_ok.1 hr
      exact unwrap_ends (pairHoles_ends ha hb hq)
  | holes l =>
    cases b with
    | flat k v =>
      obtain ⟨q, hq, rfl⟩ := map_ok.1 hr
      exact unwrap_ends (pairHoles_ends hb ha hq)
    | holes l' => cases hr

theorem stepRes_ends {r : Res α} (hr : EndsR P Q r) {a : Arg α} (h : stepRes r = some a) : EndsA P Q a := by
  cases r with
  | ivl i => cases h; exact identify_ends hr
  | none => cases h
  | list l => cases h; exact hr

theorem simplifyGo_ends {l : List (Arg α)} {a b : Arg α} (ha : EndsA P Q a) (hl : ∀ c ∈ l, EndsA P Q c)
    (h : simplifyGo (some a) l = .ok (some b)) : EndsA P Q b := by
  induction l generalizing a with
  | nil => cases h; exact ha
  | cons c l ih =>
    simp only [simplifyGo, bind_ok] at h
    obtain ⟨acc, h1, h⟩ := h
    simp only [simplifyStep, map_ok] at h1
    obtain ⟨r, hr, rfl⟩ := h1
    cases hs : stepRes r with
    | none => rw [hs, simplifyGo_none] at h; cases h
    | some a' =>
      rw [hs] at h
      exact ih (stepRes_ends (pair_ends ha (hl c (List.mem_cons_self ..)) hr) hs) (fun c hc => hl c (List.mem_cons_of_mem _ hc)) h

theorem simplifyAll_ends {l : List (Arg α)} {r : List (Option (Ivl α))} (hl : ∀ c ∈ l, EndsA P Q c) (h : simplifyAll l = .ok r) :
    EndsL P Q r := by
  cases l with
  | nil => cases h
  | cons a l =>
    simp only [simplifyAll, bind_ok] at h
    obtain ⟨q, hq, h⟩ := h
    cases q with
    | none => cases h
    | some b =>
      have := simplifyGo_ends (hl a (List.mem_cons_self ..)) (fun c hc => hl c (List.mem_cons_of_mem _ hc)) hq
      cases b with
      | flat k v =>
        cases h
        intro w hw
        rw [List.mem_singleton] at hw
        exact hw ▸ this
      | holes l' => cases h; exact this

variable [Add α]

theorem reduceGroup_ends {g : Group α} {a : Arg α} (h : reduceGroup g = .ok a) (hP : ∀ s b, g.startsAt s b → P s b) (hQ : ∀ e b, g.stopsAt e b → Q e b) :
    EndsA P Q a := by
  cases g with
  | S ps =>
    obtain ⟨q, hq, rfl⟩ := map_ok.1 h
    obtain ⟨p, hp, rfl⟩ := List.mem_map.1 (sOverlap_ok hq).1
    rintro i e
    cases e
    exact ends_start (hP _ _ ⟨p, hp, rfl, rfl⟩)
  | Sr ps =>
    obtain ⟨q, hq, rfl⟩ := map_ok.1 h
    obtain ⟨p, hp, rfl⟩ := List.mem_map.1 (srOverlap_ok hq).1
    rintro i e
    cases e
    exact ends_stop (hQ _ _ ⟨p, hp, rfl, rfl⟩)
  | SI ps =>
    obtain ⟨q, hq, rfl⟩ := map_ok.1 h
    refine siOverlap_ends ?_ hq
    intro v hv
    obtain ⟨p, hp, rfl⟩ := List.mem_map.1 hv
    rintro i e
    cases e
    exact ends_both (hP _ _ ⟨p, hp, rfl, rfl⟩) (hQ _ _ ⟨p, hp, rfl, rfl⟩)
  | SIr ps =>
    obtain ⟨q, hq, rfl⟩ := map_ok.1 h
    have := sirOverlap_ends (P := P) (Q := Q) (by
      intro v hv
      obtain ⟨p, hp, rfl⟩ := List.mem_map.1 hv
      exact ends_both (hP _ _ ⟨p, hp, rfl, rfl⟩) (hQ _ _ ⟨p, hp, rfl, rfl⟩)) hq
    intro w hw i e
    obtain ⟨j, hj, rfl⟩ := List.mem_map.1 hw
    cases e
    exact this _ hj

theorem reduceGroups_ends {gs : List (Group α)} {as : List (Arg α)} (h : reduceGroups gs = .ok as) (hP : ∀ g ∈ gs, ∀ s b, g.startsAt s b → P s b)
    (hQ : ∀ g ∈ gs, ∀ e b, g.stopsAt e b → Q e b) : ∀ a ∈ as, EndsA P Q a := by
  induction gs generalizing as with
  | nil => cases h; simp
  | cons g gs ih =>
    simp only [reduceGroups, bind_ok] at h
    obtain ⟨a, ha, as', has, h⟩ := h
    cases h
    intro x hx
    rcases List.mem_cons.1 hx with rfl | hx
    · exact reduceGroup_ends ha (hP g (List.mem_cons_self ..)) (hQ g (List.mem_cons_self ..))
    · exact ih has (fun g hg => hP g (List.mem_cons_of_mem _ hg)) (fun g hg => hQ g (List.mem_cons_of_mem _ hg)) x hx

theorem sigmoidIntervals_ends {gs : List (Group α)} {r : List (Option (Ivl α))} (h : sigmoidIntervals gs = .ok r) :
    EndsL (fun s a => ∃ g ∈ gs, g.startsAt s a) (fun e a => ∃ g ∈ gs, g.stopsAt e a) r := by
  obtain ⟨as, h1, h2⟩ := bind_ok.1 h
  exact simplifyAll_ends (reduceGroups_ends h1 (fun g hg s b hs => ⟨g, hg, hs⟩) (fun g hg s b hs => ⟨g, hg, hs⟩)) h2

end
end Interval
end GPyABCD
