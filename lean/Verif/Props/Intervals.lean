import Verif.Lemmas.Intervals
import Verif.Lemmas.Holes

/-!
# Properties of the reduction of sigmoids to intervals (C44, C45, C46)
-/

namespace GPyABCD
open Interval

variable {α : Type} [LinearOrder α] [Add α]

/-- C44: several upward sigmoids reduce to one of them, on exactly where they all are. -/
theorem C44_starts (ps : List (SigP α)) (h : ps ≠ []) :
    ∃ p ∈ ps, sOverlap (ps.map (fun p => some (sInterval p))) = .ok (some (sInterval p)) ∧
      ∀ x, covers (sInterval p) x ↔ ∀ q ∈ ps, q.loc < x := by
  obtain ⟨r, hr⟩ := sOverlap_total (ps := ps.map (fun p => some (sInterval p))) (by simpa using h) (by
    intro v hv
    obtain ⟨p, _, rfl⟩ := List.mem_map.1 hv
    exact ⟨_, _, rfl, rfl⟩)
  obtain ⟨p, hp, rfl⟩ := List.mem_map.1 (sOverlap_ok hr).1
  obtain ⟨_, c⟩ := sOverlap_S (by
    intro v hv
    obtain ⟨p, _, rfl⟩ := List.mem_map.1 hv
    exact ⟨_, rfl, _, _, rfl⟩) hr
  refine ⟨p, hp, hr, fun x => ?_⟩
  have := c x
  simpa [coversO, covers, sInterval] using this

/-- C44: several downward sigmoids. -/
theorem C44_ends (ps : List (SigP α)) (h : ps ≠ []) :
    ∃ p ∈ ps, srOverlap (ps.map (fun p => some (srInterval p))) = .ok (some (srInterval p)) ∧
      ∀ x, covers (srInterval p) x ↔ ∀ q ∈ ps, x < q.loc := by
  obtain ⟨r, hr⟩ := srOverlap_total (ps := ps.map (fun p => some (srInterval p))) (by simpa using h) (by
    intro v hv
    obtain ⟨p, _, rfl⟩ := List.mem_map.1 hv
    exact ⟨_, _, rfl, rfl⟩)
  obtain ⟨p, hp, rfl⟩ := List.mem_map.1 (srOverlap_ok hr).1
  obtain ⟨_, c⟩ := srOverlap_Sr (by
    intro v hv
    obtain ⟨p, _, rfl⟩ := List.mem_map.1 hv
    exact ⟨_, rfl, _, _, rfl⟩) hr
  refine ⟨p, hp, hr, fun x => ?_⟩
  have := c x
  simpa [coversO, covers, srInterval] using this

/-- C44: several windows reduce to the last start and the first end, with the slopes of those windows; the result is `None`
exactly when some window ends no later than another starts. -/
theorem C44_windows (ps : List (SigP α)) (h : ps ≠ []) :
    ∃ r, siOverlap (ps.map (fun p => some (siInterval p))) = .ok r ∧
      (r = none ↔ ∃ p ∈ ps, ∃ q ∈ ps, q.loc + q.width ≤ p.loc) ∧
      (∀ i, r = some i → ∃ p ∈ ps, ∃ q ∈ ps, i = ⟨some p.loc, some (q.loc + q.width), some p.slope, some q.slope⟩) ∧
      ∀ x, coversO r x ↔ ∀ q ∈ ps, q.loc < x ∧ x < q.loc + q.width := by
  have hsh : ∀ v ∈ ps.map (fun p => some (siInterval p)), ∃ j, v = some j ∧ Shape .SI j := by
    intro v hv
    obtain ⟨p, _, rfl⟩ := List.mem_map.1 hv
    exact ⟨_, rfl, _, _, _, _, rfl⟩
  obtain ⟨r, hr⟩ := siOverlap_total (ps := ps.map (fun p => some (siInterval p))) (by simpa using h) hsh
  obtain ⟨_, c⟩ := siOverlap_SI (by
    intro v hv
    obtain ⟨j, rfl, hj⟩ := hsh v hv
    exact hj) hr
  have main := hr
  unfold siOverlap at main
  simp only [bind_ok, sub_ok] at main
  obtain ⟨a, ha, b, hb, s, ⟨ia, rfl, his⟩, e, ⟨ib, rfl, hie⟩, ss, ⟨ia', e1, hss⟩, es, ⟨ib', e2, hes⟩, main⟩ := main
  cases e1
  cases e2
  obtain ⟨ma, ia', s', e1, e2, alls⟩ := sOverlap_ok ha
  cases e1
  rw [his] at e2
  cases e2
  obtain ⟨mb, ib', e', e1, e2, alle⟩ := srOverlap_ok hb
  cases e1
  rw [hie] at e2
  cases e2
  obtain ⟨p, hp, e1⟩ := List.mem_map.1 ma
  cases e1
  obtain ⟨q, hq, e1⟩ := List.mem_map.1 mb
  cases e1
  cases his
  cases hie
  cases hss
  cases hes
  have hs : ∀ p' ∈ ps, p'.loc ≤ p.loc := by
    intro p' hp'
    obtain ⟨j, t, e1, e2, hle⟩ := alls _ (List.mem_map.2 ⟨p', hp', rfl⟩)
    cases e1
    cases e2
    exact hle
  have he : ∀ q' ∈ ps, q.loc + q.width ≤ q'.loc + q'.width := by
    intro p' hp'
    obtain ⟨j, t, e1, e2, hle⟩ := alle _ (List.mem_map.2 ⟨p', hp', rfl⟩)
    cases e1
    cases e2
    exact hle
  have reg : ∀ x, coversO r x ↔ ∀ q ∈ ps, q.loc < x ∧ x < q.loc + q.width := by
    intro x
    have := c x
    simpa [coversO, covers, siInterval] using this
  refine ⟨r, hr, ?_, ?_, reg⟩
  · split at main
    · rename_i hlt
      cases main
      simp only [reduceCtorEq, false_iff]
      rintro ⟨p', hp', q', hq', hle⟩
      exact absurd hlt (not_lt.2 (((he q' hq').trans hle).trans (hs p' hp')))
    · rename_i hlt
      cases main
      simp only [true_iff]
      exact ⟨p, hp, q, hq, not_lt.1 hlt⟩
  · intro i hi
    split at main
    · cases main
      cases hi
      exact ⟨p, hp, q, hq, rfl⟩
    · cases main
      cases hi

example : siOverlap [some (siInterval (⟨0, 2, 5⟩ : SigP Int)), some (siInterval ⟨3, 4, 9⟩)] = .ok (some ⟨some 3, some 5, some 4, some 2⟩) := by
  rfl
example : siOverlap [some (siInterval (⟨0, 2, 1⟩ : SigP Int)), some (siInterval ⟨3, 4, 9⟩)] = .ok none := by rfl

/-- C45: whenever reversed windows are reduced at all, the union of the intervals is exactly the set of points outside every
window.  Missing from the full claim: the reduction does not always succeed, see `C45_two` and `C45_raises`. -/
theorem C45_sound_partial (ps : List (SigP α)) (hw : ∀ p ∈ ps, p.loc ≤ p.loc + p.width) (r : List (Ivl α))
    (h : sirOverlap (ps.map sirHole) = .ok r) (x : α) :
    (∃ i ∈ r, covers i x) ↔ ∀ p ∈ ps, x < p.loc ∨ p.loc + p.width < x := by
  obtain ⟨_, c⟩ := sirOverlap_ok (by
    intro v hv
    obtain ⟨p, hp, rfl⟩ := List.mem_map.1 hv
    exact ⟨_, _, _, _, rfl, hw p hp⟩) h
  have := c x
  simpa [coversI, outside, sirHole] using this

/-- C45: windows listed by strictly increasing start are reduced without raising. -/
theorem C45_increasing (ps : List (SigP α)) (h0 : ps ≠ []) (hw : ∀ p ∈ ps, p.loc ≤ p.loc + p.width)
    (hs : ps.Pairwise (fun p q => p.loc < q.loc)) : ∃ r, sirOverlap (ps.map sirHole) = .ok r := by
  cases ps with
  | nil => exact absurd rfl h0
  | cons p ps =>
    refine sirOverlap_total (h := sirHole p) (hs := ps.map sirHole) ?_ ?_
    · intro v hv
      have hv : v ∈ (p :: ps).map sirHole := hv
      obtain ⟨p, hp, rfl⟩ := List.mem_map.1 hv
      exact ⟨_, _, _, _, rfl, hw p hp⟩
    · have : ((p :: ps).map sirHole).Pairwise (fun h h' => ∀ e ∈ h.stop, ∀ e' ∈ h'.stop, e < e') := by
        rw [List.pairwise_map]
        refine hs.imp ?_
        rintro p q hpq e he e' he'
        cases he
        cases he'
        exact hpq
      exact this

/-- C45: two windows are reduced exactly when the first listed does not start after the second; otherwise `KeyError`
(`hole['slope']` is looked up but holes carry `start_slope` and `end_slope`). -/
theorem C45_two (p q : SigP α) :
    (q.loc < p.loc → sirOverlap [sirHole p, sirHole q] = .error .key) ∧
      (p.loc ≤ q.loc → ∃ r, sirOverlap [sirHole p, sirHole q] = .ok r) := by
  constructor
  · intro h
    simp [sirOverlap, sirHole, sirSplit, sirFold, sirStep, sirOne, isSemiline, semilineHole, Interval.get, Ivl.slope, bind, Except.bind,
      pure, Except.pure, h]
  · intro h
    by_cases c1 : p.loc + p.width < q.loc + q.width
    · by_cases c2 : p.loc + p.width < q.loc <;>
      simp [sirOverlap, sirHole, sirSplit, sirFold, sirStep, sirOne, isSemiline, semilineHole, Interval.get, Ivl.slope, bind, Except.bind,
        pure, Except.pure, not_lt.2 h, c1, c2]
    · simp [sirOverlap, sirHole, sirSplit, sirFold, sirStep, sirOne, isSemiline, semilineHole, Interval.get, Ivl.slope, bind, Except.bind,
        pure, Except.pure, not_lt.2 h, c1]

/-- C45, exactly when: reversed windows are reduced if and only if each fits the ones listed before it (it does not start before the first, and
neither starts nor ends in a gap between them); otherwise `KeyError`. -/
theorem C45_iff (ps : List (SigP α)) (h0 : ps ≠ []) (hw : ∀ p ∈ ps, p.loc ≤ p.loc + p.width) :
    ((∃ r, sirOverlap (ps.map sirHole) = .ok r) ↔ ∀ qs p rest, ps = qs ++ p :: rest → qs ≠ [] → Fits qs p) ∧
    ((∃ r, sirOverlap (ps.map sirHole) = .ok r) ∨ sirOverlap (ps.map sirHole) = .error .key) := by
  cases ps with
  | nil => exact absurd rfl h0
  | cons x ps =>
    obtain ⟨acc, e, h⟩ := holed_one x (hw x (List.mem_cons_self ..))
    obtain ⟨f1, f2⟩ := holed_fold ps (fun p hp => hw p (List.mem_cons_of_mem _ hp)) (by simp) h
    simp only [List.map_cons, sirOverlap, e, bind, Except.bind]
    by_cases hall : ∀ a p b, ps = a ++ p :: b → Fits ([x] ++ a) p
    · refine ⟨⟨fun _ qs p rest hq hne => ?_, fun _ => f1 hall⟩, Or.inl (f1 hall)⟩
      cases qs with
      | nil => exact absurd rfl hne
      | cons y qs =>
        simp only [List.cons_append, List.cons.injEq] at hq
        obtain ⟨rfl, hq⟩ := hq
        exact hall qs p rest hq
    · simp only [not_forall] at hall
      obtain ⟨a, p, b, hab, hn⟩ := hall
      have hk := f2 ⟨a, p, b, hab, hn⟩
      refine ⟨⟨fun ⟨r, hr⟩ => (by rw [hk] at hr; cases hr), fun hall => absurd (hall (x :: a) p b (by rw [hab]; rfl) (by simp)) hn⟩, Or.inr hk⟩

-- windows listed out of order that can be reduced: 0 to 9, 5 to 6, 3 to 12; a window may also cover a gap: 0 to 1, 5 to 6, 0 to 8
example : (∃ r, sirOverlap (([⟨0, 1, 9⟩, ⟨5, 1, 1⟩, ⟨3, 1, 9⟩] : List (SigP Int)).map sirHole) = .ok r) ∧
    (∃ r, sirOverlap (([⟨0, 1, 1⟩, ⟨5, 1, 1⟩, ⟨0, 1, 8⟩] : List (SigP Int)).map sirHole) = .ok r) ∧ Gap ([⟨0, 1, 1⟩, ⟨5, 1, 1⟩] : List (SigP Int)) 1 5 :=
  ⟨⟨_, rfl⟩, ⟨_, rfl⟩, by unfold Gap; decide⟩

/-- C45, the full claim is false: two disjoint windows, the later one listed first. -/
theorem C45_raises : ∃ ps : List (SigP Int), ps ≠ [] ∧ (∀ p ∈ ps, p.loc ≤ p.loc + p.width) ∧
    sirOverlap (ps.map sirHole) = .error .key :=
  ⟨[⟨5, 1, 1⟩, ⟨0, 1, 1⟩], by decide, by decide, by rfl⟩

/-- C45: nor is it enough that the first window starts first. -/
theorem C45_raises_later : sirOverlap (([⟨0, 1, 1⟩, ⟨9, 1, 1⟩, ⟨5, 1, 1⟩] : List (SigP Int)).map sirHole) = .error .key := by rfl

example : sirOverlap (([⟨0, 1, 1⟩, ⟨5, 1, 1⟩, ⟨9, 1, 1⟩] : List (SigP Int)).map sirHole) =
    .ok [{ stop := some 0, stopSlope := some 1 }, ⟨some 1, some 5, some 1, some 1⟩, ⟨some 6, some 9, some 1, some 1⟩,
      { start := some 10, startSlope := some 1 }] := by rfl

/-- C46: whenever a mixture of sigmoids is reduced at all, the intervals cover exactly the intersection of the regions.
Missing from the full claim: it can raise, and the list can contain `None`, see `C46_raises` and `C46_none`. -/
theorem C46_sound_partial (gs : List (Group α)) (hw : ∀ g ∈ gs, g.widths) (r : List (Option (Ivl α)))
    (h : sigmoidIntervals gs = .ok r) (x : α) : coversL r x ↔ ∀ g ∈ gs, g.on x := by
  obtain ⟨as, ha, h⟩ := bind_ok.1 h
  obtain ⟨s, _, c⟩ := reduceGroups_ok hw ha
  obtain ⟨_, _, c'⟩ := simplifyAll_ok s h
  rw [c', c]

/-- C46: two orders that are both reduced give the same region. -/
theorem C46_order (gs gs' : List (Group α)) (hp : gs.Perm gs') (hw : ∀ g ∈ gs, g.widths) (r r' : List (Option (Ivl α)))
    (h : sigmoidIntervals gs = .ok r) (h' : sigmoidIntervals gs' = .ok r') (x : α) : coversL r x ↔ coversL r' x := by
  rw [C46_sound_partial gs hw r h, C46_sound_partial gs' (fun g hg => hw g (hp.mem_iff.2 hg)) r' h']
  exact ⟨fun k g hg => k g (hp.mem_iff.2 hg), fun k g hg => k g (hp.mem_iff.1 hg)⟩

/-- A non-empty group that is not of reversed windows. -/
def PlainGroup : Group α → Prop
  | .S ps => ps ≠ []
  | .Sr ps => ps ≠ []
  | .SI ps => ps ≠ []
  | .SIr _ => False

omit [Add α] in
private theorem shape_of_list (i : Ivl α) (k : Kind) (h : Shape k i) : ShapeL (some i) := by
  rintro j e
  cases e
  exact ⟨k, h⟩

private theorem reduce_plain (g : Group α) (hg : PlainGroup g) (x : α) (hx : g.on x) :
    ∃ a, reduceGroup g = .ok a ∧ Flat a x := by
  cases g with
  | S ps =>
    obtain ⟨p, hp, h, c⟩ := C44_starts ps hg
    exact ⟨_, by rw [reduceGroup, h]; rfl, .S, _, rfl, ⟨_, _, rfl⟩, (c x).2 hx⟩
  | Sr ps =>
    obtain ⟨p, hp, h, c⟩ := C44_ends ps hg
    exact ⟨_, by rw [reduceGroup, h]; rfl, .Sr, _, rfl, ⟨_, _, rfl⟩, (c x).2 hx⟩
  | SI ps =>
    obtain ⟨r, h, _, hi, c⟩ := C44_windows ps hg
    obtain ⟨i, rfl, hc⟩ := (c x).2 hx
    obtain ⟨p, _, q, _, rfl⟩ := hi i rfl
    exact ⟨_, by rw [reduceGroup, h]; rfl, .SI, _, rfl, ⟨_, _, _, _, rfl⟩, hc⟩
  | SIr ps => cases hg

private theorem reduce_plains (gs : List (Group α)) (hg : ∀ g ∈ gs, PlainGroup g) (x : α) (hx : ∀ g ∈ gs, g.on x) :
    ∃ as, reduceGroups gs = .ok as ∧ (∀ a ∈ as, Flat a x) ∧ as.length = gs.length := by
  induction gs with
  | nil => exact ⟨[], rfl, by simp, rfl⟩
  | cons g gs ih =>
    obtain ⟨a, ha, hf⟩ := reduce_plain g (hg g (List.mem_cons_self ..)) x (hx g (List.mem_cons_self ..))
    obtain ⟨as, has, hfs, hl⟩ := ih (fun g h => hg g (List.mem_cons_of_mem _ h)) (fun g h => hx g (List.mem_cons_of_mem _ h))
    refine ⟨a :: as, by rw [reduceGroups, ha, has]; rfl, ?_, by simp [hl]⟩
    intro b hb
    rcases List.mem_cons.1 hb with rfl | hb
    · exact hf
    · exact hfs b hb

private theorem reduceGroups_append (gs gs' : List (Group α)) (as as' : List (Arg α)) (h : reduceGroups gs = .ok as)
    (h' : reduceGroups gs' = .ok as') : reduceGroups (gs ++ gs') = .ok (as ++ as') := by
  induction gs generalizing as with
  | nil => cases h; exact h'
  | cons g gs ih =>
    simp only [reduceGroups, bind_ok] at h
    obtain ⟨a, ha, bs, hbs, h⟩ := h
    cases h
    rw [List.cons_append, reduceGroups, ha, ih bs hbs]
    rfl

omit [Add α] in
private theorem simplifyGo_append (a b : Option (Arg α)) (l l' : List (Arg α)) (h : simplifyGo a l = .ok b) :
    simplifyGo a (l ++ l') = simplifyGo b l' := by
  induction l generalizing a with
  | nil => cases h; rfl
  | cons c l ih =>
    simp only [simplifyGo, bind_ok] at h
    obtain ⟨a', ha', h⟩ := h
    rw [List.cons_append, simplifyGo, ha']
    exact ih a' h

/-- C46: without reversed windows, if there is any point where everything is on, the result is one interval, in any order. -/
theorem C46_plain (gs : List (Group α)) (h0 : gs ≠ []) (hg : ∀ g ∈ gs, PlainGroup g) (x : α) (hx : ∀ g ∈ gs, g.on x) :
    ∃ i, sigmoidIntervals gs = .ok [some i] := by
  obtain ⟨as, has, hf, hl⟩ := reduce_plains gs hg x hx
  cases as with
  | nil => exact absurd (List.length_eq_zero_iff.1 hl.symm) h0
  | cons a as =>
    obtain ⟨b, hb, k, i, rfl, _⟩ := simplifyGo_flat (hf a (List.mem_cons_self ..)) (fun c hc => hf c (List.mem_cons_of_mem _ hc))
    refine ⟨i, ?_⟩
    rw [sigmoidIntervals, has]
    show simplifyAll (a :: as) = _
    rw [simplifyAll, hb]
    rfl

/-- C46: one reversed window, after other kinds with a common point, is always reduced, to intervals only. -/
theorem C46_window_last (gs : List (Group α)) (h0 : gs ≠ []) (hg : ∀ g ∈ gs, PlainGroup g) (x : α) (hx : ∀ g ∈ gs, g.on x)
    (p : SigP α) : ∃ r, sigmoidIntervals (gs ++ [.SIr [p]]) = .ok r ∧ none ∉ r := by
  obtain ⟨as, has, hf, hl⟩ := reduce_plains gs hg x hx
  cases as with
  | nil => exact absurd (List.length_eq_zero_iff.1 hl.symm) h0
  | cons a as =>
    obtain ⟨b, hb, k, i, rfl, hk, _⟩ := simplifyGo_flat (hf a (List.mem_cons_self ..)) (fun c hc => hf c (List.mem_cons_of_mem _ hc))
    let pieces : List (Ivl α) := [{ stop := some p.loc, stopSlope := some p.slope },
      { start := some (p.loc + p.width), startSlope := some p.slope }]
    have hs : reduceGroups [(.SIr [p] : Group α)] = .ok [.holes (pieces.map some)] := rfl
    have hpieces : ∀ j ∈ pieces, (∃ k, Shape k j) ∧ ¬ Shape .SI j := by
      simp only [pieces, List.mem_cons, List.not_mem_nil, or_false]
      rintro j (rfl | rfl)
      · refine ⟨⟨.Sr, _, _, rfl⟩, ?_⟩
        rintro ⟨_, _, _, _, e⟩
        cases e
      · refine ⟨⟨.S, _, _, rfl⟩, ?_⟩
        rintro ⟨_, _, _, _, e⟩
        cases e
    obtain ⟨q, hq, hn⟩ := pairHoles_total hk (fun j hj => (hpieces j hj).1)
    have hn : none ∉ q := by
      intro h
      obtain ⟨_, j, hj, hs⟩ := hn h
      exact (hpieces j hj).2 hs
    have hsl : ∀ w ∈ q, ShapeL w := (pairHoles_ok (show ShapeO k (some i) from hk) (by
      intro w hw
      obtain ⟨j, hj, rfl⟩ := List.mem_map.1 hw
      obtain ⟨k, hk⟩ := (hpieces j hj).1
      exact shape_of_list j k hk) hq).1
    have hgo : simplifyGo (some a) (as ++ [.holes (pieces.map some)]) = .ok (stepRes (unwrap q)) := by
      rw [simplifyGo_append _ _ _ _ hb]
      simp only [simplifyGo, simplifyStep, pair, hq, Functor.map, Except.map, bind, Except.bind]
    have hall : sigmoidIntervals (gs ++ [.SIr [p]]) = simplifyAll (a :: (as ++ [.holes (pieces.map some)])) := by
      rw [sigmoidIntervals, reduceGroups_append _ _ _ _ has hs]
      rfl
    rw [hall, simplifyAll, hgo]
    unfold unwrap
    split
    · rename_i v _
      cases v with
      | none => simp at hn
      | some m =>
        obtain ⟨k', hk'⟩ := hsl (some m) (by simp) m rfl
        refine ⟨[some m], ?_, by simp⟩
        simp only [Res.ofOpt, stepRes, identify_shape hk', bind, Except.bind]
        rfl
    · exact ⟨q, rfl, hn⟩

/-- C46, the full claim is false: disjoint windows of one kind with another kind raise `TypeError`; an empty intersection met
before reversed windows raises `KeyError`. -/
theorem C46_raises :
    sigmoidIntervals [.SI [⟨0, 1, 1⟩, ⟨5, 1, 1⟩], .S [(⟨0, 1, 0⟩ : SigP Int)]] = .error .type ∧
      sigmoidIntervals [.S [⟨5, 1, 0⟩], .Sr [⟨1, 1, 0⟩], .SIr [(⟨9, 1, 1⟩ : SigP Int)]] = .error .key := ⟨rfl, rfl⟩

/-- C46, the full claim is false: the list can contain `None`, even where the intersection is not empty. -/
theorem C46_none :
    sigmoidIntervals [.SI [⟨0, 1, 1⟩, (⟨5, 1, 1⟩ : SigP Int)]] = .ok [none] ∧
      sigmoidIntervals [.SIr [⟨0, 1, 1⟩, ⟨3, 1, 1⟩], .SI [(⟨6, 1, 4⟩ : SigP Int)]] =
        .ok [none, some ⟨some 6, some 10, some 1, some 1⟩] := ⟨rfl, rfl⟩

/-- C46, the full claim is false: whether it raises depends on the order of the kinds, for the same non-empty region. -/
theorem C46_order_matters :
    sigmoidIntervals [.SIr [⟨0, 1, 1⟩, ⟨3, 1, 1⟩], .SI [⟨6, 1, 4⟩], .S [(⟨7, 1, 0⟩ : SigP Int)]] = .error .type ∧
      sigmoidIntervals [.S [⟨7, 1, 0⟩], .SIr [⟨0, 1, 1⟩, ⟨3, 1, 1⟩], .SI [(⟨6, 1, 4⟩ : SigP Int)]] =
        .ok [some ⟨some 7, some 10, some 1, some 1⟩] := ⟨rfl, rfl⟩

example : sigmoidIntervals [.S [⟨2, 1, 0⟩], .Sr [⟨9, 1, 0⟩], .SIr [(⟨4, 3, 1⟩ : SigP Int)]] =
    .ok [some ⟨some 2, some 4, some 1, some 3⟩, some ⟨some 5, some 9, some 3, some 1⟩] := rfl
example : PlainGroup (.S [(⟨2, 1, 0⟩ : SigP Int)]) ∧ PlainGroup (.Sr [(⟨9, 1, 0⟩ : SigP Int)]) ∧
    (Group.on 5 (.S [(⟨2, 1, 0⟩ : SigP Int)])) := by simp [PlainGroup, Group.on]

end GPyABCD
