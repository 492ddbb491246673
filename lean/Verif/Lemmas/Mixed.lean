import Verif.Lemmas.Holes
import Mathlib.Order.Max

/-!
# When sigmoids of several kinds can be reduced (C46)
-/

namespace GPyABCD
namespace Interval

variable {α : Type} [LinearOrder α]

section
variable [DenselyOrdered α] [NoMinOrder α] [NoMaxOrder α]

theorem siOverlap_point {v : List (Option (Ivl α))} {m : Ivl α} (h : siOverlap v = .ok (some m)) : ∃ x, covers m x := by
  unfold siOverlap at h
  simp only [bind_ok, sub_ok] at h
  obtain ⟨a, ha, b, hb, s, _, e, _, ss, _, es, _, h⟩ := h
  split at h
  · rename_i hlt
    cases h
    obtain ⟨x, h1, h2⟩ := exists_between hlt
    exact ⟨x, (covers_SI _ _ _ _ _).2 ⟨h1, h2⟩⟩
  · cases h

/-- Two dictionaries that do not overlap. -/
theorem pairFlat_apart {k1 k2 : Kind} {i j : Ivl α} (h1 : Shape k1 i) (h2 : Shape k2 j) (n1 : ∃ x, covers i x) (n2 : ∃ x, covers j x)
    (h : ¬ ∃ x, covers i x ∧ covers j x) :
    pairFlat k1 (some i) k2 (some j) = .ok (if k1 = .SI ∧ k2 = .SI then .none else .list []) := by
  have semi : ∀ {a b : Ivl α}, Shape .SI a → (Shape .S b ∨ Shape .Sr b) → (∃ x, covers a x) → (¬ ∃ x, covers a x ∧ covers b x) →
      pairSeg (some a) (some b) = .ok (.list []) := by
    rintro a b ⟨s, e, ss, es, rfl⟩ (⟨t, ts, rfl⟩ | ⟨t, ts, rfl⟩) ⟨y, hy⟩ hn
    · have c1 : ¬ t < e := fun c => hn (by
        obtain ⟨x, h1, h2⟩ := exists_between (max_lt (((covers_SI _ _ _ _ _).1 hy).1.trans ((covers_SI _ _ _ _ _).1 hy).2) c)
        exact ⟨x, (covers_SI _ _ _ _ _).2 ⟨(le_max_left _ _).trans_lt h1, h2⟩, (covers_S _ _ _).2 ((le_max_right _ _).trans_lt h1)⟩)
      simp [pairSeg, segmentSemiline, sub, get, bind, Except.bind, pure, Except.pure, c1]
    · have c1 : ¬ s < t := fun c => hn (by
        obtain ⟨x, h1, h2⟩ := exists_between (lt_min (((covers_SI _ _ _ _ _).1 hy).1.trans ((covers_SI _ _ _ _ _).1 hy).2) c)
        exact ⟨x, (covers_SI _ _ _ _ _).2 ⟨h1, h2.trans_le (min_le_left _ _)⟩, (covers_Sr _ _ _).2 (h2.trans_le (min_le_right _ _))⟩)
      simp [pairSeg, segmentSemiline, sub, get, bind, Except.bind, pure, Except.pure, c1]
  have ends : ∀ {a b : Ivl α}, Shape .S a → Shape .Sr b → (¬ ∃ x, covers a x ∧ covers b x) → pairEnds (some a) (some b) = .ok (.list []) := by
    rintro a b ⟨t, ts, rfl⟩ ⟨u, us, rfl⟩ hn
    have c1 : ¬ t < u := fun c => hn (by
      obtain ⟨x, h1, h2⟩ := exists_between c
      exact ⟨x, (covers_S _ _ _).2 h1, (covers_Sr _ _ _).2 h2⟩)
    simp [pairEnds, sub, get, bind, Except.bind, pure, Except.pure, c1]
  have h' : ¬ ∃ x, covers j x ∧ covers i x := fun ⟨x, a, b⟩ => h ⟨x, b, a⟩
  unfold pairFlat
  cases k1 <;> cases k2
  · exfalso
    obtain ⟨s, ss, rfl⟩ := h1
    obtain ⟨t, ts, rfl⟩ := h2
    obtain ⟨x, hx⟩ := exists_gt (max s t)
    exact h ⟨x, (covers_S _ _ _).2 ((le_max_left _ _).trans_lt hx), (covers_S _ _ _).2 ((le_max_right _ _).trans_lt hx)⟩
  · exact ends h1 h2 h
  · exact semi h2 (Or.inl h1) n2 h'
  · exact ends h2 h1 h'
  · exfalso
    obtain ⟨s, ss, rfl⟩ := h1
    obtain ⟨t, ts, rfl⟩ := h2
    obtain ⟨x, hx⟩ := exists_lt (min s t)
    exact h ⟨x, (covers_Sr _ _ _).2 (hx.trans_le (min_le_left _ _)), (covers_Sr _ _ _).2 (hx.trans_le (min_le_right _ _))⟩
  · exact semi h2 (Or.inr h1) n2 h'
  · exact semi h1 (Or.inl h2) n1 h
  · exact semi h1 (Or.inr h2) n1 h
  · rw [if_pos rfl, if_pos ⟨rfl, rfl⟩]
    obtain ⟨r, hr⟩ := siOverlap_total (ps := [some i, some j]) (by simp) (pair_mem.2 ⟨⟨i, rfl, h1⟩, ⟨j, rfl, h2⟩⟩)
    cases r with
    | none => simp only [hr]; rfl
    | some m =>
      exfalso
      obtain ⟨x, hx⟩ := siOverlap_point hr
      obtain ⟨⟨_, e1, h3⟩, ⟨_, e2, h4⟩⟩ := pair_mem.1 ((siOverlap_SI (ps := [some i, some j]) (pair_mem.2 ⟨h1, h2⟩) hr).2 x |>.1 ⟨m, rfl, hx⟩)
      cases e1; cases e2
      exact h ⟨x, h3, h4⟩

/-- Non-empty intervals one after the other. -/
structure Tiles (l : List (Ivl α)) : Prop where
  shape : ∀ i ∈ l, ∃ k, Shape k i
  point : ∀ i ∈ l, ∃ x, covers i x
  order : l.Pairwise (fun i j => ∀ x y, covers i x → covers j y → x < y)

omit [DenselyOrdered α] [NoMinOrder α] [NoMaxOrder α] in
theorem Tiles.same {l : List (Ivl α)} (h : Tiles l) {i j : Ivl α} (hi : i ∈ l) (hj : j ∈ l) {x : α} (h1 : covers i x) (h2 : covers j x) : i = j := by
  by_contra hne
  obtain ⟨n, hn, rfl⟩ := List.mem_iff_getElem.1 hi
  obtain ⟨m, hm, rfl⟩ := List.mem_iff_getElem.1 hj
  rcases lt_trichotomy n m with c | rfl | c
  · exact lt_irrefl _ (List.pairwise_iff_getElem.1 h.order n m hn hm c x x h1 h2)
  · exact hne rfl
  · exact lt_irrefl _ (List.pairwise_iff_getElem.1 h.order m n hm hn c x x h2 h1)

omit [NoMinOrder α] [NoMaxOrder α] in
theorem covers_right {j : Ivl α} {a c : α} (h : covers j a) (hac : a < c) : ∃ y, a < y ∧ y < c ∧ covers j y := by
  cases hs : j.stop with
  | none =>
    obtain ⟨y, h1, h2⟩ := exists_between hac
    exact ⟨y, h1, h2, fun s hs => (h.1 s hs).trans h1, by simp [hs]⟩
  | some e =>
    obtain ⟨y, h1, h2⟩ := exists_between (lt_min hac (h.2 e hs))
    refine ⟨y, h1, h2.trans_le (min_le_left _ _), fun s hs => (h.1 s hs).trans h1, fun e' he' => ?_⟩
    rw [hs] at he'
    cases he'
    exact h2.trans_le (min_le_right _ _)

omit [NoMinOrder α] [NoMaxOrder α] in
theorem covers_left {j : Ivl α} {a c : α} (h : covers j a) (hac : c < a) : ∃ y, c < y ∧ y < a ∧ covers j y := by
  cases hs : j.start with
  | none =>
    obtain ⟨y, h1, h2⟩ := exists_between hac
    exact ⟨y, h1, h2, by simp [hs], fun s hs => h2.trans (h.2 s hs)⟩
  | some e =>
    obtain ⟨y, h1, h2⟩ := exists_between (max_lt hac (h.1 e hs))
    refine ⟨y, (le_max_left _ _).trans_lt h1, h2, fun e' he' => ?_, fun s hs => h2.trans (h.2 s hs)⟩
    rw [hs] at he'
    cases he'
    exact (le_max_right _ _).trans_lt h1

omit [NoMinOrder α] [NoMaxOrder α] in
/-- The bounded pieces of a tiled region are its bounded intervals. -/
theorem Tiles.piece {l : List (Ivl α)} (h : Tiles l) {R : α → Prop} (hR : ∀ x, coversI l x ↔ R x) (a b : α) :
    Piece R a b ↔ ∃ i ∈ l, i.start = some a ∧ i.stop = some b := by
  constructor
  · rintro ⟨hab, hin, ha, hb⟩
    obtain ⟨x, h1, h2⟩ := exists_between hab
    obtain ⟨i, hi, hx⟩ := (hR x).2 (hin x h1 h2)
    refine ⟨i, hi, ?_, ?_⟩
    · cases hs : i.start with
      | none => exact absurd ((hR a).1 ⟨i, hi, by simp [hs], fun e he => h1.trans (hx.2 e he)⟩) ha
      | some s =>
        have hsx := hx.1 s hs
        rcases lt_trichotomy s a with c | rfl | c
        · refine absurd ((hR a).1 ⟨i, hi, fun s' hs' => ?_, fun e he => h1.trans (hx.2 e he)⟩) ha
          rw [hs] at hs'
          cases hs'
          exact c
        · rfl
        · exfalso
          obtain ⟨j, hj, hjs⟩ := (hR s).2 (hin s c (hsx.trans h2))
          obtain ⟨y, y1, y2, y3⟩ := covers_right hjs hsx
          have := h.same hi hj (x := y) ⟨fun s' hs' => by rw [hs] at hs'; cases hs'; exact y1, fun e he => y2.trans (hx.2 e he)⟩ y3
          subst this
          exact lt_irrefl _ (hjs.1 s hs)
    · cases hs : i.stop with
      | none => exact absurd ((hR b).1 ⟨i, hi, fun e he => (hx.1 e he).trans h2, by simp [hs]⟩) hb
      | some s =>
        have hsx := hx.2 s hs
        rcases lt_trichotomy s b with c | rfl | c
        · exfalso
          obtain ⟨j, hj, hjs⟩ := (hR s).2 (hin s (h1.trans hsx) c)
          obtain ⟨y, y1, y2, y3⟩ := covers_left hjs hsx
          have := h.same hi hj (x := y) ⟨fun e he => (hx.1 e he).trans y1, fun s' hs' => by rw [hs] at hs'; cases hs'; exact y2⟩ y3
          subst this
          exact lt_irrefl _ (hjs.2 s hs)
        · rfl
        · refine absurd ((hR b).1 ⟨i, hi, fun e he => (hx.1 e he).trans h2, fun s' hs' => ?_⟩) hb
          rw [hs] at hs'
          cases hs'
          exact c
  · rintro ⟨i, hi, hs, he⟩
    obtain ⟨x, hx⟩ := h.point i hi
    have hsx := hx.1 a hs
    have hxe := hx.2 b he
    have hc : ∀ y, a < y → y < b → covers i y := fun y h1 h2 =>
      ⟨fun s' hs' => by rw [hs] at hs'; cases hs'; exact h1, fun s' hs' => by rw [he] at hs'; cases hs'; exact h2⟩
    refine ⟨hsx.trans hxe, fun y h1 h2 => (hR y).1 ⟨i, hi, hc y h1 h2⟩, fun ha => ?_, fun hb => ?_⟩
    · obtain ⟨j, hj, hja⟩ := (hR a).2 ha
      obtain ⟨y, y1, y2, y3⟩ := covers_right hja (hsx.trans hxe)
      have := h.same hi hj (hc y y1 y2) y3
      subst this
      exact lt_irrefl _ (hja.1 a hs)
    · obtain ⟨j, hj, hja⟩ := (hR b).2 hb
      obtain ⟨y, y1, y2, y3⟩ := covers_left hja (hsx.trans hxe)
      have := h.same hi hj (hc y y1 y2) y3
      subst this
      exact lt_irrefl _ (hja.2 b he)

/-- Two windows that do not overlap, which are reduced to `None`. -/
def Clash (i j : Ivl α) : Prop := Shape .SI i ∧ Shape .SI j ∧ ¬ ∃ x, covers i x ∧ covers j x

/-- One interval against several. -/
theorem pairHoles_tiles {k : Kind} {i : Ivl α} (hi : Shape k i) (ni : ∃ x, covers i x) {l : List (Ivl α)} (hl : Tiles l) :
    ((∀ j ∈ l, ¬ Clash i j) → ∃ l', pairHoles k (some i) (l.map some) = .ok (l'.map some) ∧ Tiles l' ∧
      (∀ x, coversI l' x ↔ covers i x ∧ coversI l x) ∧ ∀ m ∈ l', ∃ j ∈ l, ∀ x, covers m x → covers j x) ∧
    ((∃ j ∈ l, Clash i j) → ∃ r, pairHoles k (some i) (l.map some) = .ok r ∧ none ∈ r) := by
  induction l with
  | nil => exact ⟨fun _ => ⟨[], rfl, hl, by simp [coversI], by simp⟩, by simp⟩
  | cons j l ih =>
    obtain ⟨k', hk'⟩ := hl.shape j List.mem_cons_self
    have hl' : Tiles l := ⟨fun i h => hl.shape i (List.mem_cons_of_mem _ h), fun i h => hl.point i (List.mem_cons_of_mem _ h), (List.pairwise_cons.1 hl.order).2⟩
    obtain ⟨ih1, ih2⟩ := ih hl'
    have hkk : ∀ {k k' : Kind} {m : Ivl α}, Shape k m → Shape k' m → k = k' := by
      intro k k' m a b
      have := (identify_shape a).symm.trans (identify_shape b)
      simpa using this
    have hclash : Clash i j ↔ (k = .SI ∧ k' = .SI) ∧ ¬ ∃ x, covers i x ∧ covers j x := by
      constructor
      · rintro ⟨a, b, c⟩; exact ⟨⟨hkk hi a, hkk hk' b⟩, c⟩
      · rintro ⟨⟨rfl, rfl⟩, c⟩; exact ⟨hi, hk', c⟩
    obtain ⟨rs, hrs, _⟩ := pairHoles_total hi hl'.shape
    constructor
    · intro hn
      obtain ⟨l', e1, e2, e3, e4⟩ := ih1 (fun j hj => hn j (List.mem_cons_of_mem _ hj))
      have hnj := hn j List.mem_cons_self
      rw [hclash] at hnj
      by_cases hm : ∃ x, covers i x ∧ covers j x
      · obtain ⟨x, x1, x2⟩ := hm
        obtain ⟨m, km, f1, f2, f3⟩ := pairFlat_meet hi hk' x1 x2
        have fc : ∀ x, covers m x ↔ covers i x ∧ covers j x := by
          intro x
          have := (pairFlat_ok (show ShapeO k (some i) from hi) (show ShapeO k' (some j) from hk') f1).2 x
          simpa [coversR, coversO] using this
        refine ⟨m :: l', ?_, ⟨?_, ?_, ?_⟩, ?_, ?_⟩
        · simp [pairHoles, identify_shape hk', f1, e1, bind, Except.bind, pure, Except.pure]
        · intro a ha
          rcases List.mem_cons.1 ha with rfl | ha
          exacts [⟨_, f2⟩, e2.shape a ha]
        · intro a ha
          rcases List.mem_cons.1 ha with rfl | ha
          exacts [⟨x, f3⟩, e2.point a ha]
        · refine List.pairwise_cons.2 ⟨fun a ha x y hx hy => ?_, e2.order⟩
          obtain ⟨j', hj', hc⟩ := e4 a ha
          exact (List.pairwise_cons.1 hl.order).1 j' hj' x y ((fc x).1 hx).2 (hc y hy)
        · intro y
          rw [coversI_cons, coversI_cons, fc, e3, ← and_or_left]
        · intro a ha
          rcases List.mem_cons.1 ha with rfl | ha
          · exact ⟨j, List.mem_cons_self, fun x hx => ((fc x).1 hx).2⟩
          · obtain ⟨j', hj', hc⟩ := e4 a ha
            exact ⟨j', List.mem_cons_of_mem _ hj', hc⟩
      · have f1 := pairFlat_apart hi hk' ni (hl.point j List.mem_cons_self) hm
        rw [if_neg (fun c => hnj ⟨c, hm⟩)] at f1
        refine ⟨l', ?_, e2, ?_, fun a ha => ?_⟩
        · simp [pairHoles, identify_shape hk', f1, e1, bind, Except.bind, pure, Except.pure]
        · intro y
          rw [coversI_cons, e3]
          exact and_congr_right fun c => (or_iff_right fun c' => hm ⟨y, c, c'⟩).symm
        · obtain ⟨j', hj', hc⟩ := e4 a ha
          exact ⟨j', List.mem_cons_of_mem _ hj', hc⟩
    · rintro ⟨j', hj', hc⟩
      rcases List.mem_cons.1 hj' with rfl | hj'
      · have hc' := hclash.1 hc
        have f1 := pairFlat_apart hi hk' ni (hl.point _ List.mem_cons_self) hc'.2
        rw [if_pos hc'.1] at f1
        exact ⟨none :: rs, by simp [pairHoles, identify_shape hk', f1, hrs, bind, Except.bind, pure, Except.pure], List.mem_cons_self⟩
      · obtain ⟨r, g1, g2⟩ := ih2 ⟨j', hj', hc⟩
        obtain ⟨q, hq, _⟩ := pairFlat_total hi hk'
        simp only [List.map_cons, pairHoles, identify_shape hk', hq, g1, bind, Except.bind, pure, Except.pure]
        cases q with
        | ivl m => exact ⟨_, rfl, List.mem_cons_of_mem _ g2⟩
        | none => exact ⟨_, rfl, List.mem_cons_of_mem _ g2⟩
        | list _ => exact ⟨_, rfl, g2⟩

theorem tiles_one {i : Ivl α} {k : Kind} (h : Shape k i) (hx : ∃ x, covers i x) : Tiles [i] :=
  ⟨fun j hj => by rw [List.mem_singleton.1 hj]; exact ⟨k, h⟩, fun j hj => by rw [List.mem_singleton.1 hj]; exact hx, List.pairwise_singleton _ _⟩

theorem tiles_nil : Tiles ([] : List (Ivl α)) := ⟨by simp, by simp, List.Pairwise.nil⟩

theorem sirOne_tiles {a h : Ivl α} {r : List (Ivl α)} (ha : ∃ k, Shape k a) (na : ∃ x, covers a x) (hh : IsHole h) (hr : sirOne a h = .ok r) :
    Tiles r ∧ ∀ j ∈ r, ∀ x, covers j x → covers a x := by
  obtain ⟨k, hk⟩ := ha
  have sub : ∀ {r : List (Ivl α)}, (∀ x, coversI r x ↔ covers a x ∧ outside h x) → ∀ j ∈ r, ∀ x, covers j x → covers a x :=
    fun H j hj x hx => ((H x).1 ⟨j, hj, hx⟩).1
  cases k with
  | SI =>
    have hr' : segmentHole a h = .ok r := by obtain ⟨s, e, ss, es, rfl⟩ := hk; exact hr
    refine ⟨?_, sub (segmentHole_ok hk hh hr').2⟩
    obtain ⟨s, e, ss, es, rfl⟩ := hk
    obtain ⟨hs, he, hss, hes, rfl, hle⟩ := hh
    simp only [segmentHole, get, Ivl.slope, bind, Except.bind, pure, Except.pure, gt_iff_lt] at hr'
    by_cases h1 : s < he
    · by_cases h2 : e < he
      · have h3 : ¬ hs < e := not_lt.2 (h2.le.trans hle)
        simp only [h1, h2, h3, if_true, if_false, List.append_nil, Except.ok.injEq] at hr'
        subst hr'
        exact tiles_one (k := .SI) ⟨_, _, _, _, rfl⟩ na
      · simp only [h1, h2, if_true, if_false] at hr'
        cases hr'
    · by_cases h3 : hs < e
      · by_cases h4 : hs < s
        · simp only [h1, h3, h4, if_true, if_false, List.nil_append, Except.ok.injEq] at hr'
          subst hr'
          exact tiles_one (k := .SI) ⟨_, _, _, _, rfl⟩ na
        · simp only [h1, h3, h4, if_true, if_false] at hr'
          cases hr'
      · simp only [h1, h3, if_false, List.append_nil, Except.ok.injEq] at hr'
        subst hr'
        exact tiles_nil
  | S =>
    have hr' : semilineHole a h = .ok r := by obtain ⟨s, ss, rfl⟩ := hk; exact hr
    refine ⟨?_, sub (semilineHole_ok (Or.inl hk) hh hr').2⟩
    obtain ⟨s, ss, rfl⟩ := hk
    obtain ⟨hs, he, hss, hes, rfl, hle⟩ := hh
    simp only [semilineHole, get, bind, Except.bind, pure, Except.pure, gt_iff_lt] at hr'
    by_cases h1 : s < hs
    · obtain ⟨z, hz⟩ := exists_gt hs
      by_cases h2 : s < he
      · simp only [h1, h2, if_true, List.cons_append, List.nil_append, Except.ok.injEq] at hr'
        subst hr'
        obtain ⟨y, y1, y2⟩ := exists_between h2
        refine ⟨?_, ?_, ?_⟩
        · simp only [List.mem_cons, List.not_mem_nil, or_false]
          rintro j (rfl | rfl)
          · exact ⟨.SI, _, _, _, _, rfl⟩
          · exact ⟨.S, _, _, rfl⟩
        · simp only [List.mem_cons, List.not_mem_nil, or_false]
          rintro j (rfl | rfl)
          · exact ⟨y, (covers_SI _ _ _ _ _).2 ⟨y1, y2⟩⟩
          · exact ⟨z, (covers_S _ _ _).2 hz⟩
        · refine List.pairwise_cons.2 ⟨fun j hj u v hu hv => ?_, List.pairwise_singleton _ _⟩
          rw [List.mem_singleton.1 hj, covers_S] at hv
          exact (((covers_SI _ _ _ _ _).1 hu).2.trans_le hle).trans hv
      · simp only [h1, h2, if_true, if_false, List.nil_append, Except.ok.injEq] at hr'
        subst hr'
        exact tiles_one (k := .S) ⟨_, _, rfl⟩ ⟨z, (covers_S _ _ _).2 hz⟩
    · simp only [h1, if_false, Except.ok.injEq] at hr'
      subst hr'
      exact tiles_one (k := .S) ⟨_, _, rfl⟩ na
  | Sr =>
    have hr' : semilineHole a h = .ok r := by obtain ⟨s, ss, rfl⟩ := hk; exact hr
    refine ⟨?_, sub (semilineHole_ok (Or.inr hk) hh hr').2⟩
    obtain ⟨e, es, rfl⟩ := hk
    obtain ⟨hs, he, hss, hes, rfl, hle⟩ := hh
    simp only [semilineHole, get, Ivl.slope, bind, Except.bind, pure, Except.pure] at hr'
    by_cases h1 : he < e
    · simp only [h1, if_true] at hr'
      cases hr'
    · simp only [h1, if_false, Except.ok.injEq] at hr'
      subst hr'
      exact tiles_one (k := .Sr) ⟨_, _, rfl⟩ na

theorem sirStep_tiles {acc r : List (Ivl α)} {h : Ivl α} (ha : Tiles acc) (hh : IsHole h) (hr : sirStep acc h = .ok r) :
    Tiles r ∧ ∀ j ∈ r, ∃ a ∈ acc, ∀ x, covers j x → covers a x := by
  induction acc generalizing r with
  | nil =>
    cases hr
    exact ⟨ha, by simp⟩
  | cons a as ih =>
    simp only [sirStep, bind_ok] at hr
    obtain ⟨u, hu, v, hv, hr⟩ := hr
    cases hr
    obtain ⟨t1, t2⟩ := sirOne_tiles (ha.shape a List.mem_cons_self) (ha.point a List.mem_cons_self) hh hu
    obtain ⟨t3, t4⟩ := ih ⟨fun i h => ha.shape i (List.mem_cons_of_mem _ h), fun i h => ha.point i (List.mem_cons_of_mem _ h), (List.pairwise_cons.1 ha.order).2⟩ hv
    refine ⟨⟨fun j hj => ?_, fun j hj => ?_, List.pairwise_append.2 ⟨t1.order, t3.order, fun i hi j hj x y hx hy => ?_⟩⟩, fun j hj => ?_⟩
    · exact (List.mem_append.1 hj).elim (t1.shape j) (t3.shape j)
    · exact (List.mem_append.1 hj).elim (t1.point j) (t3.point j)
    · obtain ⟨a', ha', hc⟩ := t4 j hj
      exact (List.pairwise_cons.1 ha.order).1 a' ha' x y (t2 i hi x hx) (hc y hy)
    · rcases List.mem_append.1 hj with hj | hj
      · exact ⟨a, List.mem_cons_self, t2 j hj⟩
      · obtain ⟨a', ha', hc⟩ := t4 j hj
        exact ⟨a', List.mem_cons_of_mem _ ha', hc⟩

theorem sirFold_tiles {hs acc r : List (Ivl α)} (ha : Tiles acc) (hh : ∀ h ∈ hs, IsHole h) (hr : sirFold acc hs = .ok r) : Tiles r := by
  induction hs generalizing acc with
  | nil => cases hr; exact ha
  | cons h hs ih =>
    simp only [sirFold, bind_ok] at hr
    obtain ⟨b, hb, hr⟩ := hr
    exact ih (sirStep_tiles ha (hh h List.mem_cons_self) hb).1 (fun h' m => hh h' (List.mem_cons_of_mem _ m)) hr

theorem sirOverlap_tiles {hs r : List (Ivl α)} (hh : ∀ h ∈ hs, IsHole h) (hr : sirOverlap hs = .ok r) : Tiles r := by
  cases hs with
  | nil => cases hr
  | cons h hs =>
    simp only [sirOverlap, bind_ok] at hr
    obtain ⟨acc, hacc, hr⟩ := hr
    refine sirFold_tiles ?_ (fun h' m => hh h' (List.mem_cons_of_mem _ m)) hr
    obtain ⟨s, e, ss, es, rfl, hle⟩ := hh h List.mem_cons_self
    cases hacc
    obtain ⟨y, hy⟩ := exists_lt e
    obtain ⟨z, hz⟩ := exists_gt s
    refine ⟨?_, ?_, ?_⟩
    · simp only [List.mem_cons, List.not_mem_nil, or_false]
      rintro j (rfl | rfl)
      · exact ⟨.Sr, _, _, rfl⟩
      · exact ⟨.S, _, _, rfl⟩
    · simp only [List.mem_cons, List.not_mem_nil, or_false]
      rintro j (rfl | rfl)
      · exact ⟨y, (covers_Sr _ _ _).2 hy⟩
      · exact ⟨z, (covers_S _ _ _).2 hz⟩
    · refine List.pairwise_cons.2 ⟨fun j hj u v hu hv => ?_, List.pairwise_singleton _ _⟩
      rw [List.mem_singleton.1 hj, covers_S] at hv
      exact (((covers_Sr _ _ _).1 hu).trans_le hle).trans hv

/-- A pair `(kind, value)` and its intervals. -/
inductive Rep : Arg α → List (Ivl α) → Prop
  | flat {k : Kind} {i : Ivl α} (h : Shape k i) : Rep (.flat k (some i)) [i]
  | holes (l : List (Ivl α)) : Rep (.holes (l.map some)) l

/-- Accumulators with `None` in them. -/
inductive Bad : Option (Arg α) → Prop
  | none : Bad none
  | flat : Bad (some (.flat .SI none))
  | holes {l : List (Option (Ivl α))} (h : Option.none ∈ l) : Bad (some (.holes l))

/-- Whether it is a single value. -/
def Arg.single : Arg α → Bool
  | .flat _ _ => true
  | .holes _ => false

theorem rep_unwrap {l : List (Ivl α)} (h : Tiles l) : ∃ c, stepRes (unwrap (l.map some)) = some c ∧ Rep c l := by
  match l, h with
  | [], _ => exact ⟨_, rfl, .holes []⟩
  | [m], h =>
    obtain ⟨k, hk⟩ := h.shape m (by simp)
    exact ⟨.flat k (some m), by simp [unwrap, Res.ofOpt, stepRes, identify_shape hk], .flat hk⟩
  | a :: b :: l, _ => exact ⟨_, rfl, .holes (a :: b :: l)⟩

theorem bad_unwrap {l : List (Option (Ivl α))} (h : none ∈ l) : Bad (stepRes (unwrap l)) := by
  unfold unwrap
  split
  · rename_i v
    rw [List.mem_singleton] at h
    subst h
    exact .none
  · exact .holes h

theorem Clash.symm {i j : Ivl α} (h : Clash i j) : Clash j i := ⟨h.2.1, h.1, fun ⟨x, a, b⟩ => h.2.2 ⟨x, b, a⟩⟩

/-- One step. -/
theorem pair_tiles {a b : Arg α} {l m : List (Ivl α)} (ha : Rep a l) (tl : Tiles l) (hb : Rep b m) (tm : Tiles m) (h1 : a.single = true ∨ b.single = true) :
    ((∀ i ∈ l, ∀ j ∈ m, ¬ Clash i j) → ∃ c n, stepRes <$> pair a b = .ok (some c) ∧ Rep c n ∧ Tiles n ∧ (∀ x, coversI n x ↔ coversI l x ∧ coversI m x) ∧
      (a.single = true → b.single = true → c.single = true ∨ n = [])) ∧
    ((∃ i ∈ l, ∃ j ∈ m, Clash i j) → ∃ c, stepRes <$> pair a b = .ok c ∧ Bad c) := by
  cases ha with
  | @flat k i hi =>
    cases hb with
    | @flat k' j hj =>
      have ni := tl.point i (by simp)
      have nj := tm.point j (by simp)
      have hkk : ∀ {k k' : Kind} {m : Ivl α}, Shape k m → Shape k' m → k = k' := by
        intro k k' m a b
        have := (identify_shape a).symm.trans (identify_shape b)
        simpa using this
      constructor
      · intro hn
        have hn := hn i (by simp) j (by simp)
        by_cases hm : ∃ x, covers i x ∧ covers j x
        · obtain ⟨x, x1, x2⟩ := hm
          obtain ⟨m, km, f1, f2, f3⟩ := pairFlat_meet hi hj x1 x2
          refine ⟨.flat km (some m), [m], ?_, .flat f2, tiles_one f2 ⟨x, f3⟩, fun x => ?_, fun _ _ => Or.inl rfl⟩
          · simp [pair, f1, Functor.map, Except.map, stepRes, identify_shape f2]
          · have := (pairFlat_ok (show ShapeO k (some i) from hi) (show ShapeO k' (some j) from hj) f1).2 x
            simpa [coversR, coversO, coversI] using this
        · have f1 := pairFlat_apart hi hj ni nj hm
          rw [if_neg (fun (c : k = .SI ∧ k' = .SI) => hn ⟨c.1 ▸ hi, c.2 ▸ hj, hm⟩)] at f1
          refine ⟨.holes [], [], ?_, .holes [], tiles_nil, fun x => ?_, fun _ _ => Or.inr rfl⟩
          · simp [pair, f1, Functor.map, Except.map, stepRes]
          · simp only [coversI, List.mem_singleton, exists_eq_left, List.not_mem_nil, false_and, exists_false, false_iff]
            exact fun c => hm ⟨x, c⟩
      · rintro ⟨i', hi', j', hj', hc⟩
        rw [List.mem_singleton] at hi' hj'
        subst hi' hj'
        have f1 := pairFlat_apart hi hj ni nj hc.2.2
        rw [if_pos ⟨hkk hi hc.1, hkk hj hc.2.1⟩] at f1
        exact ⟨none, by simp [pair, f1, Functor.map, Except.map, stepRes], .none⟩
    | holes m =>
      obtain ⟨p1, p2⟩ := pairHoles_tiles hi (tl.point i (by simp)) tm
      constructor
      · intro hn
        obtain ⟨n, e1, e2, e3, _⟩ := p1 (hn i (by simp))
        obtain ⟨c, c1, c2⟩ := rep_unwrap e2
        exact ⟨c, n, by simp [pair, e1, Functor.map, Except.map, c1], c2, e2, fun x => by rw [e3]; simp [coversI], fun _ h => by simp [Arg.single] at h⟩
      · rintro ⟨i', hi', j, hj, hc⟩
        rw [List.mem_singleton] at hi'
        subst hi'
        obtain ⟨r, e1, e2⟩ := p2 ⟨j, hj, hc⟩
        exact ⟨_, by simp [pair, e1, Functor.map, Except.map], bad_unwrap e2⟩
  | holes l =>
    cases hb with
    | @flat k' j hj =>
      obtain ⟨p1, p2⟩ := pairHoles_tiles hj (tm.point j (by simp)) tl
      constructor
      · intro hn
        obtain ⟨n, e1, e2, e3, _⟩ := p1 (fun i hi hc => hn i hi j (by simp) hc.symm)
        obtain ⟨c, c1, c2⟩ := rep_unwrap e2
        exact ⟨c, n, by simp [pair, e1, Functor.map, Except.map, c1], c2, e2, fun x => by rw [e3, and_comm]; simp [coversI], fun h => by simp [Arg.single] at h⟩
      · rintro ⟨i, hi, j', hj', hc⟩
        rw [List.mem_singleton] at hj'
        subst hj'
        obtain ⟨r, e1, e2⟩ := p2 ⟨i, hi, hc.symm⟩
        exact ⟨_, by simp [pair, e1, Functor.map, Except.map], bad_unwrap e2⟩
    | holes m => simp [Arg.single] at h1

omit [DenselyOrdered α] [NoMinOrder α] [NoMaxOrder α] in
theorem siOverlap_none {l : List (Option (Ivl α))} (h : none ∈ l) (r : Option (Ivl α)) : siOverlap l ≠ .ok r := by
  intro hr
  unfold siOverlap at hr
  simp only [bind_ok] at hr
  obtain ⟨a, ha, _⟩ := hr
  obtain ⟨_, _, _, _, _, hall⟩ := sOverlap_ok ha
  obtain ⟨_, _, e, _⟩ := hall none h
  cases e

omit [DenselyOrdered α] [NoMinOrder α] [NoMaxOrder α] in
theorem pairFlat_none {k : Kind} {v : Option (Ivl α)} (h : ShapeO k v) (r : Res α) :
    pairFlat k v .SI none ≠ .ok r ∧ pairFlat .SI none k v ≠ .ok r := by
  have seg : ∀ {v : Option (Ivl α)}, ShapeO .S v ∨ ShapeO .Sr v → ∀ r, pairSeg none v ≠ .ok r := by
    rintro v (h | h) r hr
    · obtain ⟨i, rfl, s, ss, rfl⟩ := shapeO_some (by simp) h
      simp [pairSeg, segmentSemiline, sub, bind, Except.bind, pure, Except.pure] at hr
    · obtain ⟨i, rfl, s, ss, rfl⟩ := shapeO_some (by simp) h
      simp [pairSeg, segmentSemiline, sub, bind, Except.bind, pure, Except.pure] at hr
  cases k with
  | S => exact ⟨seg (Or.inl h) r, seg (Or.inl h) r⟩
  | Sr => exact ⟨seg (Or.inr h) r, seg (Or.inr h) r⟩
  | SI =>
    constructor
    · intro hr
      simp only [pairFlat, if_true, map_ok] at hr
      obtain ⟨q, hq, _⟩ := hr
      exact siOverlap_none (by simp) q hq
    · intro hr
      simp only [pairFlat, if_true, map_ok] at hr
      obtain ⟨q, hq, _⟩ := hr
      exact siOverlap_none (by simp) q hq

omit [DenselyOrdered α] [NoMinOrder α] [NoMaxOrder α] in
theorem pairHoles_none {k : Kind} {v : Option (Ivl α)} {l : List (Option (Ivl α))} (h : none ∈ l) (r : List (Option (Ivl α))) : pairHoles k v l ≠ .ok r := by
  induction l generalizing r with
  | nil => cases h
  | cons w l ih =>
    intro hr
    cases w with
    | none => cases hr
    | some i =>
      have h : none ∈ l := by simpa using h
      rw [pairHoles] at hr
      split at hr
      · cases hr
      · simp only [bind_ok] at hr
        obtain ⟨_, _, q, hq, _⟩ := hr
        exact ih h q hq

omit [DenselyOrdered α] [NoMinOrder α] [NoMaxOrder α] in
theorem pairHoles_window {l : List (Ivl α)} (hl : ∀ i ∈ l, ∃ k, Shape k i) (h0 : l ≠ []) (r : List (Option (Ivl α))) :
    pairHoles .SI none (l.map some) ≠ .ok r := by
  cases l with
  | nil => exact absurd rfl h0
  | cons i l =>
    obtain ⟨k, hk⟩ := hl i (by simp)
    intro hr
    simp only [List.map_cons, pairHoles, identify_shape hk, bind_ok] at hr
    obtain ⟨q, hq, _⟩ := hr
    exact (pairFlat_none (show ShapeO k (some i) from hk) q).2 hq

/-- What a group is reduced to: non-empty intervals, or `None`. -/
def Reduced (b : Arg α) : Prop := (∃ m, Rep b m ∧ Tiles m ∧ m ≠ []) ∨ b = .flat .SI none

theorem bad_step {a : Option (Arg α)} {b : Arg α} (ha : Bad a) (hb : Reduced b) {c : Option (Arg α)} (h : simplifyStep a b = .ok c) : Bad c := by
  cases ha with
  | none => cases h; exact .none
  | flat =>
    exfalso
    simp only [simplifyStep, map_ok] at h
    obtain ⟨q, hq, _⟩ := h
    rcases hb with ⟨m, hm, tm, h0⟩ | rfl
    · cases hm with
      | @flat k i hi => exact (pairFlat_none (show ShapeO k (some i) from hi) q).2 hq
      | holes m =>
        simp only [pair, map_ok] at hq
        obtain ⟨r, hr, _⟩ := hq
        exact pairHoles_window tm.shape h0 r hr
    · exact (pairFlat_none (k := .SI) (v := none) rfl q).2 hq
  | holes hl =>
    exfalso
    simp only [simplifyStep, map_ok] at h
    obtain ⟨q, hq, _⟩ := h
    cases b with
    | flat k v =>
      simp only [pair, map_ok] at hq
      obtain ⟨r, hr, _⟩ := hq
      exact pairHoles_none hl r hr
    | holes m => cases hq

theorem bad_go {xs : List (Arg α)} (hx : ∀ b ∈ xs, Reduced b) {a : Option (Arg α)} (ha : Bad a) {c : Option (Arg α)} (h : simplifyGo a xs = .ok c) : Bad c := by
  induction xs generalizing a with
  | nil => cases h; exact ha
  | cons b xs ih =>
    simp only [simplifyGo, bind_ok] at h
    obtain ⟨a', h1, h2⟩ := h
    exact ih (fun b hb => hx b (List.mem_cons_of_mem _ hb)) (bad_step ha (hx b List.mem_cons_self) h1) h2

end

section
variable [DenselyOrdered α] [NoMinOrder α] [NoMaxOrder α] [Add α]

theorem exists_before (ps : List (SigP α)) (h : ps ≠ []) : ∃ x, ∀ p ∈ ps, x < p.loc := by
  induction ps with
  | nil => exact absurd rfl h
  | cons p ps ih =>
    by_cases h0 : ps = []
    · subst h0
      obtain ⟨x, hx⟩ := exists_lt p.loc
      exact ⟨x, by simpa using hx⟩
    · obtain ⟨x, hx⟩ := ih h0
      obtain ⟨y, hy⟩ := exists_lt (min x p.loc)
      refine ⟨y, fun q hq => ?_⟩
      rcases List.mem_cons.1 hq with rfl | hq
      · exact hy.trans_le (min_le_right _ _)
      · exact (hy.trans_le (min_le_left _ _)).trans (hx q hq)

/-- A reduced group. -/
theorem group_reduced {g : Group α} {b : Arg α} (hw : g.widths) (h0 : g.nonempty) (h : reduceGroup g = .ok b) :
    (∃ m, Rep b m ∧ Tiles m ∧ m ≠ [] ∧ (∀ x, coversI m x ↔ g.on x) ∧ (b.single = !g.reversed)) ∨
    (b = .flat .SI none ∧ g.window = true ∧ ¬ ∃ x, g.on x) := by
  obtain ⟨hs, hc⟩ := reduceGroup_ok hw h
  cases g with
  | S ps =>
    obtain ⟨q, hq, rfl⟩ := map_ok.1 h
    obtain ⟨i, rfl, hi⟩ := shapeO_some (by simp) hs
    obtain ⟨s, ss, rfl⟩ := id hi
    obtain ⟨x, hx⟩ := exists_gt s
    exact Or.inl ⟨_, .flat hi, tiles_one hi ⟨x, (covers_S _ _ _).2 hx⟩, by simp, fun x => by rw [← hc]; simp [coversI, coversA, coversO], rfl⟩
  | Sr ps =>
    obtain ⟨q, hq, rfl⟩ := map_ok.1 h
    obtain ⟨i, rfl, hi⟩ := shapeO_some (by simp) hs
    obtain ⟨s, ss, rfl⟩ := id hi
    obtain ⟨x, hx⟩ := exists_lt s
    exact Or.inl ⟨_, .flat hi, tiles_one hi ⟨x, (covers_Sr _ _ _).2 hx⟩, by simp, fun x => by rw [← hc]; simp [coversI, coversA, coversO], rfl⟩
  | SI ps =>
    obtain ⟨q, hq, rfl⟩ := map_ok.1 h
    cases q with
    | none => exact Or.inr ⟨rfl, rfl, fun ⟨x, hx⟩ => by have := (hc x).2 hx; simp [coversA, coversO] at this⟩
    | some i =>
      have hi : Shape .SI i := hs
      exact Or.inl ⟨_, .flat hi, tiles_one hi (siOverlap_point hq), by simp, fun x => by rw [← hc]; simp [coversI, coversA, coversO], rfl⟩
  | SIr ps =>
    obtain ⟨q, hq, rfl⟩ := map_ok.1 h
    have hcov : ∀ x, coversI q x ↔ Group.on x (.SIr ps) := fun x => by rw [← hc]; simp [coversI, coversA, coversL]
    refine Or.inl ⟨_, .holes q, sirOverlap_tiles (fun v hv => ?_) hq, ?_, hcov, rfl⟩
    · obtain ⟨p, hp, rfl⟩ := List.mem_map.1 hv
      exact ⟨_, _, _, _, rfl, hw p hp⟩
    · rintro rfl
      obtain ⟨x, hx⟩ := exists_before ps h0
      exact coversI_nil x ((hcov x).2 (fun p hp => Or.inl (hx p hp)))

/-- The state after some groups. -/
structure Good (qs : List (Group α)) (a : Arg α) (l : List (Ivl α)) : Prop where
  rep : Rep a l
  tiles : Tiles l
  on : ∀ x, coversI l x ↔ ∀ q ∈ qs, q.on x
  single : (∀ q ∈ qs, q.reversed = false) → a.single = true ∨ l = []

theorem Good.on_iff {qs : List (Group α)} {a : Arg α} {l : List (Ivl α)} (h : Good qs a l) : (∃ x, ∀ q ∈ qs, q.on x) ↔ l ≠ [] := by
  constructor
  · rintro ⟨x, hx⟩ rfl
    exact coversI_nil x ((h.on x).2 hx)
  · intro h0
    obtain ⟨i, hi⟩ := List.exists_mem_of_ne_nil _ h0
    obtain ⟨x, hx⟩ := h.tiles.point i hi
    exact ⟨x, (h.on x).1 ⟨i, hi, hx⟩⟩

omit [NoMinOrder α] [NoMaxOrder α] [Add α] in
theorem clash_iff {l m : List (Ivl α)} (tl : Tiles l) (tm : Tiles m) {R S : α → Prop} (hR : ∀ x, coversI l x ↔ R x) (hS : ∀ x, coversI m x ↔ S x) :
    (∀ i ∈ l, ∀ j ∈ m, ¬ Clash i j) ↔ ∀ a b c d, Piece R a b → Piece S c d → ∃ x, (a < x ∧ x < b) ∧ c < x ∧ x < d := by
  constructor
  · intro h a b c d h1 h2
    obtain ⟨i, hi, i1, i2⟩ := (tl.piece hR a b).1 h1
    obtain ⟨j, hj, j1, j2⟩ := (tm.piece hS c d).1 h2
    by_contra hcon
    have hsi : ∀ {i : Ivl α} {a b : α}, (∃ k, Shape k i) → i.start = some a → i.stop = some b → Shape .SI i := by
      rintro i a b ⟨k, hk⟩ h1 h2
      cases k with
      | S => obtain ⟨s, ss, rfl⟩ := hk; cases h2
      | Sr => obtain ⟨s, ss, rfl⟩ := hk; cases h1
      | SI => exact hk
    refine h i hi j hj ⟨hsi (tl.shape i hi) i1 i2, hsi (tm.shape j hj) j1 j2, fun ⟨x, x1, x2⟩ => hcon ⟨x, ⟨x1.1 a i1, x1.2 b i2⟩, x2.1 c j1, x2.2 d j2⟩⟩
  · rintro h i hi j hj ⟨⟨a, b, _, _, rfl⟩, ⟨c, d, _, _, rfl⟩, hn⟩
    obtain ⟨x, x1, x2⟩ := h a b c d ((tl.piece hR a b).2 ⟨_, hi, rfl, rfl⟩) ((tm.piece hS c d).2 ⟨_, hj, rfl, rfl⟩)
    exact hn ⟨x, (covers_SI _ _ _ _ _).2 x1, (covers_SI _ _ _ _ _).2 x2⟩

/-- One more group. -/
theorem good_step {qs : List (Group α)} {a : Arg α} {l : List (Ivl α)} (h : Good qs a l) {g : Group α} {b : Arg α} (hw : g.widths) (h0 : g.nonempty)
    (hb : reduceGroup g = .ok b) (hrev : g.reversed = true → ∀ q ∈ qs, q.reversed = false) :
    (Meets qs g → ∃ c n, simplifyStep (some a) b = .ok (some c) ∧ Good (qs ++ [g]) c n) ∧
    (¬ Meets qs g → ∀ c, simplifyStep (some a) b = .ok c → Bad c) := by
  have hon : ∀ x, (∀ q ∈ qs ++ [g], q.on x) ↔ (∀ q ∈ qs, q.on x) ∧ g.on x := by
    intro x
    simp only [List.mem_append, List.mem_singleton]
    exact ⟨fun H => ⟨fun q hq => H q (Or.inl hq), H g (Or.inr rfl)⟩, fun H q hq => hq.elim (H.1 q) (fun e => e ▸ H.2)⟩
  rcases group_reduced hw h0 hb with ⟨m, hm, tm, m0, cm, hs⟩ | ⟨rfl, hwin, hno⟩
  · by_cases hd : a.single = true ∨ b.single = true
    · obtain ⟨p1, p2⟩ := pair_tiles h.rep h.tiles hm tm hd
      have hcl := clash_iff h.tiles tm h.on cm
      by_cases hc : ∀ i ∈ l, ∀ j ∈ m, ¬ Clash i j
      · refine ⟨fun _ => ?_, fun hn => ?_⟩
        · obtain ⟨c, n, e1, e2, e3, e4, e5⟩ := p1 hc
          refine ⟨c, n, e1, ⟨e2, e3, fun x => by rw [e4, h.on, cm, hon], fun hq => ?_⟩⟩
          have hg : g.reversed = false := hq g (by simp)
          rcases h.single (fun q hq' => hq q (by simp [hq'])) with ha | rfl
          · exact e5 ha (by rw [hs, hg]; rfl)
          · right
            by_contra hne
            obtain ⟨i, hi⟩ := List.exists_mem_of_ne_nil _ hne
            obtain ⟨x, hx⟩ := e3.point i hi
            exact coversI_nil x ((e4 x).1 ⟨i, hi, hx⟩).1
        · exfalso
          refine hn ⟨fun hr => ?_, fun _ _ => ?_, hcl.1 hc⟩
          · rw [h.on_iff]
            rintro rfl
            have : a.single = false := by
              generalize hl : ([] : List (Ivl α)) = l at *
              cases h.rep with
              | flat => cases hl
              | holes => rfl
            rw [this, hs, hr] at hd
            simp at hd
          · obtain ⟨i, hi⟩ := List.exists_mem_of_ne_nil _ m0
            obtain ⟨x, hx⟩ := tm.point i hi
            exact ⟨x, (cm x).1 ⟨i, hi, hx⟩⟩
      · refine ⟨fun hM => absurd (hcl.2 hM.2.2) hc, fun _ c hc' => ?_⟩
        simp only [not_forall, not_not] at hc
        obtain ⟨i, hi, j, hj, hij⟩ := hc
        obtain ⟨c', e1, e2⟩ := p2 ⟨i, hi, j, hj, hij⟩
        have : (Except.ok c' : Except PyErr _) = .ok c := e1.symm.trans hc'
        cases this
        exact e2
    · have hr : g.reversed = true := by
        cases hg : g.reversed with
        | true => rfl
        | false => exact absurd (Or.inr (by rw [hs, hg]; rfl)) hd
      have hl : l = [] := (h.single (hrev hr)).resolve_left (fun c => hd (Or.inl c))
      refine ⟨fun hM => absurd hl (h.on_iff.1 (hM.1 hr)), fun _ c hc => ?_⟩
      exfalso
      simp only [simplifyStep, map_ok] at hc
      obtain ⟨q, hq, _⟩ := hc
      cases a with
      | flat => simp [Arg.single] at hd
      | holes =>
        cases b with
        | flat => simp [Arg.single] at hd
        | holes => cases hq
  · by_cases hl : l = []
    · subst hl
      have ha : a = .holes [] := by
        generalize hl : ([] : List (Ivl α)) = l at *
        cases h.rep with
        | flat => cases hl
        | holes => rw [← hl]; rfl
      subst ha
      refine ⟨fun _ => ⟨.holes [], [], rfl, ⟨.holes [], tiles_nil, fun x => ?_, fun _ => Or.inr rfl⟩⟩, fun hn => absurd ?_ hn⟩
      · rw [hon]
        exact ⟨fun c => absurd c (coversI_nil x), fun c => absurd ⟨x, c.2⟩ hno⟩
      · refine ⟨fun hr => ?_, fun _ hx => absurd rfl (h.on_iff.1 hx), fun a b c d h1 => ?_⟩
        · cases g <;> simp [Group.window, Group.reversed] at hwin hr
        · obtain ⟨i, hi, _⟩ := (h.tiles.piece h.on a b).1 h1
          cases hi
    · refine ⟨fun hM => absurd (hM.2.1 hwin (h.on_iff.2 hl)) hno, fun _ c hc => ?_⟩
      exfalso
      simp only [simplifyStep, map_ok] at hc
      obtain ⟨q, hq, _⟩ := hc
      have hrep := h.rep
      cases hrep with
      | @flat k i hi => exact (pairFlat_none (show ShapeO k (some i) from hi) q).1 hq
      | holes l =>
        simp only [pair, map_ok] at hq
        obtain ⟨r, hr, _⟩ := hq
        exact pairHoles_window h.tiles.shape hl r hr

theorem reduceGroups_all {gs : List (Group α)} {xs : List (Arg α)} (h : reduceGroups gs = .ok xs) (hw : ∀ g ∈ gs, g.widths) (h0 : ∀ g ∈ gs, g.nonempty) :
    ∀ b ∈ xs, Reduced b := by
  induction gs generalizing xs with
  | nil => cases h; simp
  | cons g gs ih =>
    simp only [reduceGroups, bind_ok] at h
    obtain ⟨a, ha, as, has, h⟩ := h
    cases h
    intro b hb
    rcases List.mem_cons.1 hb with rfl | hb
    · rcases group_reduced (hw g List.mem_cons_self) (h0 g List.mem_cons_self) ha with ⟨m, h1, h2, h3, _⟩ | ⟨h1, _⟩
      · exact Or.inl ⟨m, h1, h2, h3⟩
      · exact Or.inr h1
    · exact ih has (fun g hg => hw g (List.mem_cons_of_mem _ hg)) (fun g hg => h0 g (List.mem_cons_of_mem _ hg)) b hb

theorem good_go {gs : List (Group α)} {xs : List (Arg α)} (hx : reduceGroups gs = .ok xs) (hw : ∀ g ∈ gs, g.widths) (h0 : ∀ g ∈ gs, g.nonempty)
    {qs : List (Group α)} (hrev : (qs ++ gs).Pairwise (fun q g => ¬ (q.reversed = true ∧ g.reversed = true))) {a : Arg α} {l : List (Ivl α)} (h : Good qs a l) :
    ((∀ ps g rest, gs = ps ++ g :: rest → Meets (qs ++ ps) g) → ∃ c n, simplifyGo (some a) xs = .ok (some c) ∧ Rep c n) ∧
    ((∃ ps g rest, gs = ps ++ g :: rest ∧ ¬ Meets (qs ++ ps) g) → ∀ c, simplifyGo (some a) xs = .ok c → Bad c) := by
  induction gs generalizing xs qs a l with
  | nil =>
    cases hx
    exact ⟨fun _ => ⟨a, l, rfl, h.rep⟩, by rintro ⟨ps, g, rest, e, _⟩; simp at e⟩
  | cons g gs ih =>
    simp only [reduceGroups, bind_ok] at hx
    obtain ⟨b, hb, bs, hbs, hx⟩ := hx
    cases hx
    have hbad := reduceGroups_all hbs (fun g hg => hw g (List.mem_cons_of_mem _ hg)) (fun g hg => h0 g (List.mem_cons_of_mem _ hg))
    obtain ⟨s1, s2⟩ := good_step h (hw g List.mem_cons_self) (h0 g List.mem_cons_self) hb (fun hr q hq => by
      have := (List.pairwise_append.1 hrev).2.2 q hq g List.mem_cons_self
      rw [hr] at this
      simpa using this)
    by_cases hM : Meets qs g
    · obtain ⟨c, n, e, hg⟩ := s1 hM
      obtain ⟨i1, i2⟩ := ih hbs (fun g hg => hw g (List.mem_cons_of_mem _ hg)) (fun g hg => h0 g (List.mem_cons_of_mem _ hg)) (by simpa using hrev) hg
      simp only [simplifyGo, e, bind, Except.bind]
      constructor
      · intro hall
        exact i1 (fun ps g' rest hp => by simpa using hall (g :: ps) g' rest (by rw [hp]; rfl))
      · rintro ⟨ps, g', rest, hp, hn⟩
        cases ps with
        | nil =>
          simp only [List.nil_append, List.cons.injEq] at hp
          obtain ⟨rfl, _⟩ := hp
          simp only [List.append_nil] at hn
          exact absurd hM hn
        | cons y ps =>
          simp only [List.cons_append, List.cons.injEq] at hp
          obtain ⟨rfl, hp⟩ := hp
          exact i2 ⟨ps, g', rest, hp, by simpa using hn⟩
    · refine ⟨fun hall => absurd (by simpa using hall [] g gs rfl) hM, fun _ c hc => ?_⟩
      simp only [simplifyGo, bind_ok] at hc
      obtain ⟨a', h1, h2⟩ := hc
      exact bad_go hbad (s2 hM a' h1) h2

end
end Interval
end GPyABCD
