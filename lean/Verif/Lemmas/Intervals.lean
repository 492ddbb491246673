import Verif.Spec.Intervals

/-! Interval reductions compute intersections. -/

namespace GPyABCD
namespace Interval

variable {α : Type}

theorem bind_ok {β γ : Type} {x : Except PyErr β} {f : β → Except PyErr γ} {c : γ} :
    (x >>= f) = .ok c ↔ ∃ b, x = .ok b ∧ f b = .ok c := by
  cases x with
  | error e => simp [bind, Except.bind]
  | ok b => simp [bind, Except.bind]

theorem map_ok {β γ : Type} {x : Except PyErr β} {f : β → γ} {c : γ} :
    (f <$> x) = .ok c ↔ ∃ b, x = .ok b ∧ f b = c := by
  cases x with
  | error e => simp [Functor.map, Except.map]
  | ok b => simp [Functor.map, Except.map]

theorem get_ok {o : Option α} {a : α} : get o = .ok a ↔ o = some a := by
  cases o <;> simp [get]

theorem sub_ok {v : Option (Ivl α)} {f : Ivl α → Option α} {a : α} : sub v f = .ok a ↔ ∃ i, v = some i ∧ f i = some a := by
  cases v <;> simp [sub, get_ok]

/-- The shape of a dictionary of a kind. -/
def Shape : Kind → Ivl α → Prop
  | .S, i => ∃ s ss, i = { start := some s, startSlope := some ss }
  | .Sr, i => ∃ e es, i = { stop := some e, stopSlope := some es }
  | .SI, i => ∃ s e ss es, i = ⟨some s, some e, some ss, some es⟩

/-- Shape of a value: `None` only occurs for windows. -/
def ShapeO (k : Kind) (v : Option (Ivl α)) : Prop :=
  match v with
  | some i => Shape k i
  | none => k = .SI

/-- Shape of an element of a list. -/
def ShapeL (v : Option (Ivl α)) : Prop := ∀ i, v = some i → ∃ k, Shape k i

theorem identify_shape {i : Ivl α} {k : Kind} (h : Shape k i) : identify i = .flat k (some i) := by
  cases k with
  | S => obtain ⟨s, ss, rfl⟩ := h; rfl
  | Sr => obtain ⟨s, ss, rfl⟩ := h; rfl
  | SI => obtain ⟨s, e, ss, es, rfl⟩ := h; rfl

section
variable [LinearOrder α]

theorem minGo_ok {β : Type} {f : β → Except PyErr α} {best : β} {bk : α} {xs : List β} {b : β} (hb : f best = .ok bk)
    (h : minGo f best bk xs = .ok b) :
    ∃ k, f b = .ok k ∧ (b = best ∨ b ∈ xs) ∧ k ≤ bk ∧ ∀ x ∈ xs, ∃ kx, f x = .ok kx ∧ k ≤ kx := by
  induction xs generalizing best bk with
  | nil =>
    simp only [minGo, Except.ok.injEq] at h
    subst h
    exact ⟨bk, hb, Or.inl rfl, le_refl _, by simp⟩
  | cons x xs ih =>
    rw [minGo] at h
    cases hx : f x with
    | error e => rw [hx] at h; cases h
    | ok k =>
      rw [hx] at h
      simp only at h
      split at h
      · rename_i hlt
        obtain ⟨k', h1, h2, h3, h4⟩ := ih hx h
        refine ⟨k', h1, Or.inr ?_, h3.trans hlt.le, ?_⟩
        · rcases h2 with rfl | h2
          · exact List.mem_cons_self ..
          · exact List.mem_cons_of_mem _ h2
        · intro y hy
          rcases List.mem_cons.1 hy with rfl | hy
          · exact ⟨k, hx, h3⟩
          · exact h4 y hy
      · rename_i hlt
        obtain ⟨k', h1, h2, h3, h4⟩ := ih hb h
        refine ⟨k', h1, h2.imp_right (List.mem_cons_of_mem _), h3, ?_⟩
        intro y hy
        rcases List.mem_cons.1 hy with rfl | hy
        · exact ⟨k, hx, h3.trans (not_lt.1 hlt)⟩
        · exact h4 y hy

theorem minBy_ok {β : Type} {f : β → Except PyErr α} {xs : List β} {b : β} (h : minBy f xs = .ok b) :
    b ∈ xs ∧ ∃ k, f b = .ok k ∧ ∀ x ∈ xs, ∃ kx, f x = .ok kx ∧ k ≤ kx := by
  cases xs with
  | nil => cases h
  | cons x xs =>
    rw [minBy] at h
    cases hx : f x with
    | error e => rw [hx] at h; cases h
    | ok k =>
      rw [hx] at h
      obtain ⟨k', h1, h2, h3, h4⟩ := minGo_ok hx h
      refine ⟨by rcases h2 with rfl | h2 <;> simp [*], k', h1, ?_⟩
      intro y hy
      rcases List.mem_cons.1 hy with rfl | hy
      · exact ⟨k, hx, h3⟩
      · exact h4 y hy

theorem minGo_total {β : Type} {f : β → Except PyErr α} (xs : List β) (best : β) (bk : α)
    (h : ∀ x ∈ xs, ∃ k, f x = .ok k) : ∃ b, minGo f best bk xs = .ok b := by
  induction xs generalizing best bk with
  | nil => exact ⟨best, rfl⟩
  | cons x xs ih =>
    obtain ⟨k, hk⟩ := h x (List.mem_cons_self ..)
    have h' := fun y hy => h y (List.mem_cons_of_mem _ hy)
    rw [minGo, hk]
    simp only
    split
    · exact ih x k h'
    · exact ih best bk h'

theorem minBy_total {β : Type} {f : β → Except PyErr α} {xs : List β} (h0 : xs ≠ []) (h : ∀ x ∈ xs, ∃ k, f x = .ok k) :
    ∃ b, minBy f xs = .ok b := by
  cases xs with
  | nil => exact absurd rfl h0
  | cons x xs =>
    obtain ⟨k, hk⟩ := h x (List.mem_cons_self ..)
    rw [minBy, hk]
    exact minGo_total xs x k (fun y hy => h y (List.mem_cons_of_mem _ hy))

theorem maxGo_ok {β : Type} {f : β → Except PyErr α} {best : β} {bk : α} {xs : List β} {b : β} (hb : f best = .ok bk)
    (h : maxGo f best bk xs = .ok b) :
    ∃ k, f b = .ok k ∧ (b = best ∨ b ∈ xs) ∧ bk ≤ k ∧ ∀ x ∈ xs, ∃ kx, f x = .ok kx ∧ kx ≤ k := by
  induction xs generalizing best bk with
  | nil =>
    simp only [maxGo, Except.ok.injEq] at h
    subst h
    exact ⟨bk, hb, Or.inl rfl, le_refl _, by simp⟩
  | cons x xs ih =>
    rw [maxGo] at h
    cases hx : f x with
    | error e => rw [hx] at h; cases h
    | ok k =>
      rw [hx] at h
      simp only at h
      split at h
      · rename_i hlt
        obtain ⟨k', h1, h2, h3, h4⟩ := ih hx h
        refine ⟨k', h1, Or.inr ?_, hlt.le.trans h3, ?_⟩
        · rcases h2 with rfl | h2
          · exact List.mem_cons_self ..
          · exact List.mem_cons_of_mem _ h2
        · intro y hy
          rcases List.mem_cons.1 hy with rfl | hy
          · exact ⟨k, hx, h3⟩
          · exact h4 y hy
      · rename_i hlt
        obtain ⟨k', h1, h2, h3, h4⟩ := ih hb h
        refine ⟨k', h1, h2.imp_right (List.mem_cons_of_mem _), h3, ?_⟩
        intro y hy
        rcases List.mem_cons.1 hy with rfl | hy
        · exact ⟨k, hx, (not_lt.1 hlt).trans h3⟩
        · exact h4 y hy

theorem maxBy_ok {β : Type} {f : β → Except PyErr α} {xs : List β} {b : β} (h : maxBy f xs = .ok b) :
    b ∈ xs ∧ ∃ k, f b = .ok k ∧ ∀ x ∈ xs, ∃ kx, f x = .ok kx ∧ kx ≤ k := by
  cases xs with
  | nil => cases h
  | cons x xs =>
    rw [maxBy] at h
    cases hx : f x with
    | error e => rw [hx] at h; cases h
    | ok k =>
      rw [hx] at h
      obtain ⟨k', h1, h2, h3, h4⟩ := maxGo_ok hx h
      refine ⟨by rcases h2 with rfl | h2 <;> simp [*], k', h1, ?_⟩
      intro y hy
      rcases List.mem_cons.1 hy with rfl | hy
      · exact ⟨k, hx, h3⟩
      · exact h4 y hy

theorem maxGo_total {β : Type} {f : β → Except PyErr α} (xs : List β) (best : β) (bk : α)
    (h : ∀ x ∈ xs, ∃ k, f x = .ok k) : ∃ b, maxGo f best bk xs = .ok b := by
  induction xs generalizing best bk with
  | nil => exact ⟨best, rfl⟩
  | cons x xs ih =>
    obtain ⟨k, hk⟩ := h x (List.mem_cons_self ..)
    have h' := fun y hy => h y (List.mem_cons_of_mem _ hy)
    rw [maxGo, hk]
    simp only
    split
    · exact ih x k h'
    · exact ih best bk h'

theorem maxBy_total {β : Type} {f : β → Except PyErr α} {xs : List β} (h0 : xs ≠ []) (h : ∀ x ∈ xs, ∃ k, f x = .ok k) :
    ∃ b, maxBy f xs = .ok b := by
  cases xs with
  | nil => exact absurd rfl h0
  | cons x xs =>
    obtain ⟨k, hk⟩ := h x (List.mem_cons_self ..)
    rw [maxBy, hk]
    exact maxGo_total xs x k (fun y hy => h y (List.mem_cons_of_mem _ hy))

/-- Points covered by a value. -/
def coversO (v : Option (Ivl α)) (x : α) : Prop := ∃ i, v = some i ∧ covers i x

theorem covers_S (s : α) (ss : Option α) (x : α) : covers { start := some s, startSlope := ss } x ↔ s < x := by simp [covers]

theorem covers_Sr (e : α) (es : Option α) (x : α) : covers { stop := some e, stopSlope := es } x ↔ x < e := by simp [covers]

theorem covers_SI (s e : α) (ss es : Option α) (x : α) : covers ⟨some s, some e, ss, es⟩ x ↔ s < x ∧ x < e := by simp [covers]

theorem sOverlap_ok {ps : List (Option (Ivl α))} {r : Option (Ivl α)} (h : sOverlap ps = .ok r) :
    r ∈ ps ∧ ∃ i s, r = some i ∧ i.start = some s ∧ ∀ v ∈ ps, ∃ j t, v = some j ∧ j.start = some t ∧ t ≤ s := by
  obtain ⟨h1, k, h2, h3⟩ := maxBy_ok h
  obtain ⟨i, rfl, hi⟩ := sub_ok.1 h2
  refine ⟨h1, i, k, rfl, hi, fun v hv => ?_⟩
  obtain ⟨t, ht, hle⟩ := h3 v hv
  obtain ⟨j, rfl, hj⟩ := sub_ok.1 ht
  exact ⟨j, t, rfl, hj, hle⟩

theorem srOverlap_ok {ps : List (Option (Ivl α))} {r : Option (Ivl α)} (h : srOverlap ps = .ok r) :
    r ∈ ps ∧ ∃ i s, r = some i ∧ i.stop = some s ∧ ∀ v ∈ ps, ∃ j t, v = some j ∧ j.stop = some t ∧ s ≤ t := by
  obtain ⟨h1, k, h2, h3⟩ := minBy_ok h
  obtain ⟨i, rfl, hi⟩ := sub_ok.1 h2
  refine ⟨h1, i, k, rfl, hi, fun v hv => ?_⟩
  obtain ⟨t, ht, hle⟩ := h3 v hv
  obtain ⟨j, rfl, hj⟩ := sub_ok.1 ht
  exact ⟨j, t, rfl, hj, hle⟩

theorem sOverlap_total {ps : List (Option (Ivl α))} (h0 : ps ≠ []) (h : ∀ v ∈ ps, ∃ j t, v = some j ∧ j.start = some t) :
    ∃ r, sOverlap ps = .ok r :=
  maxBy_total h0 fun v hv => by
    obtain ⟨j, t, rfl, ht⟩ := h v hv
    exact ⟨t, sub_ok.2 ⟨j, rfl, ht⟩⟩

theorem srOverlap_total {ps : List (Option (Ivl α))} (h0 : ps ≠ []) (h : ∀ v ∈ ps, ∃ j t, v = some j ∧ j.stop = some t) :
    ∃ r, srOverlap ps = .ok r :=
  minBy_total h0 fun v hv => by
    obtain ⟨j, t, rfl, ht⟩ := h v hv
    exact ⟨t, sub_ok.2 ⟨j, rfl, ht⟩⟩

/-- Starts only. -/
theorem sOverlap_S {ps : List (Option (Ivl α))} {r : Option (Ivl α)} (hs : ∀ v ∈ ps, ∃ i, v = some i ∧ Shape .S i)
    (h : sOverlap ps = .ok r) : (∃ i, r = some i ∧ Shape .S i) ∧ ∀ x, coversO r x ↔ ∀ v ∈ ps, coversO v x := by
  obtain ⟨hm, i, s, rfl, hi, hall⟩ := sOverlap_ok h
  obtain ⟨i', e, hsh⟩ := hs _ hm
  cases e
  refine ⟨⟨i, rfl, hsh⟩, fun x => ?_⟩
  obtain ⟨s', ss, rfl⟩ := hsh
  cases hi
  constructor
  · rintro ⟨_, e, hx⟩ v hv
    cases e
    obtain ⟨j, t, rfl, ht, hle⟩ := hall v hv
    obtain ⟨j', e, t', ss', rfl⟩ := hs _ hv
    cases e
    cases ht
    exact ⟨_, rfl, (covers_S _ _ _).2 (lt_of_le_of_lt hle ((covers_S _ _ _).1 hx))⟩
  · intro hx
    exact hx _ hm

/-- Ends only. -/
theorem srOverlap_Sr {ps : List (Option (Ivl α))} {r : Option (Ivl α)} (hs : ∀ v ∈ ps, ∃ i, v = some i ∧ Shape .Sr i)
    (h : srOverlap ps = .ok r) : (∃ i, r = some i ∧ Shape .Sr i) ∧ ∀ x, coversO r x ↔ ∀ v ∈ ps, coversO v x := by
  obtain ⟨hm, i, s, rfl, hi, hall⟩ := srOverlap_ok h
  obtain ⟨i', e, hsh⟩ := hs _ hm
  cases e
  refine ⟨⟨i, rfl, hsh⟩, fun x => ?_⟩
  obtain ⟨s', ss, rfl⟩ := hsh
  cases hi
  constructor
  · rintro ⟨_, e, hx⟩ v hv
    cases e
    obtain ⟨j, t, rfl, ht, hle⟩ := hall v hv
    obtain ⟨j', e, t', ss', rfl⟩ := hs _ hv
    cases e
    cases ht
    exact ⟨_, rfl, (covers_Sr _ _ _).2 (lt_of_lt_of_le ((covers_Sr _ _ _).1 hx) hle)⟩
  · intro hx
    exact hx _ hm

/-- Windows. -/
theorem siOverlap_SI {ps : List (Option (Ivl α))} {r : Option (Ivl α)} (hs : ∀ v ∈ ps, ShapeO .SI v)
    (h : siOverlap ps = .ok r) : ShapeO .SI r ∧ ∀ x, coversO r x ↔ ∀ v ∈ ps, coversO v x := by
  unfold siOverlap at h
  simp only [bind_ok, sub_ok] at h
  obtain ⟨a, ha, b, hb, s, ⟨ia, rfl, his⟩, e, ⟨ib, rfl, hie⟩, ss, _, es, _, h⟩ := h
  obtain ⟨hma, ia', sa, e1, e2, hall⟩ := sOverlap_ok ha
  cases e1
  rw [his] at e2
  cases e2
  obtain ⟨hmb, ib', sb, e1, e2, hall'⟩ := srOverlap_ok hb
  cases e1
  rw [hie] at e2
  cases e2
  have key : ∀ x, (s < x ∧ x < e) ↔ ∀ v ∈ ps, coversO v x := by
    intro x
    constructor
    · rintro ⟨h1, h2⟩ v hv
      obtain ⟨j, t, rfl, ht, hle⟩ := hall v hv
      obtain ⟨j', u, ej, hu, hle'⟩ := hall' _ hv
      cases ej
      obtain ⟨t', u', ts, us, rfl⟩ := hs _ hv
      cases ht
      cases hu
      exact ⟨_, rfl, (covers_SI _ _ _ _ _).2 ⟨lt_of_le_of_lt hle h1, lt_of_lt_of_le h2 hle'⟩⟩
    · intro hx
      obtain ⟨j, ej, hj⟩ := hx _ hma
      cases ej
      obtain ⟨j, ej, hj'⟩ := hx _ hmb
      cases ej
      exact ⟨hj.1 s his, hj'.2 e hie⟩
  split at h
  · rename_i hlt
    simp only [pure, Except.pure, Except.ok.injEq] at h
    subst h
    refine ⟨⟨s, e, ss, es, rfl⟩, fun x => ?_⟩
    rw [← key]
    constructor
    · rintro ⟨_, e1, hx⟩; cases e1; exact (covers_SI _ _ _ _ _).1 hx
    · exact fun hx => ⟨_, rfl, (covers_SI _ _ _ _ _).2 hx⟩
  · rename_i hlt
    simp only [pure, Except.pure, Except.ok.injEq] at h
    subst h
    refine ⟨rfl, fun x => ?_⟩
    rw [← key]
    constructor
    · rintro ⟨_, e1, _⟩; cases e1
    · rintro ⟨h1, h2⟩; exact absurd (h1.trans h2) hlt

theorem siOverlap_total {ps : List (Option (Ivl α))} (h0 : ps ≠ []) (h : ∀ v ∈ ps, ∃ j, v = some j ∧ Shape .SI j) :
    ∃ r, siOverlap ps = .ok r := by
  obtain ⟨a, ha⟩ := sOverlap_total h0 (fun v hv => by
    obtain ⟨j, rfl, s, e, ss, es, rfl⟩ := h v hv; exact ⟨_, s, rfl, rfl⟩)
  obtain ⟨b, hb⟩ := srOverlap_total h0 (fun v hv => by
    obtain ⟨j, rfl, s, e, ss, es, rfl⟩ := h v hv; exact ⟨_, e, rfl, rfl⟩)
  obtain ⟨ia, rfl, s, e, ss, es, rfl⟩ := h a (sOverlap_ok ha).1
  obtain ⟨ib, rfl, s', e', ss', es', rfl⟩ := h b (srOverlap_ok hb).1
  unfold siOverlap
  rw [ha, hb]
  simp only [sub, get, bind, Except.bind]
  split <;> exact ⟨_, rfl⟩

/-! ### Holes -/

/-- A hole with its end before its start. -/
def IsHole (h : Ivl α) : Prop := ∃ s e ss es, h = ⟨some s, some e, some ss, some es⟩ ∧ e ≤ s

/-- Outside a hole. -/
def outside (h : Ivl α) (x : α) : Prop := (∃ e ∈ h.stop, x < e) ∨ (∃ s ∈ h.start, s < x)

/-- Points covered by a list of dictionaries. -/
def coversI (l : List (Ivl α)) (x : α) : Prop := ∃ i ∈ l, covers i x

theorem coversI_append (l l' : List (Ivl α)) (x : α) : coversI (l ++ l') x ↔ coversI l x ∨ coversI l' x := by
  simp only [coversI, List.mem_append]
  constructor
  · rintro ⟨i, h | h, hx⟩
    · exact Or.inl ⟨i, h, hx⟩
    · exact Or.inr ⟨i, h, hx⟩
  · rintro (⟨i, h, hx⟩ | ⟨i, h, hx⟩)
    · exact ⟨i, Or.inl h, hx⟩
    · exact ⟨i, Or.inr h, hx⟩

theorem coversI_cons (i : Ivl α) (l : List (Ivl α)) (x : α) : coversI (i :: l) x ↔ covers i x ∨ coversI l x := by
  simp [coversI]

theorem coversI_nil (x : α) : ¬ coversI ([] : List (Ivl α)) x := by simp [coversI]

theorem segmentHole_ok {i h : Ivl α} {r : List (Ivl α)} (hi : Shape .SI i) (hh : IsHole h) (hr : segmentHole i h = .ok r) :
    (∀ j ∈ r, ∃ k, Shape k j) ∧ ∀ x, coversI r x ↔ covers i x ∧ outside h x := by
  obtain ⟨s, e, ss, es, rfl⟩ := hi
  obtain ⟨hs, he, hss, hes, rfl, hle⟩ := hh
  simp only [segmentHole, get, Ivl.slope, bind, Except.bind, pure, Except.pure, gt_iff_lt] at hr
  by_cases h1 : s < he
  · by_cases h2 : e < he
    · have h3 : ¬ hs < e := not_lt.2 (h2.le.trans hle)
      simp only [h1, h2, h3, if_true, if_false, List.append_nil, Except.ok.injEq] at hr
      subst hr
      refine ⟨by simp only [List.mem_singleton]; rintro j rfl; exact ⟨.SI, s, e, ss, es, rfl⟩, fun x => ?_⟩
      simp only [coversI_cons, covers_SI, coversI_nil, or_false, outside, Option.mem_some_iff, exists_eq_left']
      constructor
      · rintro ⟨a, b⟩; exact ⟨⟨a, b⟩, Or.inl (b.trans h2)⟩
      · exact fun h => h.1
    · simp only [h1, h2, if_true, if_false] at hr
      cases hr
  · by_cases h3 : hs < e
    · by_cases h4 : hs < s
      · simp only [h1, h3, h4, if_true, if_false, List.nil_append, Except.ok.injEq] at hr
        subst hr
        refine ⟨by simp only [List.mem_singleton]; rintro j rfl; exact ⟨.SI, s, e, ss, es, rfl⟩, fun x => ?_⟩
        simp only [coversI_cons, covers_SI, coversI_nil, or_false, outside, Option.mem_some_iff, exists_eq_left']
        constructor
        · rintro ⟨a, b⟩; exact ⟨⟨a, b⟩, Or.inr (h4.trans a)⟩
        · exact fun h => h.1
      · simp only [h1, h3, h4, if_true, if_false] at hr
        cases hr
    · simp only [h1, h3, if_false, List.append_nil, Except.ok.injEq] at hr
      subst hr
      refine ⟨by simp, fun x => ?_⟩
      simp only [coversI_nil, false_iff, covers_SI, outside, Option.mem_some_iff, exists_eq_left']
      rintro ⟨⟨a, b⟩, c | c⟩
      · exact h1 (a.trans c)
      · exact h3 (c.trans b)

theorem semilineHole_ok {i h : Ivl α} {r : List (Ivl α)} (hi : Shape .S i ∨ Shape .Sr i) (hh : IsHole h)
    (hr : semilineHole i h = .ok r) :
    (∀ j ∈ r, ∃ k, Shape k j) ∧ ∀ x, coversI r x ↔ covers i x ∧ outside h x := by
  obtain ⟨hs, he, hss, hes, rfl, hle⟩ := hh
  rcases hi with ⟨s, ss, rfl⟩ | ⟨e, es, rfl⟩
  · simp only [semilineHole, get, bind, Except.bind, pure, Except.pure, gt_iff_lt] at hr
    by_cases h1 : s < hs
    · by_cases h2 : s < he
      · simp only [h1, h2, if_true, List.cons_append, List.nil_append, Except.ok.injEq] at hr
        subst hr
        refine ⟨?_, fun x => ?_⟩
        · simp only [List.mem_cons, List.not_mem_nil, or_false]
          rintro j (rfl | rfl)
          · exact ⟨.SI, _, _, _, _, rfl⟩
          · exact ⟨.S, _, _, rfl⟩
        · simp only [coversI_cons, covers_SI, covers_S, coversI_nil, or_false, outside, Option.mem_some_iff, exists_eq_left']
          constructor
          · rintro (⟨a, b⟩ | a)
            · exact ⟨a, Or.inl b⟩
            · exact ⟨h1.trans a, Or.inr a⟩
          · rintro ⟨a, b | b⟩
            · exact Or.inl ⟨a, b⟩
            · exact Or.inr b
      · simp only [h1, h2, if_true, if_false, List.nil_append, Except.ok.injEq] at hr
        subst hr
        refine ⟨?_, fun x => ?_⟩
        · simp only [List.mem_cons, List.not_mem_nil, or_false]
          rintro j rfl
          exact ⟨.S, _, _, rfl⟩
        · simp only [coversI_cons, covers_S, coversI_nil, or_false, outside, Option.mem_some_iff, exists_eq_left']
          constructor
          · exact fun a => ⟨h1.trans a, Or.inr a⟩
          · rintro ⟨a, b | b⟩
            · exact absurd (a.trans b) h2
            · exact b
    · simp only [h1, if_false, Except.ok.injEq] at hr
      subst hr
      refine ⟨?_, fun x => ?_⟩
      · simp only [List.mem_cons, List.not_mem_nil, or_false]
        rintro j rfl
        exact ⟨.S, _, _, rfl⟩
      · simp only [coversI_cons, covers_S, coversI_nil, or_false, outside, Option.mem_some_iff, exists_eq_left']
        exact ⟨fun a => ⟨a, Or.inr (lt_of_le_of_lt (not_lt.1 h1) a)⟩, fun a => a.1⟩
  · simp only [semilineHole, get, Ivl.slope, bind, Except.bind, pure, Except.pure] at hr
    by_cases h1 : he < e
    · simp only [h1, if_true] at hr
      cases hr
    · simp only [h1, if_false, Except.ok.injEq] at hr
      subst hr
      refine ⟨?_, fun x => ?_⟩
      · simp only [List.mem_cons, List.not_mem_nil, or_false]
        rintro j rfl
        exact ⟨.Sr, _, _, rfl⟩
      · simp only [coversI_cons, covers_Sr, coversI_nil, or_false, outside, Option.mem_some_iff, exists_eq_left']
        exact ⟨fun a => ⟨a, Or.inl (lt_of_lt_of_le a (not_lt.1 h1))⟩, fun a => a.1⟩

theorem sirStep_ok {acc : List (Ivl α)} {h : Ivl α} {r : List (Ivl α)} (ha : ∀ j ∈ acc, ∃ k, Shape k j) (hh : IsHole h)
    (hr : sirStep acc h = .ok r) :
    (∀ j ∈ r, ∃ k, Shape k j) ∧ ∀ x, coversI r x ↔ coversI acc x ∧ outside h x := by
  induction acc generalizing r with
  | nil =>
    simp only [sirStep, Except.ok.injEq] at hr
    subst hr
    exact ⟨by simp, fun x => by simp [coversI_nil]⟩
  | cons a as ih =>
    simp only [sirStep, bind_ok] at hr
    obtain ⟨r1, h1, r2, h2, hr⟩ := hr
    simp only [pure, Except.pure, Except.ok.injEq] at hr
    subst hr
    obtain ⟨s2, c2⟩ := ih (fun j hj => ha j (List.mem_cons_of_mem _ hj)) h2
    have : (∀ j ∈ r1, ∃ k, Shape k j) ∧ ∀ x, coversI r1 x ↔ covers a x ∧ outside h x := by
      obtain ⟨k, hk⟩ := ha a (List.mem_cons_self ..)
      cases k with
      | S =>
        have : isSemiline a = true := by obtain ⟨s, ss, rfl⟩ := hk; rfl
        rw [sirOne, if_pos this] at h1
        exact semilineHole_ok (Or.inl hk) hh h1
      | Sr =>
        have : isSemiline a = true := by obtain ⟨s, ss, rfl⟩ := hk; rfl
        rw [sirOne, if_pos this] at h1
        exact semilineHole_ok (Or.inr hk) hh h1
      | SI =>
        have : isSemiline a = false := by obtain ⟨s, e, ss, es, rfl⟩ := hk; rfl
        rw [sirOne, if_neg (by simp [this])] at h1
        exact segmentHole_ok hk hh h1
    obtain ⟨s1, c1⟩ := this
    refine ⟨?_, fun x => ?_⟩
    · intro j hj
      rcases List.mem_append.1 hj with hj | hj
      · exact s1 j hj
      · exact s2 j hj
    · rw [coversI_append, c1, c2, coversI_cons]
      constructor
      · rintro (⟨a, b⟩ | ⟨a, b⟩)
        · exact ⟨Or.inl a, b⟩
        · exact ⟨Or.inr a, b⟩
      · rintro ⟨a | a, b⟩
        · exact Or.inl ⟨a, b⟩
        · exact Or.inr ⟨a, b⟩

theorem sirFold_ok {hs acc r : List (Ivl α)} (ha : ∀ j ∈ acc, ∃ k, Shape k j) (hh : ∀ h ∈ hs, IsHole h)
    (hr : sirFold acc hs = .ok r) :
    (∀ j ∈ r, ∃ k, Shape k j) ∧ ∀ x, coversI r x ↔ coversI acc x ∧ ∀ h ∈ hs, outside h x := by
  induction hs generalizing acc with
  | nil =>
    simp only [sirFold, Except.ok.injEq] at hr
    subst hr
    exact ⟨ha, fun x => by simp⟩
  | cons h hs ih =>
    simp only [sirFold, bind_ok] at hr
    obtain ⟨acc', h1, hr⟩ := hr
    obtain ⟨s1, c1⟩ := sirStep_ok ha (hh h (List.mem_cons_self ..)) h1
    obtain ⟨s2, c2⟩ := ih s1 (fun h' hm => hh h' (List.mem_cons_of_mem _ hm)) hr
    refine ⟨s2, fun x => ?_⟩
    rw [c2, c1]
    simp only [List.mem_cons, forall_eq_or_imp]
    exact and_assoc

theorem sirOverlap_ok {hs r : List (Ivl α)} (hh : ∀ h ∈ hs, IsHole h) (hr : sirOverlap hs = .ok r) :
    (∀ j ∈ r, ∃ k, Shape k j) ∧ ∀ x, coversI r x ↔ ∀ h ∈ hs, outside h x := by
  cases hs with
  | nil => cases hr
  | cons h hs =>
    simp only [sirOverlap, bind_ok] at hr
    obtain ⟨acc, h1, hr⟩ := hr
    obtain ⟨s, e, ss, es, rfl, hle⟩ := hh h (List.mem_cons_self ..)
    simp only [sirSplit, get, bind, Except.bind, pure, Except.pure, Except.ok.injEq] at h1
    subst h1
    have ha : ∀ j ∈ [{ stop := some e, stopSlope := some es }, ({ start := some s, startSlope := some ss } : Ivl α)], ∃ k, Shape k j := by
      simp only [List.mem_cons, List.not_mem_nil, or_false]
      rintro j (rfl | rfl)
      · exact ⟨.Sr, _, _, rfl⟩
      · exact ⟨.S, _, _, rfl⟩
    obtain ⟨s2, c2⟩ := sirFold_ok ha (fun h' hm => hh h' (List.mem_cons_of_mem _ hm)) hr
    refine ⟨s2, fun x => ?_⟩
    rw [c2]
    simp only [coversI_cons, covers_S, covers_Sr, coversI_nil, or_false, List.mem_cons, forall_eq_or_imp, outside,
      Option.mem_some_iff, exists_eq_left']

/-! ### Pairs -/

theorem segmentSemiline_ok {seg semi : Option (Ivl α)} {r : Option (Ivl α)} (h1 : ShapeO .SI seg)
    (h2 : ∃ i, semi = some i ∧ (Shape .S i ∨ Shape .Sr i)) (hr : segmentSemiline seg semi = .ok r) :
    ShapeO .SI r ∧ ∀ x, coversO r x ↔ coversO seg x ∧ coversO semi x := by
  obtain ⟨l, rfl, hl⟩ := h2
  cases seg with
  | none =>
    rcases hl with ⟨s, ss, rfl⟩ | ⟨e, es, rfl⟩ <;>
      simp [segmentSemiline, sub, bind, Except.bind, pure, Except.pure] at hr
  | some i =>
    obtain ⟨a, b, as, bs, rfl⟩ := h1
    have one : ∀ (i j : Ivl α) (x : α), coversO (some i) x ∧ coversO (some j) x ↔ covers i x ∧ covers j x := by
      intro i j x; simp [coversO]
    have two : ∀ (i : Ivl α) (x : α), coversO (some i) x ↔ covers i x := by intro i x; simp [coversO]
    have three : ∀ x : α, ¬ coversO none x := by intro x; simp [coversO]
    rcases hl with ⟨s, ss, rfl⟩ | ⟨e, es, rfl⟩
    · simp only [segmentSemiline, sub, get, bind, Except.bind, pure, Except.pure, Option.isNone_some, Option.isNone_none,
        Bool.false_eq_true, if_false, if_true, decide_eq_true_eq, gt_iff_lt] at hr
      by_cases c1 : s < b
      · by_cases c2 : s < a
        · simp only [c1, c2, if_true, Except.ok.injEq] at hr
          subst hr
          refine ⟨⟨a, b, as, bs, rfl⟩, fun x => ?_⟩
          rw [one, two, covers_SI, covers_S]
          exact ⟨fun h => ⟨h, c2.trans h.1⟩, fun h => h.1⟩
        · simp only [c1, c2, if_true, if_false, Except.ok.injEq] at hr
          subst hr
          refine ⟨⟨s, b, ss, bs, rfl⟩, fun x => ?_⟩
          rw [one, two, covers_SI, covers_SI, covers_S]
          exact ⟨fun h => ⟨⟨lt_of_le_of_lt (not_lt.1 c2) h.1, h.2⟩, h.1⟩, fun h => ⟨h.2, h.1.2⟩⟩
      · simp only [c1, if_false, Except.ok.injEq] at hr
        subst hr
        refine ⟨rfl, fun x => ?_⟩
        rw [one, covers_SI, covers_S]
        exact ⟨fun h => absurd h (three x), fun h => absurd (h.2.trans h.1.2) c1⟩
    · simp only [segmentSemiline, sub, get, bind, Except.bind, pure, Except.pure, Option.isNone_some, Option.isNone_none,
        Bool.false_eq_true, if_false, if_true, decide_eq_true_eq] at hr
      by_cases c1 : a < e
      · by_cases c2 : b < e
        · simp only [c1, c2, if_true, Except.ok.injEq] at hr
          subst hr
          refine ⟨⟨a, b, as, bs, rfl⟩, fun x => ?_⟩
          rw [one, two, covers_SI, covers_Sr]
          exact ⟨fun h => ⟨h, h.2.trans c2⟩, fun h => h.1⟩
        · simp only [c1, c2, if_true, if_false, Except.ok.injEq] at hr
          subst hr
          refine ⟨⟨a, e, as, es, rfl⟩, fun x => ?_⟩
          rw [one, two, covers_SI, covers_SI, covers_Sr]
          exact ⟨fun h => ⟨⟨h.1, lt_of_lt_of_le h.2 (not_lt.1 c2)⟩, h.2⟩, fun h => ⟨h.1.1, h.2⟩⟩
      · simp only [c1, if_false, Except.ok.injEq] at hr
        subst hr
        refine ⟨rfl, fun x => ?_⟩
        rw [one, covers_SI, covers_Sr]
        exact ⟨fun h => absurd h (three x), fun h => absurd (h.1.1.trans h.2) c1⟩

/-- Points covered by a result. -/
def coversR (r : Res α) (x : α) : Prop :=
  match r with
  | .ivl i => covers i x
  | .none => False
  | .list l => coversL l x

/-- Shape of a result. -/
def ShapeR : Res α → Prop
  | .ivl i => ∃ k, Shape k i
  | .none => True
  | .list l => ∀ v ∈ l, ShapeL v

theorem coversR_ofOpt (v : Option (Ivl α)) (x : α) : coversR (Res.ofOpt v) x ↔ coversO v x := by
  cases v <;> simp [Res.ofOpt, coversR, coversO]

theorem pair_mem {P : Option (Ivl α) → Prop} {v1 v2 : Option (Ivl α)} : (∀ v ∈ [v1, v2], P v) ↔ P v1 ∧ P v2 := by simp

theorem shapeO_some {k : Kind} {v : Option (Ivl α)} (hk : k ≠ .SI) (h : ShapeO k v) : ∃ i, v = some i ∧ Shape k i := by
  cases v with
  | none => exact absurd h hk
  | some i => exact ⟨i, rfl, h⟩

/-- A flat result is a dictionary, `None` or the empty list. -/
theorem pairFlat_ok {k1 k2 : Kind} {v1 v2 : Option (Ivl α)} {r : Res α} (h1 : ShapeO k1 v1) (h2 : ShapeO k2 v2)
    (hr : pairFlat k1 v1 k2 v2 = .ok r) :
    (ShapeR r ∧ ∀ l, r = .list l → l = []) ∧ ∀ x, coversR r x ↔ coversO v1 x ∧ coversO v2 x := by
  have semi : ∀ (a b : Option (Ivl α)) (k : Kind), k ≠ .SI → ShapeO .SI a → ShapeO k b → ∀ r' : Res α,
      pairSeg a b = .ok r' →
      (ShapeR r' ∧ ∀ l, r' = .list l → l = []) ∧ ∀ x, coversR r' x ↔ coversO a x ∧ coversO b x := by
    intro a b k hk ha hb r' hr
    obtain ⟨q, hq, hr⟩ := bind_ok.1 hr
    have hb' : ∃ i, b = some i ∧ (Shape .S i ∨ Shape .Sr i) := by
      obtain ⟨i, rfl, hi⟩ := shapeO_some hk hb
      cases k with
      | S => exact ⟨i, rfl, Or.inl hi⟩
      | Sr => exact ⟨i, rfl, Or.inr hi⟩
      | SI => exact absurd rfl hk
    obtain ⟨s, c⟩ := segmentSemiline_ok ha hb' hq
    cases q with
    | none =>
      simp only [pure, Except.pure, Except.ok.injEq] at hr
      subst hr
      refine ⟨⟨by simp [ShapeR], by simp⟩, fun x => ?_⟩
      rw [← c]
      simp [coversR, coversL, coversO]
    | some i =>
      simp only [pure, Except.pure, Except.ok.injEq] at hr
      subst hr
      refine ⟨⟨⟨.SI, s⟩, by simp⟩, fun x => ?_⟩
      rw [← c]
      simp [coversR, coversO]
  have ends : ∀ (a b : Option (Ivl α)), ShapeO .S a → ShapeO .Sr b → ∀ r' : Res α,
      pairEnds a b = .ok r' →
      (ShapeR r' ∧ ∀ l, r' = .list l → l = []) ∧ ∀ x, coversR r' x ↔ coversO a x ∧ coversO b x := by
    intro a b ha hb r' hr
    obtain ⟨i, rfl, s, ss, rfl⟩ := shapeO_some (by simp) ha
    obtain ⟨j, rfl, e, es, rfl⟩ := shapeO_some (by simp) hb
    simp only [pairEnds, sub, get, bind, Except.bind, pure, Except.pure] at hr
    by_cases c : s < e
    · simp only [c, if_true, Except.ok.injEq] at hr
      subst hr
      refine ⟨⟨⟨.SI, s, e, ss, es, rfl⟩, by simp⟩, fun x => ?_⟩
      simp [coversR, coversO, merge, covers]
    · simp only [c, if_false, Except.ok.injEq] at hr
      subst hr
      refine ⟨⟨by simp [ShapeR], by simp⟩, fun x => ?_⟩
      simp only [coversR, coversL, List.not_mem_nil, false_and, exists_false, false_iff]
      rintro ⟨⟨_, e1, hx⟩, ⟨_, e2, hy⟩⟩
      cases e1
      cases e2
      exact c (((covers_S _ _ _).1 hx).trans ((covers_Sr _ _ _).1 hy))
  by_cases hk : k1 = k2
  · subst hk
    unfold pairFlat at hr
    rw [if_pos rfl] at hr
    cases k1 with
    | S =>
      simp only [map_ok] at hr
      obtain ⟨q, hq, rfl⟩ := hr
      obtain ⟨⟨i, rfl, hi⟩, c⟩ := sOverlap_S (pair_mem.2 ⟨shapeO_some (by simp) h1, shapeO_some (by simp) h2⟩) hq
      refine ⟨⟨⟨_, hi⟩, by simp [Res.ofOpt]⟩, fun x => ?_⟩
      rw [coversR_ofOpt, c, pair_mem]
    | Sr =>
      simp only [map_ok] at hr
      obtain ⟨q, hq, rfl⟩ := hr
      obtain ⟨⟨i, rfl, hi⟩, c⟩ := srOverlap_Sr (pair_mem.2 ⟨shapeO_some (by simp) h1, shapeO_some (by simp) h2⟩) hq
      refine ⟨⟨⟨_, hi⟩, by simp [Res.ofOpt]⟩, fun x => ?_⟩
      rw [coversR_ofOpt, c, pair_mem]
    | SI =>
      simp only [map_ok] at hr
      obtain ⟨q, hq, rfl⟩ := hr
      obtain ⟨hi, c⟩ := siOverlap_SI (pair_mem.2 ⟨h1, h2⟩) hq
      refine ⟨⟨?_, ?_⟩, fun x => ?_⟩
      · cases q with
        | none => trivial
        | some i => exact ⟨.SI, hi⟩
      · cases q <;> simp [Res.ofOpt]
      · rw [coversR_ofOpt, c, pair_mem]
  · unfold pairFlat at hr
    rw [if_neg hk] at hr
    cases k1 <;> cases k2
    · exact absurd rfl hk
    · exact ends v1 v2 h1 h2 r hr
    · have := semi v2 v1 .S (by simp) h2 h1 r hr
      exact ⟨this.1, fun x => (this.2 x).trans and_comm⟩
    · have := ends v2 v1 h2 h1 r hr
      exact ⟨this.1, fun x => (this.2 x).trans and_comm⟩
    · exact absurd rfl hk
    · have := semi v2 v1 .Sr (by simp) h2 h1 r hr
      exact ⟨this.1, fun x => (this.2 x).trans and_comm⟩
    · exact semi v1 v2 .S (by simp) h1 h2 r hr
    · exact semi v1 v2 .Sr (by simp) h1 h2 r hr
    · exact absurd rfl hk

theorem coversL_cons (v : Option (Ivl α)) (l : List (Option (Ivl α))) (x : α) :
    coversL (v :: l) x ↔ coversO v x ∨ coversL l x := by
  simp only [coversL, coversO, List.mem_cons]
  constructor
  · rintro ⟨i, h | h, hx⟩
    · exact Or.inl ⟨i, h.symm, hx⟩
    · exact Or.inr ⟨i, h, hx⟩
  · rintro (⟨i, h, hx⟩ | ⟨i, h, hx⟩)
    · exact ⟨i, Or.inl h.symm, hx⟩
    · exact ⟨i, Or.inr h, hx⟩

theorem coversL_nil (x : α) : ¬ coversL ([] : List (Option (Ivl α))) x := by simp [coversL]

theorem pairHoles_ok {k : Kind} {v : Option (Ivl α)} {l r : List (Option (Ivl α))} (hv : ShapeO k v) (hl : ∀ w ∈ l, ShapeL w)
    (hr : pairHoles k v l = .ok r) :
    (∀ w ∈ r, ShapeL w) ∧ ∀ x, coversL r x ↔ coversO v x ∧ coversL l x := by
  induction l generalizing r with
  | nil =>
    simp only [pairHoles, Except.ok.injEq] at hr
    subst hr
    exact ⟨by simp, fun x => by simp [coversL_nil]⟩
  | cons w l ih =>
    cases w with
    | none => cases hr
    | some i =>
      obtain ⟨k', hk'⟩ := hl (some i) (List.mem_cons_self ..) i rfl
      simp only [pairHoles, identify_shape hk', bind_ok] at hr
      obtain ⟨q, hq, rs, hrs, hr⟩ := hr
      obtain ⟨s1, c1⟩ := ih (fun w hw => hl w (List.mem_cons_of_mem _ hw)) hrs
      obtain ⟨⟨s2, e2⟩, c2⟩ := pairFlat_ok hv (show ShapeO k' (some i) from hk') hq
      have fin : ∀ x, (coversR q x ∨ coversL rs x) ↔ coversO v x ∧ coversL (some i :: l) x := by
        intro x
        rw [c2, c1, coversL_cons]
        constructor
        · rintro (⟨a, b⟩ | ⟨a, b⟩)
          · exact ⟨a, Or.inl b⟩
          · exact ⟨a, Or.inr b⟩
        · rintro ⟨a, b | b⟩
          · exact Or.inl ⟨a, b⟩
          · exact Or.inr ⟨a, b⟩
      cases q with
      | ivl j =>
        simp only [pure, Except.pure, Except.ok.injEq] at hr
        subst hr
        refine ⟨?_, fun x => ?_⟩
        · intro w hw
          rcases List.mem_cons.1 hw with rfl | hw
          · rintro j' e; cases e; exact s2
          · exact s1 w hw
        · rw [← fin, coversL_cons]
          simp [coversR, coversO]
      | none =>
        simp only [pure, Except.pure, Except.ok.injEq] at hr
        subst hr
        refine ⟨?_, fun x => ?_⟩
        · intro w hw
          rcases List.mem_cons.1 hw with rfl | hw
          · rintro j' e; cases e
          · exact s1 w hw
        · rw [← fin, coversL_cons]
          simp [coversR, coversO]
      | list l' =>
        simp only [pure, Except.pure, Except.ok.injEq] at hr
        subst hr
        have := e2 l' rfl
        subst this
        refine ⟨s1, fun x => ?_⟩
        rw [← fin]
        simp [coversR, coversL_nil]

/-- Points covered by a pair `(kind, value)`. -/
def coversA (a : Arg α) (x : α) : Prop :=
  match a with
  | .flat _ v => coversO v x
  | .holes l => coversL l x

/-- Shape of a pair. -/
def ShapeA : Arg α → Prop
  | .flat k v => ShapeO k v
  | .holes l => ∀ w ∈ l, ShapeL w

theorem unwrap_ok {l : List (Option (Ivl α))} (hl : ∀ w ∈ l, ShapeL w) :
    ShapeR (unwrap l) ∧ ∀ x, coversR (unwrap l) x ↔ coversL l x := by
  unfold unwrap
  split
  · rename_i v
    refine ⟨?_, fun x => ?_⟩
    · cases v with
      | none => trivial
      | some i => exact hl _ (List.mem_singleton.2 rfl) i rfl
    · rw [coversR_ofOpt, coversL_cons]
      simp [coversL_nil]
  · exact ⟨hl, fun x => Iff.rfl⟩

theorem pair_ok {a b : Arg α} {r : Res α} (ha : ShapeA a) (hb : ShapeA b) (hr : pair a b = .ok r) :
    ShapeR r ∧ ∀ x, coversR r x ↔ coversA a x ∧ coversA b x := by
  cases a with
  | flat k1 v1 =>
    cases b with
    | flat k2 v2 =>
      obtain ⟨h1, h2⟩ := pairFlat_ok ha hb hr
      exact ⟨h1.1, h2⟩
    | holes l =>
      obtain ⟨q, hq, rfl⟩ := map_ok.1 hr
      obtain ⟨s, c⟩ := pairHoles_ok ha hb hq
      obtain ⟨s', c'⟩ := unwrap_ok s
      exact ⟨s', fun x => (c' x).trans (c x)⟩
  | holes l =>
    cases b with
    | flat k v =>
      obtain ⟨q, hq, rfl⟩ := map_ok.1 hr
      obtain ⟨s, c⟩ := pairHoles_ok hb ha hq
      obtain ⟨s', c'⟩ := unwrap_ok s
      exact ⟨s', fun x => ((c' x).trans (c x)).trans and_comm⟩
    | holes l' => cases hr

theorem stepRes_ok {r : Res α} (hr : ShapeR r) {a : Arg α} (h : stepRes r = some a) :
    ShapeA a ∧ ∀ x, coversA a x ↔ coversR r x := by
  cases r with
  | ivl i =>
    obtain ⟨k, hk⟩ := hr
    simp only [stepRes, identify_shape hk, Option.some.injEq] at h
    subst h
    exact ⟨hk, fun x => by simp [coversA, coversO, coversR]⟩
  | none => cases h
  | list l =>
    simp only [stepRes, Option.some.injEq] at h
    subst h
    exact ⟨hr, fun x => Iff.rfl⟩

theorem simplifyGo_none (l : List (Arg α)) : simplifyGo none l = .ok none := by
  induction l with
  | nil => rfl
  | cons x xs ih => simpa [simplifyGo, simplifyStep, bind, Except.bind] using ih

theorem simplifyGo_ok {l : List (Arg α)} {a b : Arg α} (ha : ShapeA a) (hl : ∀ c ∈ l, ShapeA c)
    (h : simplifyGo (some a) l = .ok (some b)) :
    ShapeA b ∧ ∀ x, coversA b x ↔ coversA a x ∧ ∀ c ∈ l, coversA c x := by
  induction l generalizing a with
  | nil =>
    simp only [simplifyGo, Except.ok.injEq, Option.some.injEq] at h
    subst h
    exact ⟨ha, fun x => by simp⟩
  | cons c l ih =>
    simp only [simplifyGo, bind_ok] at h
    obtain ⟨acc, h1, h⟩ := h
    simp only [simplifyStep, map_ok] at h1
    obtain ⟨r, hr, rfl⟩ := h1
    obtain ⟨s1, c1⟩ := pair_ok ha (hl c (List.mem_cons_self ..)) hr
    cases hs : stepRes r with
    | none => rw [hs, simplifyGo_none] at h; cases h
    | some a' =>
      rw [hs] at h
      obtain ⟨s2, c2⟩ := stepRes_ok s1 hs
      obtain ⟨s3, c3⟩ := ih s2 (fun c hc => hl c (List.mem_cons_of_mem _ hc)) h
      refine ⟨s3, fun x => ?_⟩
      rw [c3, c2, c1]
      simp only [List.mem_cons, forall_eq_or_imp]
      exact and_assoc

theorem simplifyAll_ok {l : List (Arg α)} {r : List (Option (Ivl α))} (hl : ∀ c ∈ l, ShapeA c) (h : simplifyAll l = .ok r) :
    l ≠ [] ∧ (∀ w ∈ r, ShapeL w) ∧ ∀ x, coversL r x ↔ ∀ c ∈ l, coversA c x := by
  cases l with
  | nil => cases h
  | cons a l =>
    simp only [simplifyAll, bind_ok] at h
    obtain ⟨q, hq, h⟩ := h
    cases q with
    | none => cases h
    | some b =>
      obtain ⟨s, c⟩ := simplifyGo_ok (hl a (List.mem_cons_self ..)) (fun c hc => hl c (List.mem_cons_of_mem _ hc)) hq
      refine ⟨by simp, ?_⟩
      cases b with
      | flat k v =>
        simp only [pure, Except.pure, Except.ok.injEq] at h
        subst h
        refine ⟨?_, fun x => ?_⟩
        · rintro w hw i rfl
          rw [List.mem_singleton] at hw
          subst hw
          exact ⟨k, s⟩
        · rw [coversL_cons]
          simp only [coversL_nil, or_false, List.mem_cons, forall_eq_or_imp]
          exact c x
      | holes l' =>
        simp only [pure, Except.pure, Except.ok.injEq] at h
        subst h
        refine ⟨s, fun x => ?_⟩
        simp only [List.mem_cons, forall_eq_or_imp]
        exact c x

variable [Add α]

theorem reduceGroup_ok {g : Group α} {a : Arg α} (hw : g.widths) (h : reduceGroup g = .ok a) :
    ShapeA a ∧ ∀ x, coversA a x ↔ g.on x := by
  cases g with
  | S ps =>
    obtain ⟨q, hq, rfl⟩ := map_ok.1 h
    obtain ⟨⟨i, rfl, hi⟩, c⟩ := sOverlap_S (by
      intro v hv
      obtain ⟨p, _, rfl⟩ := List.mem_map.1 hv
      exact ⟨_, rfl, _, _, rfl⟩) hq
    refine ⟨hi, fun x => (c x).trans ?_⟩
    simp [Group.on, coversO, sInterval, covers]
  | Sr ps =>
    obtain ⟨q, hq, rfl⟩ := map_ok.1 h
    obtain ⟨⟨i, rfl, hi⟩, c⟩ := srOverlap_Sr (by
      intro v hv
      obtain ⟨p, _, rfl⟩ := List.mem_map.1 hv
      exact ⟨_, rfl, _, _, rfl⟩) hq
    refine ⟨hi, fun x => (c x).trans ?_⟩
    simp [Group.on, coversO, srInterval, covers]
  | SI ps =>
    obtain ⟨q, hq, rfl⟩ := map_ok.1 h
    obtain ⟨hi, c⟩ := siOverlap_SI (by
      intro v hv
      obtain ⟨p, _, rfl⟩ := List.mem_map.1 hv
      exact ⟨_, _, _, _, rfl⟩) hq
    refine ⟨hi, fun x => (c x).trans ?_⟩
    simp [Group.on, coversO, siInterval, covers]
  | SIr ps =>
    obtain ⟨q, hq, rfl⟩ := map_ok.1 h
    obtain ⟨s, c⟩ := sirOverlap_ok (by
      intro v hv
      obtain ⟨p, hp, rfl⟩ := List.mem_map.1 hv
      exact ⟨_, _, _, _, rfl, hw p hp⟩) hq
    refine ⟨?_, fun x => ?_⟩
    · intro w hw' i e
      obtain ⟨j, hj, rfl⟩ := List.mem_map.1 hw'
      cases e
      exact s _ hj
    · have : coversL (q.map some) x ↔ coversI q x := by simp [coversL, coversI]
      show coversL _ x ↔ _
      rw [this, c]
      simp [Group.on, outside, sirHole]

theorem reduceGroups_ok {gs : List (Group α)} {as : List (Arg α)} (hw : ∀ g ∈ gs, g.widths) (h : reduceGroups gs = .ok as) :
    (∀ a ∈ as, ShapeA a) ∧ (as = [] ↔ gs = []) ∧ ∀ x, (∀ a ∈ as, coversA a x) ↔ ∀ g ∈ gs, g.on x := by
  induction gs generalizing as with
  | nil =>
    simp only [reduceGroups, Except.ok.injEq] at h
    subst h
    exact ⟨by simp, by simp, by simp⟩
  | cons g gs ih =>
    simp only [reduceGroups, bind_ok] at h
    obtain ⟨a, ha, as', has, h⟩ := h
    simp only [pure, Except.pure, Except.ok.injEq] at h
    subst h
    obtain ⟨s1, c1⟩ := reduceGroup_ok (hw g (List.mem_cons_self ..)) ha
    obtain ⟨s2, _, c2⟩ := ih (fun g hg => hw g (List.mem_cons_of_mem _ hg)) has
    refine ⟨?_, by simp, fun x => ?_⟩
    · intro b hb
      rcases List.mem_cons.1 hb with rfl | hb
      · exact s1
      · exact s2 b hb
    · simp only [List.mem_cons, forall_eq_or_imp]
      rw [c1, c2]

end
end Interval
end GPyABCD

namespace GPyABCD
namespace Interval

variable {α : Type} [LinearOrder α]

/-- Ends at or before `L`. -/
def EndsBy (L : α) (i : Ivl α) : Prop := ∀ e ∈ i.stop, e ≤ L

theorem sirOne_total {a h : Ivl α} {L : α} (ha : ∃ k, Shape k a) (hL : EndsBy L a) (hh : IsHole h) (hlt : ∀ e ∈ h.stop, L < e) :
    ∃ r, sirOne a h = .ok r ∧ ∀ j ∈ r, ∀ e ∈ h.stop, EndsBy e j := by
  obtain ⟨s, e, ss, es, rfl, hle⟩ := hh
  have hlt : L < e := hlt e rfl
  obtain ⟨k, hk⟩ := ha
  cases k with
  | S =>
    obtain ⟨a, as, rfl⟩ := hk
    simp only [sirOne, isSemiline, Option.isNone_some, Option.isNone_none, Bool.or_true, if_true,
      semilineHole, get, bind, Except.bind, pure, Except.pure, gt_iff_lt, Option.mem_some_iff, forall_eq']
    have no : EndsBy e ({ start := some s, startSlope := some ss } : Ivl α) := by rintro e' he'; cases he'
    have no' : EndsBy e ({ start := some a, startSlope := some as } : Ivl α) := by rintro e' he'; cases he'
    have yes : EndsBy e (⟨some a, some e, some as, some es⟩ : Ivl α) := by rintro e' he'; cases he'; exact le_refl _
    by_cases c1 : a < s
    · by_cases c2 : a < e
      · simp only [c1, c2, if_true]
        exact ⟨_, rfl, by simp [no, yes]⟩
      · simp only [c1, c2, if_true, if_false]
        exact ⟨_, rfl, by simp [no]⟩
    · simp only [c1, if_false]
      exact ⟨_, rfl, by simp [no']⟩
  | Sr =>
    obtain ⟨a, as, rfl⟩ := hk
    have haL : a ≤ L := hL a rfl
    have : ¬ e < a := not_lt.2 (haL.trans hlt.le)
    refine ⟨_, by simp only [sirOne, isSemiline, Option.isNone_none, Bool.true_or, if_true, semilineHole, get, bind,
      Except.bind, pure, Except.pure, this, if_false]; rfl, ?_⟩
    intro j hj
    simp only [List.mem_singleton] at hj
    subst hj
    simp only [Option.mem_some_iff, forall_eq']
    rintro e' he'
    cases he'
    exact haL.trans hlt.le
  | SI =>
    obtain ⟨a, b, as, bs, rfl⟩ := hk
    have hbL : b ≤ L := hL b rfl
    have h1 : b < e := lt_of_le_of_lt hbL hlt
    have h2 : ¬ s < b := not_lt.2 (h1.le.trans hle)
    by_cases h3 : a < e
    · refine ⟨_, by simp only [sirOne, isSemiline, Option.isNone_some, Bool.or_self, Bool.false_eq_true, if_false,
        segmentHole, get, bind, Except.bind, pure, Except.pure, h1, h2, h3, if_true, gt_iff_lt]; rfl, ?_⟩
      intro j hj
      simp only [List.mem_append, List.mem_singleton, List.not_mem_nil, or_false] at hj
      subst hj
      simp only [Option.mem_some_iff, forall_eq']
      rintro e' he'
      cases he'
      exact h1.le
    · refine ⟨_, by simp only [sirOne, isSemiline, Option.isNone_some, Bool.or_self, Bool.false_eq_true, if_false,
        segmentHole, get, bind, Except.bind, pure, Except.pure, h1, h2, h3, if_true, gt_iff_lt]; rfl, ?_⟩
      intro j hj
      cases hj

theorem sirStep_total {acc : List (Ivl α)} {h : Ivl α} {L : α} (ha : ∀ a ∈ acc, ∃ k, Shape k a) (hL : ∀ a ∈ acc, EndsBy L a)
    (hh : IsHole h) (hlt : ∀ e ∈ h.stop, L < e) :
    ∃ r, sirStep acc h = .ok r ∧ ∀ j ∈ r, ∀ e ∈ h.stop, EndsBy e j := by
  induction acc with
  | nil => exact ⟨[], rfl, by simp⟩
  | cons a as ih =>
    obtain ⟨r1, h1, b1⟩ := sirOne_total (ha a (List.mem_cons_self ..)) (hL a (List.mem_cons_self ..)) hh hlt
    obtain ⟨r2, h2, b2⟩ := ih (fun a h => ha a (List.mem_cons_of_mem _ h)) (fun a h => hL a (List.mem_cons_of_mem _ h))
    refine ⟨r1 ++ r2, ?_, ?_⟩
    · rw [sirStep, h1, h2]; rfl
    · intro j hj
      rcases List.mem_append.1 hj with hj | hj
      · exact b1 j hj
      · exact b2 j hj

theorem sirFold_total {hs acc : List (Ivl α)} {L : α} (ha : ∀ a ∈ acc, ∃ k, Shape k a) (hL : ∀ a ∈ acc, EndsBy L a)
    (hh : ∀ h ∈ hs, IsHole h) (hlt : ∀ h ∈ hs, ∀ e ∈ h.stop, L < e)
    (hp : hs.Pairwise (fun h h' => ∀ e ∈ h.stop, ∀ e' ∈ h'.stop, e < e')) :
    ∃ r, sirFold acc hs = .ok r := by
  induction hs generalizing acc L with
  | nil => exact ⟨acc, rfl⟩
  | cons h hs ih =>
    obtain ⟨acc', h1, b1⟩ := sirStep_total ha hL (hh h (List.mem_cons_self ..)) (hlt h (List.mem_cons_self ..))
    have s1 := (sirStep_ok ha (hh h (List.mem_cons_self ..)) h1).1
    obtain ⟨s, e, ss, es, rfl, hle⟩ := hh h (List.mem_cons_self ..)
    rw [List.pairwise_cons] at hp
    obtain ⟨r, hr⟩ := ih (L := e) s1 (fun j hj => b1 j hj e rfl) (fun h' hm => hh h' (List.mem_cons_of_mem _ hm))
      (fun h' hm e' he' => hp.1 h' hm e rfl e' he') hp.2
    exact ⟨r, by rw [sirFold, h1]; exact hr⟩

theorem sirOverlap_total {h : Ivl α} {hs : List (Ivl α)} (hh : ∀ h' ∈ h :: hs, IsHole h')
    (hp : (h :: hs).Pairwise (fun h h' => ∀ e ∈ h.stop, ∀ e' ∈ h'.stop, e < e')) :
    ∃ r, sirOverlap (h :: hs) = .ok r := by
  obtain ⟨s, e, ss, es, rfl, hle⟩ := hh h (List.mem_cons_self ..)
  rw [List.pairwise_cons] at hp
  have := sirFold_total (acc := [{ stop := some e, stopSlope := some es }, { start := some s, startSlope := some ss }]) (L := e)
    (hs := hs)
    (by
      simp only [List.mem_cons, List.not_mem_nil, or_false]
      rintro j (rfl | rfl)
      · exact ⟨.Sr, _, _, rfl⟩
      · exact ⟨.S, _, _, rfl⟩)
    (by
      simp only [List.mem_cons, List.not_mem_nil, or_false]
      rintro j (rfl | rfl)
      · rintro e' he'; cases he'; exact le_refl _
      · rintro e' he'; cases he')
    (fun h' hm => hh h' (List.mem_cons_of_mem _ hm)) (fun h' hm e' he' => hp.1 h' hm e rfl e' he') hp.2
  exact this

/-- Two well-formed dictionaries: the pair function never raises. -/
theorem pairFlat_total {k1 k2 : Kind} {i j : Ivl α} (h1 : Shape k1 i) (h2 : Shape k2 j) :
    ∃ r, pairFlat k1 (some i) k2 (some j) = .ok r ∧ (r = .none → k1 = .SI ∧ k2 = .SI) := by
  have semi : ∀ {a b : Ivl α}, Shape .SI a → (Shape .S b ∨ Shape .Sr b) →
      ∃ r, pairSeg (some a) (some b) = .ok r ∧ r ≠ .none := by
    rintro a b ⟨s, e, ss, es, rfl⟩ (⟨t, ts, rfl⟩ | ⟨t, ts, rfl⟩)
    · simp only [pairSeg, segmentSemiline, sub, get, bind, Except.bind, pure, Except.pure, Option.isNone_some,
        Option.isNone_none, Bool.false_eq_true, if_false, if_true, decide_eq_true_eq, gt_iff_lt]
      by_cases c1 : t < e <;> by_cases c2 : t < s <;> simp [c1, c2]
    · simp only [pairSeg, segmentSemiline, sub, get, bind, Except.bind, pure, Except.pure, Option.isNone_some,
        Option.isNone_none, Bool.false_eq_true, if_false, if_true, decide_eq_true_eq]
      by_cases c1 : s < t <;> by_cases c2 : e < t <;> simp [c1, c2]
  have ends : ∀ {a b : Ivl α}, Shape .S a → Shape .Sr b → ∃ r, pairEnds (some a) (some b) = .ok r ∧ r ≠ .none := by
    rintro a b ⟨t, ts, rfl⟩ ⟨u, us, rfl⟩
    simp only [pairEnds, sub, get, bind, Except.bind, pure, Except.pure]
    by_cases c1 : t < u <;> simp [c1]
  have lift : ∀ {x : Except PyErr (Res α)} {P : Prop}, (∃ r, x = .ok r ∧ r ≠ .none) → ∃ r, x = .ok r ∧ (r = .none → P) := by
    rintro x P ⟨r, h, hn⟩
    exact ⟨r, h, fun e => absurd e hn⟩
  unfold pairFlat
  cases k1 <;> cases k2
  · rw [if_pos rfl]
    obtain ⟨s, ss, rfl⟩ := h1
    obtain ⟨t, ts, rfl⟩ := h2
    obtain ⟨r, hr⟩ := sOverlap_total (α := α) (ps := [some { start := some s, startSlope := some ss }, some { start := some t, startSlope := some ts }])
      (by simp) (by simp)
    obtain ⟨_, i, _, rfl, _⟩ := sOverlap_ok hr
    exact ⟨.ivl i, by simp only [hr]; rfl, fun h => by cases h⟩
  · exact lift (ends h1 h2)
  · exact lift (semi h2 (Or.inl h1))
  · exact lift (ends h2 h1)
  · rw [if_pos rfl]
    obtain ⟨s, ss, rfl⟩ := h1
    obtain ⟨t, ts, rfl⟩ := h2
    obtain ⟨r, hr⟩ := srOverlap_total (α := α) (ps := [some { stop := some s, stopSlope := some ss }, some { stop := some t, stopSlope := some ts }])
      (by simp) (by simp)
    obtain ⟨_, i, _, rfl, _⟩ := srOverlap_ok hr
    exact ⟨.ivl i, by simp only [hr]; rfl, fun h => by cases h⟩
  · exact lift (semi h2 (Or.inr h1))
  · exact lift (semi h1 (Or.inl h2))
  · exact lift (semi h1 (Or.inr h2))
  · rw [if_pos rfl]
    obtain ⟨r, hr⟩ := siOverlap_total (ps := [some i, some j]) (by simp) (pair_mem.2 ⟨⟨i, rfl, h1⟩, ⟨j, rfl, h2⟩⟩)
    exact ⟨Res.ofOpt r, by simp only [hr]; rfl, fun _ => ⟨rfl, rfl⟩⟩

/-- Two overlapping dictionaries give a dictionary. -/
theorem pairFlat_meet {k1 k2 : Kind} {i j : Ivl α} (h1 : Shape k1 i) (h2 : Shape k2 j) {x : α} (hi : covers i x)
    (hj : covers j x) : ∃ m k, pairFlat k1 (some i) k2 (some j) = .ok (.ivl m) ∧ Shape k m ∧ covers m x := by
  obtain ⟨r, hr, _⟩ := pairFlat_total h1 h2
  obtain ⟨⟨s, e⟩, c⟩ := pairFlat_ok (show ShapeO k1 (some i) from h1) (show ShapeO k2 (some j) from h2) hr
  have hx : coversR r x := (c x).2 ⟨⟨i, rfl, hi⟩, ⟨j, rfl, hj⟩⟩
  cases r with
  | ivl m => obtain ⟨k, hk⟩ := s; exact ⟨m, k, hr, hk, hx⟩
  | none => cases hx
  | list l => rw [e l rfl] at hx; exact absurd hx (coversL_nil x)

/-- A well-formed non-`None` value of a plain kind. -/
def Flat (a : Arg α) (x : α) : Prop := ∃ k i, a = .flat k (some i) ∧ Shape k i ∧ covers i x

theorem simplifyGo_flat {l : List (Arg α)} {a : Arg α} {x : α} (ha : Flat a x) (hl : ∀ c ∈ l, Flat c x) :
    ∃ b, simplifyGo (some a) l = .ok (some b) ∧ Flat b x := by
  induction l generalizing a with
  | nil => exact ⟨a, rfl, ha⟩
  | cons c l ih =>
    obtain ⟨k1, i, rfl, hi, hxi⟩ := ha
    obtain ⟨k2, j, rfl, hj, hxj⟩ := hl c (List.mem_cons_self ..)
    obtain ⟨m, k, hm, hk, hxm⟩ := pairFlat_meet hi hj hxi hxj
    obtain ⟨b, hb, hf⟩ := ih (a := .flat k (some m)) ⟨k, m, rfl, hk, hxm⟩ (fun c hc => hl c (List.mem_cons_of_mem _ hc))
    refine ⟨b, ?_, hf⟩
    simp only [simplifyGo, simplifyStep, pair, hm]
    simpa [Functor.map, Except.map, stepRes, identify_shape hk, bind, Except.bind] using hb

theorem pairHoles_total {k : Kind} {i : Ivl α} {l : List (Ivl α)} (hi : Shape k i) (hl : ∀ j ∈ l, ∃ k, Shape k j) :
    ∃ r, pairHoles k (some i) (l.map some) = .ok r ∧ (none ∈ r → k = .SI ∧ ∃ j ∈ l, Shape .SI j) := by
  induction l with
  | nil => exact ⟨[], rfl, by simp⟩
  | cons j l ih =>
    obtain ⟨k', hk'⟩ := hl j (List.mem_cons_self ..)
    obtain ⟨q, hq, hn⟩ := pairFlat_total hi hk'
    obtain ⟨rs, hrs, hn'⟩ := ih (fun j hj => hl j (List.mem_cons_of_mem _ hj))
    simp only [List.map_cons, pairHoles, identify_shape hk', hq, hrs, bind, Except.bind, pure, Except.pure]
    have tl : none ∈ rs → k = .SI ∧ ∃ j' ∈ j :: l, Shape .SI j' := by
      intro h
      obtain ⟨a, j', b, c⟩ := hn' h
      exact ⟨a, j', List.mem_cons_of_mem _ b, c⟩
    cases q with
    | ivl m => exact ⟨some m :: rs, rfl, fun h => tl (by simpa using h)⟩
    | none =>
      obtain ⟨a, b⟩ := hn rfl
      subst b
      exact ⟨none :: rs, rfl, fun _ => ⟨a, j, List.mem_cons_self .., hk'⟩⟩
    | list l' => exact ⟨rs, rfl, tl⟩

end Interval
end GPyABCD
