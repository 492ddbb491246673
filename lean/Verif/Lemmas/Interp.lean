import Verif.Spec.Interp
import Verif.Lemmas.Intervals
import Verif.Lemmas.SopsMain
import Verif.Lemmas.SopsKeys

/-!
# Lemmas: descriptions of components
-/

namespace GPyABCD
namespace Interp
open Sops Interval

set_option linter.unusedSectionVars false

variable {α : Type}

/-- What should be said of one entry of the dictionary: noise and constants once, sigmoids not here. -/
def entryFacts (cfg : Cfg) (e : Base × List (PD α)) : List (Base × List α) :=
  if e.1.isSigmoid then [] else if e.1 = .WN ∨ e.1 = .C then [(e.1, [])] else e.2.map (fun p => (e.1, told cfg e.1 p))

theorem readAll_ok {β : Type} {f : PD α → Except PyErr β} {g : PD α → β} {l : List (PD α)} (h : ∀ p ∈ l, f p = .ok (g p)) :
    readAll f l = .ok (l.map g) := by
  induction l with
  | nil => rfl
  | cons p l ih =>
    rw [readAll, h p (by simp), ih (fun q hq => h q (by simp [hq]))]
    rfl

theorem readAll_get {f : PD α → Option α} {l : List (PD α)} (h : ∀ p ∈ l, (f p).isSome) :
    ∃ r, readAll (fun p => Interval.get (f p)) l = .ok r ∧ l.map (fun p => (f p).toList) = r.map (fun x => [x]) := by
  induction l with
  | nil => exact ⟨[], rfl, rfl⟩
  | cons p l ih =>
    obtain ⟨r, h1, h2⟩ := ih (fun q hq => h q (by simp [hq]))
    obtain ⟨x, hx⟩ := Option.isSome_iff_exists.1 (h p (by simp))
    refine ⟨x :: r, ?_, by simp [hx, h2]⟩
    rw [readAll, h1]
    simp only [hx, Interval.get, bind, Except.bind]
    rfl

/-- What a phrase about `LIN` terms says. -/
theorem readLin_ok {β : Type} {cfg : Cfg} {one : Option α → β} {many : Nat → Option (List α) → β} {ps : List (PD α)}
    (hne : ps ≠ []) (hk : ∀ p ∈ ps, Keys cfg .LIN p) :
    ∃ x, readLin cfg one many ps = .ok x ∧
      ((∃ o, x = one o ∧ [((.LIN : Base), o.toList)] = entryFacts cfg (.LIN, ps)) ∨
        (∃ n, 1 < n ∧ x = many n none ∧ List.replicate n ((.LIN : Base), ([] : List α)) = entryFacts cfg (.LIN, ps)) ∨
        ∃ n r, 1 < n ∧ r.length = n ∧ x = many n (some r) ∧ r.map (fun o => ((.LIN : Base), [o])) = entryFacts cfg (.LIN, ps)) := by
  match ps, hne, hk with
  | [p], _, hk =>
    cases ho : cfg.linOffset with
    | false =>
      refine ⟨one none, by simp [readLin, ho], Or.inl ⟨none, rfl, ?_⟩⟩
      simp [entryFacts, Base.isSigmoid, told, ho]
    | true =>
      obtain ⟨x, hx⟩ := Option.isSome_iff_exists.1 (hk p (by simp) ho)
      refine ⟨one (some x), by simp [readLin, ho, hx, Interval.get, Functor.map, Except.map], Or.inl ⟨some x, rfl, ?_⟩⟩
      simp [entryFacts, Base.isSigmoid, told, ho, hx]
  | p :: q :: ps, _, hk =>
    cases ho : cfg.linOffset with
    | false =>
      refine ⟨many (p :: q :: ps).length none, by simp [readLin, ho], Or.inr (Or.inl ⟨_, by simp, rfl, ?_⟩)⟩
      simp only [entryFacts, Base.isSigmoid, told, ho]
      simp [List.replicate_succ]
    | true =>
      obtain ⟨r, h1, h2⟩ := readAll_get (f := PD.offset) (l := p :: q :: ps) (fun p hp => hk p hp ho)
      have hl := congrArg List.length h2
      simp only [List.length_map] at hl
      refine ⟨many (p :: q :: ps).length (some r), by simp only [readLin, ho, h1, if_true, Functor.map, Except.map], Or.inr (Or.inr ⟨_, r, by simp, hl.symm, rfl, ?_⟩)⟩
      have h3 := congrArg (List.map (fun l => ((.LIN : Base), l))) h2
      rw [List.map_map, List.map_map] at h3
      simp only [Function.comp_def] at h3
      rw [← h3]
      simp [entryFacts, Base.isSigmoid, told, ho]

theorem readPer_ok {cfg : Cfg} {l : List (PD α)} (h : ∀ p ∈ l, Keys cfg .PER p) :
    ∃ r, readAll readPer l = .ok r ∧ r.map (fun x => ((.PER : Base), [x.1, x.2])) = entryFacts cfg (.PER, l) := by
  induction l with
  | nil => exact ⟨[], rfl, by simp [entryFacts, Base.isSigmoid]⟩
  | cons p l ih =>
    obtain ⟨r, h1, h2⟩ := ih (fun q hq => h q (by simp [hq]))
    obtain ⟨ha, hb⟩ := h p (by simp)
    obtain ⟨x, hx⟩ := Option.isSome_iff_exists.1 ha
    obtain ⟨y, hy⟩ := Option.isSome_iff_exists.1 hb
    refine ⟨(x, y) :: r, ?_, ?_⟩
    · simp only [readAll, readPer, hx, hy, Interval.get, h1, bind, Except.bind, pure, Except.pure]
    · simp only [entryFacts, Base.isSigmoid, told] at h2 ⊢
      simp only [Bool.false_eq_true, if_false, List.map_cons, hx, hy] at h2 ⊢
      simp at h2 ⊢
      exact h2

section
variable [LinearOrder α]

/-- The conditions on an entry. -/
structure EntryOK (cfg : Cfg) (e : Base × List (PD α)) : Prop where
  ne : e.2 ≠ []
  keys : ∀ p ∈ e.2, Keys cfg e.1 p
  se : e.1 = .SE → e.2.length ≤ 1

theorem first_ok {cfg : Cfg} {e : Base × List (PD α)} (h : EntryOK cfg e) (hs : e.1.isSigmoid = false) :
    ∃ f, first cfg e = .ok f ∧ f.facts.Perm (entryFacts cfg e) ∧
      (∀ n r, f = .polynomial n r → 1 < n ∧ ∀ l, r = some l → l.length = n) ∧
      (∀ m more, f = .periodics m more → more ≠ [] ∧ (m :: more).Pairwise (fun a b => b.1 ≤ a.1)) := by
  obtain ⟨b, ps⟩ := e
  obtain ⟨hne, hk, hse⟩ := h
  simp only at hne hk hse hs
  cases b with
  | WN => exact ⟨.noise, rfl, by simp [First.facts, entryFacts, Base.isSigmoid], by simp, by simp⟩
  | C => exact ⟨.constant, rfl, by simp [First.facts, entryFacts, Base.isSigmoid], by simp, by simp⟩
  | SE =>
    match ps, hne, hse rfl with
    | [p], _, _ =>
      obtain ⟨x, hx⟩ := Option.isSome_iff_exists.1 (hk p (by simp))
      exact ⟨.smooth x, by simp [first, hx, Interval.get, Functor.map, Except.map], by simp [First.facts, entryFacts, Base.isSigmoid, told, hx], by simp, by simp⟩
    | _ :: _ :: _, _, h => simp at h
  | PER =>
    obtain ⟨r, h1, h2⟩ := readPer_ok hk
    match ps, hne with
    | [p], _ =>
      simp only [readAll, bind_ok, pure, Except.pure, Except.ok.injEq] at h1
      obtain ⟨x, hx, xs, hxs, rfl⟩ := h1
      subst hxs
      refine ⟨.periodic x.1 x.2, ?_, ?_, by simp, by simp⟩
      · simp only [first, hx, Functor.map, Except.map]
      · rw [← h2]; simp [First.facts]
    | p :: q :: ps, _ =>
      have hl : r.length = (p :: q :: ps).length := by
        have := congrArg List.length h2
        simpa [entryFacts, Base.isSigmoid] using this
      have hp : (byPeriod r).Perm r := List.perm_insertionSort _ _
      have hs : (byPeriod r).Pairwise (fun a b => b.1 ≤ a.1) := by
        have : Std.Total (fun a b : α × α => b.1 ≤ a.1) := ⟨fun a b => le_total b.1 a.1⟩
        have : IsTrans (α × α) (fun a b => b.1 ≤ a.1) := ⟨fun a b c h1 h2 => le_trans h2 h1⟩
        exact List.pairwise_insertionSort _ _
      cases hb : byPeriod r with
      | nil =>
        have := hp.length_eq; rw [hb, hl] at this; simp at this
      | cons x xs =>
        rw [hb] at hp hs
        refine ⟨.periodics x xs, ?_, ?_, by simp, ?_⟩
        · simp only [first, h1, bind, Except.bind, hb, pure, Except.pure]
        · rw [← h2]
          exact hp.map (fun x : α × α => ((.PER : Base), [x.1, x.2]))
        · intro m more hm
          cases hm
          refine ⟨?_, hs⟩
          rintro rfl
          have := hp.length_eq
          rw [hl] at this; simp at this
  | LIN =>
    obtain ⟨x, h1, h2⟩ := readLin_ok (one := First.linear) (many := First.polynomial) hne hk
    refine ⟨x, h1, ?_, ?_, ?_⟩
    · rcases h2 with ⟨o, rfl, h2⟩ | ⟨n, _, rfl, h2⟩ | ⟨n, r, _, _, rfl, h2⟩ <;> rw [← h2] <;> rfl
    · intro n r hr
      rcases h2 with ⟨o, rfl, h2⟩ | ⟨n, hn, rfl, h2⟩ | ⟨n, r, hn, hl, rfl, h2⟩
      · cases hr
      · cases hr; exact ⟨hn, by simp⟩
      · cases hr; exact ⟨hn, by rintro l h; cases h; exact hl⟩
    · rintro m more rfl
      rcases h2 with ⟨o, h, h2⟩ | ⟨n, hn, h, h2⟩ | ⟨n, r, hn, hl, h, h2⟩ <;> cases h
  | S => cases hs
  | Sr => cases hs
  | SI => cases hs
  | SIr => cases hs

/-- Conditions on the modifiers of a sentence that are no intervals. -/
structure ModsOK (ms : List (Modifier α)) : Prop where
  orders : ∀ n r, .polynomial n r ∈ ms → 1 < n ∧ ∀ l, r = some l → l.length = n
  plain : ∀ l, .intervals l ∉ ms

theorem postBase_ok {cfg : Cfg} {e : Base × List (PD α)} (h : EntryOK cfg e) (hs : e.1.isSigmoid = true ∨ e.1 = .SE ∨ e.1 = .LIN) :
    ∃ m, postBase cfg e = .ok m ∧ m.toList.flatMap Modifier.facts = entryFacts cfg e ∧ ModsOK m.toList := by
  obtain ⟨b, ps⟩ := e
  obtain ⟨hne, hk, hse⟩ := h
  simp only at hne hk hse hs
  have sig : b.isSigmoid = true → ∃ m, postBase cfg (b, ps) = .ok m ∧ m.toList.flatMap Modifier.facts = entryFacts cfg (b, ps) ∧ ModsOK m.toList := by
    intro hb
    refine ⟨none, ?_, by simp [entryFacts, hb], ⟨by simp, by simp⟩⟩
    cases b <;> first | (cases hb; done) | rfl
  cases b with
  | WN => simp [Base.isSigmoid] at hs
  | C => simp [Base.isSigmoid] at hs
  | PER => simp [Base.isSigmoid] at hs
  | SE =>
    match ps, hne, hse rfl with
    | [p], _, _ =>
      obtain ⟨x, hx⟩ := Option.isSome_iff_exists.1 (hk p (by simp))
      exact ⟨some (.smooth x), by simp [postBase, hx, Interval.get, Functor.map, Except.map],
        by simp [Modifier.facts, entryFacts, Base.isSigmoid, told, hx], ⟨by simp, by simp⟩⟩
    | _ :: _ :: _, _, h => simp at h
  | LIN =>
    obtain ⟨x, h1, h2⟩ := readLin_ok (one := Modifier.linear) (many := Modifier.polynomial) hne hk
    refine ⟨some x, by simp [postBase, h1, Functor.map, Except.map], ?_, ?_, ?_⟩
    · rcases h2 with ⟨o, rfl, h2⟩ | ⟨n, _, rfl, h2⟩ | ⟨n, r, _, _, rfl, h2⟩ <;> rw [← h2] <;> simp [Modifier.facts]
    · intro n r hr
      rcases h2 with ⟨o, rfl, h2⟩ | ⟨n, hn, rfl, h2⟩ | ⟨n, r, hn, hl, rfl, h2⟩
      · simp at hr
      · simp at hr; obtain ⟨rfl, rfl⟩ := hr; exact ⟨hn, by simp⟩
      · simp at hr; obtain ⟨rfl, rfl⟩ := hr; exact ⟨hn, by rintro l h; cases h; exact hl⟩
    · intro l hl
      rcases h2 with ⟨o, rfl, h2⟩ | ⟨n, hn, rfl, h2⟩ | ⟨n, r, hn, hl, rfl, h2⟩ <;> simp at hl
  | S => exact sig rfl
  | Sr => exact sig rfl
  | SI => exact sig rfl
  | SIr => exact sig rfl

theorem postAll_ok {cfg : Cfg} {es : List (Base × List (PD α))} (h : ∀ e ∈ es, EntryOK cfg e)
    (hs : ∀ e ∈ es, e.1.isSigmoid = true ∨ e.1 = .SE ∨ e.1 = .LIN) :
    ∃ ms, postAll cfg es = .ok ms ∧ ms.flatMap Modifier.facts = es.flatMap (entryFacts cfg) ∧ ModsOK ms := by
  induction es with
  | nil => exact ⟨[], rfl, rfl, by simp, by simp⟩
  | cons e es ih =>
    obtain ⟨m, h1, h2, h3⟩ := postBase_ok (h e (by simp)) (hs e (by simp))
    obtain ⟨ms, h4, h5, h6⟩ := ih (fun e he => h e (by simp [he])) (fun e he => hs e (by simp [he]))
    refine ⟨m.toList ++ ms, by simp only [postAll, h1, h4, bind, Except.bind, pure, Except.pure], ?_, ?_, ?_⟩
    · rw [List.flatMap_append, h2, h5, List.flatMap_cons]
    · intro n r hm
      rcases List.mem_append.1 hm with hm | hm
      · exact h3.orders n r hm
      · exact h6.orders n r hm
    · intro l hm
      rcases List.mem_append.1 hm with hm | hm
      · exact h3.plain l hm
      · exact h6.plain l hm

/-! ## Intervals -/

theorem ivlText_ok {cfg : Cfg} {i : Ivl α} (h : ∃ k, Shape k i) :
    ∃ t, ivlText cfg (some i) = .ok t ∧ ∀ x, t.covers x ↔ covers i x := by
  obtain ⟨k, h⟩ := h
  cases k with
  | S =>
    obtain ⟨s, ss, rfl⟩ := h
    cases hf : cfg.fixSlope
    · exact ⟨.from s (some ss), by simp [ivlText, hf, Interval.get, bind, Except.bind, pure, Except.pure], by simp [IvlText.covers, covers]⟩
    · exact ⟨.from s none, by simp [ivlText, hf, Interval.get, bind, Except.bind, pure, Except.pure], by simp [IvlText.covers, covers]⟩
  | Sr =>
    obtain ⟨s, ss, rfl⟩ := h
    cases hf : cfg.fixSlope
    · exact ⟨.until s (some ss), by simp [ivlText, hf, Interval.get, bind, Except.bind, pure, Except.pure], by simp [IvlText.covers, covers]⟩
    · exact ⟨.until s none, by simp [ivlText, hf, Interval.get, bind, Except.bind, pure, Except.pure], by simp [IvlText.covers, covers]⟩
  | SI =>
    obtain ⟨s, e, a, b, rfl⟩ := h
    cases hf : cfg.fixSlope
    · exact ⟨.between s e .none, by simp [ivlText, hf, Interval.get, bind, Except.bind, pure, Except.pure], by simp [IvlText.covers, covers]⟩
    · by_cases hab : a = b
      · exact ⟨.between s e (.same a), by simp [ivlText, hf, Interval.get, bind, Except.bind, pure, Except.pure, hab], by simp [IvlText.covers, covers]⟩
      · exact ⟨.between s e (.two a b), by simp [ivlText, hf, Interval.get, bind, Except.bind, pure, Except.pure, hab], by simp [IvlText.covers, covers]⟩

theorem ivlTexts_ok {cfg : Cfg} {l : List (Option (Ivl α))} (hs : ∀ w ∈ l, ShapeL w) (hn : none ∉ l) :
    ∃ ts, ivlTexts cfg l = .ok ts ∧ ts.length = l.length ∧ ∀ x, (∃ t ∈ ts, t.covers x) ↔ coversL l x := by
  induction l with
  | nil => exact ⟨[], rfl, rfl, by simp [coversL]⟩
  | cons w l ih =>
    obtain ⟨ts, h1, h2, h3⟩ := ih (fun w hw => hs w (by simp [hw])) (fun h => hn (by simp [h]))
    cases w with
    | none => simp at hn
    | some i =>
      obtain ⟨t, h4, h5⟩ := ivlText_ok (cfg := cfg) (hs (some i) (by simp) i rfl)
      refine ⟨t :: ts, by simp only [ivlTexts, h1, h4, bind, Except.bind, pure, Except.pure], by simp [h2], ?_⟩
      intro x
      simp only [List.mem_cons, exists_eq_or_imp, h5, h3, coversL]
      constructor
      · rintro (h | ⟨j, hj, h⟩)
        · exact ⟨i, Or.inl rfl, h⟩
        · exact ⟨j, Or.inr hj, h⟩
      · rintro ⟨j, hj | hj, h⟩
        · cases hj; exact Or.inl h
        · exact Or.inr ⟨j, hj, h⟩

theorem ivlTexts_none {cfg : Cfg} {l : List (Option (Ivl α))} (hs : ∀ w ∈ l, ShapeL w) (hn : none ∈ l) :
    ivlTexts cfg l = .error .type := by
  induction l with
  | nil => simp at hn
  | cons w l ih =>
    cases w with
    | none => rfl
    | some i =>
      obtain ⟨t, h4, _⟩ := ivlText_ok (cfg := cfg) (hs (some i) (by simp) i rfl)
      rw [ivlTexts, h4, ih (fun w hw => hs w (by simp [hw])) (by simpa using hn)]
      rfl

variable [Add α] [One α]

/-- A window ends no earlier than it starts. -/
def WidthOK (b : Base) (p : PD α) : Prop := b = .SI ∨ b = .SIr → ∀ l ∈ p.location, ∀ w ∈ p.width, l ≤ l + w

theorem readSig_ok {cfg : Cfg} {w : Bool} {l : List (PD α)}
    (h : ∀ p ∈ l, p.location.isSome ∧ (cfg.fixSlope = false → p.slope.isSome) ∧ (w = true → p.width.isSome)) :
    ∃ r, readAll (readSig cfg w) l = .ok r ∧ List.Forall₂ (fun p s => p.location = some s.loc ∧ (w = true → p.width = some s.width) ∧
      s.slope = (if cfg.fixSlope then 1 else p.slope.getD 1)) l r := by
  induction l with
  | nil => exact ⟨[], rfl, .nil⟩
  | cons p l ih =>
    obtain ⟨r, h1, h2⟩ := ih (fun q hq => h q (by simp [hq]))
    obtain ⟨ha, hb, hc⟩ := h p (by simp)
    obtain ⟨x, hx⟩ := Option.isSome_iff_exists.1 ha
    cases hf : cfg.fixSlope with
    | true =>
      cases w with
      | true =>
        obtain ⟨y, hy⟩ := Option.isSome_iff_exists.1 (hc rfl)
        exact ⟨⟨x, 1, y⟩ :: r, by simp [readAll, readSig, hx, hy, hf, Interval.get, h1, bind, Except.bind, pure, Except.pure], .cons ⟨hx, fun _ => hy, by simp⟩ (by simpa [hf] using h2)⟩
      | false =>
        exact ⟨⟨x, 1, 1⟩ :: r, by simp [readAll, readSig, hx, hf, Interval.get, h1, bind, Except.bind, pure, Except.pure], .cons ⟨hx, by simp, by simp⟩ (by simpa [hf] using h2)⟩
    | false =>
      obtain ⟨z, hz⟩ := Option.isSome_iff_exists.1 (hb hf)
      cases w with
      | true =>
        obtain ⟨y, hy⟩ := Option.isSome_iff_exists.1 (hc rfl)
        exact ⟨⟨x, z, y⟩ :: r, by simp [readAll, readSig, hx, hy, hz, hf, Interval.get, h1, bind, Except.bind, pure, Except.pure], .cons ⟨hx, fun _ => hy, by simp [hz]⟩ (by simpa [hf] using h2)⟩
      | false =>
        exact ⟨⟨x, z, 1⟩ :: r, by simp [readAll, readSig, hx, hz, hf, Interval.get, h1, bind, Except.bind, pure, Except.pure], .cons ⟨hx, by simp, by simp [hz]⟩ (by simpa [hf] using h2)⟩

theorem forall₂_all {β γ : Type} {R : β → γ → Prop} {p : β → Prop} {q : γ → Prop} {l : List β} {r : List γ} (h : List.Forall₂ R l r)
    (hpq : ∀ b c, R b c → (p b ↔ q c)) : (∀ b ∈ l, p b) ↔ ∀ c ∈ r, q c := by
  induction h with
  | nil => simp
  | cons h1 _ ih => simp [hpq _ _ h1, ih]

theorem groups_ok {cfg : Cfg} {ps : PDict α} (hk : DictQ (Keys cfg) ps) (hw : DictQ WidthOK ps) :
    ∃ gs, groups cfg ps = .ok gs ∧ (gs = [] ↔ ∀ e ∈ ps, e.1.isSigmoid = false) ∧ (∀ g ∈ gs, g.widths) ∧
      ∀ x, (∀ g ∈ gs, g.on x) ↔ ∀ e ∈ ps, ∀ p ∈ e.2, SigOn x e.1 p := by
  induction ps with
  | nil => exact ⟨[], rfl, by simp, by simp, by simp⟩
  | cons e r ih =>
    obtain ⟨gs, h1, h2, h3, h4⟩ := ih (fun e he => hk e (by simp [he])) (fun e he => hw e (by simp [he]))
    obtain ⟨b, ps⟩ := e
    have hk' : ∀ p ∈ ps, Keys cfg b p := hk (b, ps) (by simp)
    have hw' : ∀ p ∈ ps, WidthOK b p := hw (b, ps) (by simp)
    have skip : b.isSigmoid = false → (∀ x p, SigOn (α := α) x b p) → groups cfg ((b, ps) :: r) = groups cfg r →
        ∃ gs, groups cfg ((b, ps) :: r) = .ok gs ∧ (gs = [] ↔ ∀ e ∈ (b, ps) :: r, e.1.isSigmoid = false) ∧ (∀ g ∈ gs, g.widths) ∧
          ∀ x, (∀ g ∈ gs, g.on x) ↔ ∀ e ∈ (b, ps) :: r, ∀ p ∈ e.2, SigOn x e.1 p := by
      intro hs ho he
      refine ⟨gs, by rw [he, h1], by simp [hs, h2], h3, ?_⟩
      intro x; rw [h4]; simp [ho x]
    cases b with
    | WN => exact skip rfl (fun _ _ => trivial) rfl
    | C => exact skip rfl (fun _ _ => trivial) rfl
    | LIN => exact skip rfl (fun _ _ => trivial) rfl
    | SE => exact skip rfl (fun _ _ => trivial) rfl
    | PER => exact skip rfl (fun _ _ => trivial) rfl
    | S =>
      obtain ⟨g, h5, h6⟩ := readSig_ok (cfg := cfg) (w := false) (l := ps) (fun p hp => ⟨(hk' p hp).1, (hk' p hp).2, by simp⟩)
      refine ⟨.S g :: gs, by simp only [groups, h5, h1, bind, Except.bind, pure, Except.pure], by simp [Base.isSigmoid], ?_, ?_⟩
      · simpa [Group.widths] using h3
      · intro x
        rw [List.forall_mem_cons, List.forall_mem_cons, h4]
        refine and_congr_left fun _ => (forall₂_all (p := SigOn x _) (q := fun s : SigP α => s.loc < x) h6 ?_).symm
        rintro p s ⟨hl, _⟩
        simp [SigOn, hl]
    | Sr =>
      obtain ⟨g, h5, h6⟩ := readSig_ok (cfg := cfg) (w := false) (l := ps) (fun p hp => ⟨(hk' p hp).1, (hk' p hp).2, by simp⟩)
      refine ⟨.Sr g :: gs, by simp only [groups, h5, h1, bind, Except.bind, pure, Except.pure], by simp [Base.isSigmoid], ?_, ?_⟩
      · simpa [Group.widths] using h3
      · intro x
        rw [List.forall_mem_cons, List.forall_mem_cons, h4]
        refine and_congr_left fun _ => (forall₂_all (p := SigOn x _) (q := fun s : SigP α => x < s.loc) h6 ?_).symm
        rintro p s ⟨hl, _⟩
        simp [SigOn, hl]
    | SI =>
      obtain ⟨g, h5, h6⟩ := readSig_ok (cfg := cfg) (w := true) (l := ps) (fun p hp => ⟨(hk' p hp).1, (hk' p hp).2.1, fun _ => (hk' p hp).2.2⟩)
      refine ⟨.SI g :: gs, by simp only [groups, h5, h1, bind, Except.bind, pure, Except.pure], by simp [Base.isSigmoid], ?_, ?_⟩
      · simpa [Group.widths] using h3
      · intro x
        rw [List.forall_mem_cons, List.forall_mem_cons, h4]
        refine and_congr_left fun _ => (forall₂_all (p := SigOn x _) (q := fun s : SigP α => s.loc < x ∧ x < s.loc + s.width) h6 ?_).symm
        rintro p s ⟨hl, hw, _⟩
        simp [SigOn, hl, hw rfl]
    | SIr =>
      obtain ⟨g, h5, h6⟩ := readSig_ok (cfg := cfg) (w := true) (l := ps) (fun p hp => ⟨(hk' p hp).1, (hk' p hp).2.1, fun _ => (hk' p hp).2.2⟩)
      refine ⟨.SIr g :: gs, by simp only [groups, h5, h1, bind, Except.bind, pure, Except.pure], by simp [Base.isSigmoid], ?_, ?_⟩
      · simp only [List.forall_mem_cons]
        refine ⟨?_, h3⟩
        refine (forall₂_all (p := WidthOK .SIr) h6 ?_).1 hw'
        rintro p s ⟨hl, hw, _⟩
        simp [WidthOK, hl, hw rfl]
      · intro x
        rw [List.forall_mem_cons, List.forall_mem_cons, h4]
        refine and_congr_left fun _ => (forall₂_all (p := SigOn x _) (q := fun s : SigP α => x < s.loc ∨ s.loc + s.width < x) h6 ?_).symm
        rintro p s ⟨hl, hw, _⟩
        simp [SigOn, hl, hw rfl]

/-! ## Sentences -/

/-- What is told by a sentence about a component. -/
structure Tells (cfg : Cfg) (ps : PDict α) (pv : Option α) (s : Sentence α) : Prop where
  facts : s.facts.Perm (ps.flatMap (entryFacts cfg))
  orders : s.Orders
  decreasing : s.Decreasing
  var : pv = some s.var
  bounded : s.bounded = true ↔ ∃ e ∈ ps, e.1.isSigmoid = true
  region : s.bounded = true → ∀ x, (∃ t ∈ s.ivls, t.covers x) ↔ ∀ e ∈ ps, ∀ p ∈ e.2, SigOn x e.1 p
  free : s.bounded = false → s.ivls = []

theorem ivls_plain {ms : List (Modifier α)} (h : ModsOK ms) (f : First α) (bd : Bool) (v : α) : (⟨f, ms, bd, v⟩ : Sentence α).ivls = [] := by
  simp only [Sentence.ivls, List.flatMap_eq_nil_iff]
  intro m hm
  cases m with
  | intervals l => exact absurd hm (h.plain l)
  | _ => rfl

variable [Mul α]

/-- After the first entry in the order of the interpretation there are only `SE`, `LIN` and sigmoids. -/
theorem ordered_ok {P : α → Prop} {n : Prod α} (h : Inv P n) (hp : Plain n) :
    ∃ e es, n.ps.insertionSort (fun a b => a.1.order ≤ b.1.order) = e :: es ∧ (e :: es).Perm n.ps ∧ e.1.isSigmoid = false ∧
      ∀ e' ∈ es, e'.1.isSigmoid = true ∨ e'.1 = .SE ∨ e'.1 = .LIN := by
  have hperm : (n.ps.insertionSort (fun a b => a.1.order ≤ b.1.order)).Perm n.ps := List.perm_insertionSort _ _
  have hsort : (n.ps.insertionSort (fun a b => a.1.order ≤ b.1.order)).Pairwise (fun a b => a.1.order ≤ b.1.order) := by
    have : Std.Total (fun a b : Base × List (PD α) => a.1.order ≤ b.1.order) := ⟨fun a b => le_total _ _⟩
    have : IsTrans (Base × List (PD α)) (fun a b => a.1.order ≤ b.1.order) := ⟨fun a b c h1 h2 => le_trans h1 h2⟩
    exact List.pairwise_insertionSort _ _
  have hnd : ((n.ps.insertionSort (fun a b => a.1.order ≤ b.1.order)).map (fun e => e.1)).Nodup :=
    ((hperm.map (fun e => e.1)).nodup_iff).2 h.dok.nodup
  generalize n.ps.insertionSort (fun a b => a.1.order ≤ b.1.order) = l at hperm hsort hnd
  obtain ⟨_, b, hb, hbn⟩ := hp
  have hbm := hperm.mem_iff.2 (PDict.mem_of_get hbn)
  cases l with
  | nil => simp at hbm
  | cons e es =>
    have hpos : ∀ e' ∈ e :: es, 0 < n.bts.get e'.1 := by
      intro e' he'
      have := hperm.mem_iff.1 he'
      refine h.bts_pos ?_
      rw [PDict.get_of_mem h.dok this]
      exact h.dok.ne _ this
    rw [List.pairwise_cons] at hsort
    rw [List.map_cons, List.nodup_cons] at hnd
    have hplain : e.1.isSigmoid = false := by
      rcases List.mem_cons.1 hbm with hbe | hbe
      · rw [← hbe]; exact hb
      · have := hsort.1 _ hbe
        simp only at this
        cases hk : e.1 <;> rw [hk] at this <;> cases b <;> simp [Base.order, Base.isSigmoid] at this hb ⊢
    refine ⟨e, es, rfl, hperm, hplain, ?_⟩
    intro e' he'
    have hle := hsort.1 e' he'
    have hne : e.1 ≠ e'.1 := by
      intro h; exact hnd.1 (List.mem_map.2 ⟨e', he', h.symm⟩)
    have p1 := hpos e (by simp)
    have p2 := hpos e' (by simp [he'])
    have nm := h.nm
    generalize e.1 = a at *
    generalize e'.1 = b' at *
    have nC := nm .C
    have nP := nm .PER
    have nS := nm .SE
    by_cases hW : 0 < n.bts.get .WN <;> simp only [normal, hW, if_true, if_false, reduceCtorEq, or_true, true_or, or_false, false_or] at nC nP nS <;>
    cases b' <;> simp [Base.isSigmoid] <;> cases a <;> simp [Base.order, Base.isSigmoid] at hle hne hplain <;> (first | omega | (split_ifs at nC <;> omega))

/-- The description of a component: it succeeds unless the reduction of its sigmoids fails or contains `None`. -/
theorem describe_ok {P : α → Prop} {cfg : Cfg} {n : Prod α} (h : Inv P n) (hp : Plain n) (hk : DictQ (Keys cfg) n.ps) (hw : DictQ WidthOK n.ps) :
    ∃ gs, groups cfg n.ps = .ok gs ∧
      ((gs = [] ∧ ∃ s, describe cfg n.ps n.pv = .ok s ∧ Tells cfg n.ps n.pv s) ∨
        (gs ≠ [] ∧ ∃ l, sigmoidIntervals gs = .ok l ∧ none ∉ l ∧ ∃ s, describe cfg n.ps n.pv = .ok s ∧ Tells cfg n.ps n.pv s) ∨
        (gs ≠ [] ∧ ∃ l, sigmoidIntervals gs = .ok l ∧ none ∈ l ∧ describe cfg n.ps n.pv = .error .type) ∨
        (gs ≠ [] ∧ ∃ e, sigmoidIntervals gs = .error e ∧ describe cfg n.ps n.pv = .error e)) := by
  obtain ⟨gs, h1, h2, h3, h4⟩ := groups_ok hk hw
  refine ⟨gs, h1, ?_⟩
  obtain ⟨e, es, hs1, hs2, hs3, hs4⟩ := ordered_ok h hp
  obtain ⟨v, hv⟩ := Option.isSome_iff_exists.1 hp.1
  have hE : ∀ e' ∈ e :: es, EntryOK cfg e' := by
    intro e' he'
    have hm := hs2.mem_iff.1 he'
    refine ⟨h.dok.ne _ hm, hk _ hm, ?_⟩
    intro hse
    have hg := PDict.get_of_mem h.dok hm
    have := h.cO .SE (by simp) (by simp)
    rw [← hse, hg, hse, ← h.nm .SE] at this
    simp only [normal, reduceCtorEq, or_true, true_or, if_true, if_false] at this
    split_ifs at this <;> omega
  obtain ⟨f, f1, f2, f3, f4⟩ := first_ok (hE e (by simp)) hs3
  obtain ⟨ms, m1, m2, m3⟩ := postAll_ok (fun e' he' => hE e' (by simp [he'])) hs4
  have facts : ∀ rest : List (Modifier α), rest.flatMap Modifier.facts = [] →
      (f.facts ++ (ms ++ rest).flatMap Modifier.facts).Perm (n.ps.flatMap (entryFacts cfg)) := by
    intro rest hr
    rw [List.flatMap_append, hr, List.append_nil, m2]
    have := hs2.flatMap_right (entryFacts cfg)
    rw [List.flatMap_cons] at this
    exact (f2.append_right _).trans this
  have nosig : gs = [] ↔ ¬ ∃ e ∈ n.ps, e.1.isSigmoid = true := by
    rw [h2]; simp
  cases gs with
  | nil =>
    left
    refine ⟨rfl, ⟨f, ms, false, v⟩, ?_, ?_, ?_, ?_, hv, ?_, ?_, ?_⟩
    · simp only [describe, toIntervals, h1, hv, Interval.get, bind, Except.bind, pure, Except.pure, hs1, m1, f1]
      simp
    · have := facts [] rfl
      simpa [Sentence.facts] using this
    · exact ⟨f3, m3.orders⟩
    · exact f4
    · have := nosig.1 rfl
      simp at this; simpa using this
    · simp
    · intro _; exact ivls_plain m3 f false v
  | cons g gs =>
    right
    have toI : toIntervals cfg n.ps = some <$> sigmoidIntervals (g :: gs) := by
      simp only [toIntervals, h1, bind, Except.bind]
    cases hsI : sigmoidIntervals (g :: gs) with
    | error er =>
      right; right
      refine ⟨by simp, er, rfl, ?_⟩
      simp only [describe, toI, hsI, Functor.map, Except.map, bind, Except.bind]
    | ok l =>
      have hshape : (∀ w ∈ l, ShapeL w) ∧ ∀ x, coversL l x ↔ ∀ g' ∈ g :: gs, g'.on x := by
        obtain ⟨as, ha, hl⟩ := bind_ok.1 hsI
        obtain ⟨s, _, c⟩ := reduceGroups_ok h3 ha
        obtain ⟨_, s', c'⟩ := simplifyAll_ok s hl
        exact ⟨s', fun x => by rw [c', c]⟩
      by_cases hn : none ∈ l
      · right; left
        refine ⟨by simp, l, rfl, hn, ?_⟩
        simp only [describe, toI, hsI, Functor.map, Except.map, bind, Except.bind, hv, Interval.get, hs1, m1, postIvl, ivlTexts_none hshape.1 hn]
      · left
        obtain ⟨ts, t1, t2, t3⟩ := ivlTexts_ok (cfg := cfg) hshape.1 hn
        refine ⟨by simp, l, rfl, hn, ?_⟩
        have hbd : ∃ e ∈ n.ps, e.1.isSigmoid = true := by
          by_contra hno
          have := nosig.2 hno
          simp at this
        cases ts with
        | nil =>
          refine ⟨⟨f, ms, true, v⟩, ?_, ?_, ⟨f3, m3.orders⟩, f4, hv, ?_, ?_, by simp⟩
          · simp only [describe, toI, hsI, Functor.map, Except.map, bind, Except.bind, hv, Interval.get, hs1, m1, postIvl, t1, f1, pure, Except.pure]
            simp
          · have := facts [] rfl
            simpa [Sentence.facts] using this
          · simpa using hbd
          · intro _ x
            rw [← h4, ← hshape.2, ← t3, ivls_plain m3]
        | cons t ts =>
          refine ⟨⟨f, ms ++ [.intervals (t :: ts)], true, v⟩, ?_, ?_, ⟨f3, ?_⟩, f4, hv, ?_, ?_, by simp⟩
          · simp only [describe, toI, hsI, Functor.map, Except.map, bind, Except.bind, hv, Interval.get, hs1, m1, postIvl, t1, f1, pure, Except.pure]
            simp
          · exact facts [.intervals (t :: ts)] rfl
          · intro n' r hm
            refine m3.orders n' r ?_
            simpa using hm
          · simpa using hbd
          · intro _ x
            rw [← h4, ← hshape.2, ← t3]
            have hi := ivls_plain m3 f true v
            simp only [Sentence.ivls] at hi ⊢
            rw [List.flatMap_append, hi]
            simp

end

end Interp
end GPyABCD
