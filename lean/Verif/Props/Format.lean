import Verif.Lemmas.Format
import Verif.Lemmas.ShownSentence
import Verif.Props.Interp

/-!
# Printed numbers (C99) and unambiguous descriptions (C100)
-/

namespace GPyABCD
open Interp Sops

/-! ## C99 -/

/-- C99: a number is printed with two places behind the point, and what is printed is at most half a hundredth away from it. -/
theorem C99_near (v : ℚ) : TwoPlaces (fmt2 v) ∧ ∃ q, Decimal (fmt2 v) q ∧ |q - v| ≤ 1 / 200 :=
  ⟨hundredths_two _ _, shownVal v, fmt2_decimal v, shownVal_near v⟩

/-- C99: a text is the decimal notation of one number at most, so what is read is what C99_near says. -/
theorem C99_read (s : String) (p q : ℚ) (hp : Decimal s p) (hq : Decimal s q) : p = q := decimal_unique hp hq

/-- C99: printing keeps the order of numbers: ends of intervals and periods are not exchanged. -/
theorem C99_order (v w p q : ℚ) (h : v ≤ w) (hp : Decimal (fmt2 v) p) (hq : Decimal (fmt2 w) q) : p ≤ q := by
  rw [decimal_unique hp (fmt2_decimal v), decimal_unique hq (fmt2_decimal w)]
  exact shownVal_mono h

/-- C99: whole hundredths are printed as they are. -/
theorem C99_exact (m : ℤ) : Decimal (fmt2 (m / 100)) (m / 100) := by
  have := fmt2_decimal ((m : ℚ) / 100)
  rwa [shownVal_exact] at this

/-- C99: numbers printed alike are at most a hundredth apart. -/
theorem C99_alike (v w : ℚ) (h : fmt2 v = fmt2 w) : |v - w| ≤ 1 / 100 := by
  obtain ⟨q, hq, h1⟩ := (C99_near v).2
  obtain ⟨q', hq', h2⟩ := (C99_near w).2
  rw [← h] at hq'
  rw [decimal_unique hq' hq] at h2
  rw [abs_le] at h1 h2 ⊢
  constructor <;> linarith [h1.1, h1.2, h2.1, h2.2]

/-- C99: small parameters are printed as zero, with a sign that depends on what is not printed. -/
theorem C99_zero : fmt2 (1 / 250) = "0.00" ∧ fmt2 (-1 / 250) = "-0.00" := by decide +kernel

-- both signs and both sides of a half
example : fmt2 (1 / 8) = "0.12" ∧ fmt2 (3 / 8) = "0.38" ∧ fmt2 (-314159 / 1000) = "-314.16" ∧ fmt2 (199999 / 1000) = "200.00" := by decide +kernel

/-- Numbers are printed with the characters of numbers. -/
theorem C99_plain : Plain fmt2 := by
  intro v
  obtain ⟨sg, w, p, e, h1, h2, h3, _, h5⟩ := (C99_near v).1
  rw [e]
  refine ⟨by simp, fun c hc => ?_⟩
  simp only [List.mem_append, List.mem_cons] at hc
  rcases hc with (hc | hc) | rfl | hc
  · have := h1 hc
    simp at this
    simp [this, numC]
  · simp [numC, h3 c hc]
  · decide
  · simp [numC, h5 c hc]

/-! ## C100 -/

section
variable {α : Type}

/-- C100: sentences with the same text tell the same kinds of functions, as many numbers in the same places, and every number is printed alike. -/
theorem C100_sentence (fmt : α → String) (hf : Plain fmt) (s t : Sentence α) (h : s.text fmt = t.text fmt) :
    Sentence.Rel (fun a b => fmt a = fmt b) s t :=
  (sentence_cut (t := []) (t' := []) hf (by intro c hc; simp at hc) (by intro c hc; simp at hc) (by rw [h])).1

/-- C100: descriptions with the same text have the same sentences but for numbers that are printed alike. -/
theorem C100_description [LinearOrder α] [Add α] [One α] (fmt : α → String) (hf : Plain fmt) (cfg : Cfg) (k k' : PKE α) (t : String)
    (h : interpretation fmt cfg k = .ok t) (h' : interpretation fmt cfg k' = .ok t) :
    ∃ o o' bts bts' ps ps' pv pv' cts cts' ss ss', k = .comm o bts ps pv cts ∧ k' = .comm o' bts' ps' pv' cts' ∧
      describeAll cfg cts = .ok ss ∧ describeAll cfg cts' = .ok ss' ∧ List.Forall₂ (Sentence.Rel (fun a b => fmt a = fmt b)) ss ss' := by
  have key : ∀ {k : PKE α}, interpretation fmt cfg k = .ok t → ∃ o bts ps pv cts ss, k = .comm o bts ps pv cts ∧ describeAll cfg cts = .ok ss ∧
      t = "The fit kernel consists of " ++ toString cts.length ++ " components:" ++ String.join (ss.map (fun s => "\n\t" ++ s.text fmt)) := by
    intro k h
    cases k with
    | comm o bts ps pv cts =>
      simp only [interpretation] at h
      split at h
      · cases e : describeAll cfg cts with
        | error _ => rw [e] at h; simp [bind, Except.bind] at h
        | ok ss =>
          rw [e] at h
          simp only [bind, Except.bind, pure, Except.pure, Except.ok.injEq] at h
          exact ⟨o, bts, ps, pv, cts, ss, rfl, e, h.symm⟩
      · cases h
    | leaf _ _ => simp [interpretation] at h
    | change _ _ _ _ => simp [interpretation] at h
  obtain ⟨o, bts, ps, pv, cts, ss, e1, e2, e3⟩ := key h
  obtain ⟨o', bts', ps', pv', cts', ss', e1', e2', e3'⟩ := key h'
  refine ⟨o, o', bts, bts', ps, ps', pv, pv', cts, cts', ss, ss', e1, e1', e2, e2', sentences_cut hf _ _ ?_⟩
  rw [e3] at e3'
  have h0 := congrArg String.toList e3'
  simp only [String.toList_append, List.append_assoc] at h0
  have n1 : ∀ {r : List Char}, NE (" components:".toList ++ r) := ne_lit (by decide)
  exact List.append_cancel_left (nat_cut n1 n1 (List.append_cancel_left h0)).2

/-- Weaker relations between the numbers. -/
private theorem rel_mono {R R' : α → α → Prop} (h : ∀ a b, R a b → R' a b) {s t : Sentence α} (hs : Sentence.Rel R s t) : Sentence.Rel R' s t := by
  have ho : ∀ {a b : Option α}, Option.Rel R a b → Option.Rel R' a b := by
    intro a b h'; cases h' with
    | none => exact .none
    | some h' => exact .some (h _ _ h')
  have hl : ∀ {a b : Option (List α)}, Option.Rel (List.Forall₂ R) a b → Option.Rel (List.Forall₂ R') a b := by
    intro a b h'; cases h' with
    | none => exact .none
    | some h' => exact .some (h'.imp h)
  obtain ⟨f, ms, pr, vr⟩ := s
  obtain ⟨f', ms', pr', vr'⟩ := t
  obtain ⟨h1, h2, h3, h4⟩ := hs
  dsimp only at h1 h2 h3 h4
  refine ⟨?_, h2.imp fun a b hm => ?_, h3, h _ _ h4⟩
  · cases h1 with
    | noise => exact .noise
    | constant => exact .constant
    | smooth a => exact .smooth (h _ _ a)
    | periodic a b => exact .periodic (h _ _ a) (h _ _ b)
    | periodics a b c => exact .periodics (h _ _ a) (h _ _ b) (c.imp fun _ _ x => ⟨h _ _ x.1, h _ _ x.2⟩)
    | linear a => exact .linear (ho a)
    | polynomial a => exact .polynomial (hl a)
  · cases hm with
    | smooth a => exact .smooth (h _ _ a)
    | linear a => exact .linear (ho a)
    | polynomial a => exact .polynomial (hl a)
    | intervals a =>
      refine .intervals (a.imp fun x y hxy => ?_)
      cases hxy with
      | «until» a b => exact .until (h _ _ a) (ho b)
      | «from» a b => exact .from (h _ _ a) (ho b)
      | between a b c =>
        refine .between (h _ _ a) (h _ _ b) ?_
        cases c with
        | none => exact .none
        | same a => exact .same (h _ _ a)
        | two a b => exact .two (h _ _ a) (h _ _ b)

end

/-- C100: two fitted models with the same description, as printed, have equally many components, and the components' sentences (which tell them as
C47 says) are the same but for numbers at most a hundredth apart. -/
theorem C100_models (comb : ℚ → ℚ → ℚ) (cfg : Cfg) (k k' : PKE ℚ) (hk : asLeaf k = none) (hk' : asLeaf k' = none)
    (hf : Fitted (fun _ => True) k) (hf' : Fitted (fun _ => True) k') (ho : OwnTerms k) (ho' : OwnTerms k')
    (hq : EveryTerm (Sensible cfg) k) (hq' : EveryTerm (Sensible cfg) k') (hw : ∀ c ∈ comps k, Tellable c) (hw' : ∀ c ∈ comps k', Tellable c)
    (m m' : PKE ℚ) (hm : sops comb cfg k = .ok m) (hm' : sops comb cfg k' = .ok m')
    (h : interpretation fmt2 cfg m = interpretation fmt2 cfg m') :
    ∃ ss ss', List.Forall₂ (fun c s => Relates cfg c s) (comps k) ss ∧ List.Forall₂ (fun c s => Relates cfg c s) (comps k') ss' ∧
      List.Forall₂ (Sentence.Rel (fun a b => |a - b| ≤ 1 / 100)) ss ss' := by
  obtain ⟨m0, ss, e1, e2, e3, e4⟩ := C47_text comb fmt2 cfg k hk hf ho hq hw
  obtain ⟨m0', ss', e1', e2', e3', e4'⟩ := C47_text comb fmt2 cfg k' hk' hf' ho' hq' hw'
  rw [hm] at e1; cases e1
  rw [hm'] at e1'; cases e1'
  rw [e4, e4', Except.ok.injEq] at h
  refine ⟨ss, ss', e3, e3', ?_⟩
  have h0 := congrArg String.toList h
  simp only [String.toList_append, List.append_assoc] at h0
  have n1 : ∀ {r : List Char}, NE (" components:".toList ++ r) := ne_lit (by decide)
  exact (sentences_cut C99_plain _ _ (List.append_cancel_left (nat_cut n1 n1 (List.append_cancel_left h0)).2)).imp
    fun _ _ hs => rel_mono (fun a b => C99_alike a b) hs

/-- `CP(C, LIN)`, with a location. -/
def exampleShown (l : ℚ) : PKE ℚ :=
  .change .CP { location := some l } (.leaf .C { variance := some 2 }) (.leaf .LIN { variance := some 3, offset := some (1 / 2) })

-- the same description for change points at 1/3 and 333/1000; the other hypotheses are met
example : (∃ m m', sops (fun a _ => a) Cfg.default (exampleShown (1 / 3)) = .ok m ∧ sops (fun a _ => a) Cfg.default (exampleShown (333 / 1000)) = .ok m' ∧
      interpretation fmt2 Cfg.default m = interpretation fmt2 Cfg.default m') ∧
    ∀ l, asLeaf (exampleShown l) = none ∧ Fitted (fun _ => True) (exampleShown l) ∧ OwnTerms (exampleShown l) ∧ EveryTerm (Sensible Cfg.default) (exampleShown l) ∧
      ∀ c ∈ comps (exampleShown l), Tellable c := by
  refine ⟨⟨_, _, rfl, rfl, by decide +kernel⟩, fun l => ⟨rfl, ?_, ?_, ?_, ?_⟩⟩
  · simp [exampleShown, Fitted, Base.isSigmoid]
  · simp [exampleShown, OwnTerms]
  · simp [exampleShown, EveryTerm, Sensible, Keys, firstWeight, secondWeight, Cfg.default]
  · exact noWindow_tellable _ (by simp [exampleShown, Fitted, Base.isSigmoid]) (by simp [exampleShown, NoWindow])

-- three modifiers, several periods and roots, and two intervals; only the last places of numbers differ
example :
    let s : Sentence ℚ := ⟨.periodics (3, 1) [(2, 1), (1, 1 / 3)], [.smooth 2, .polynomial 2 (some [1, -1]), .intervals [.until 3 none, .between 4 5 (.same 1)]], true, 7⟩
    let t : Sentence ℚ := ⟨.periodics (3, 1) [(2, 1), (1, 333 / 1000)], [.smooth (2001 / 1000), .polynomial 2 (some [1, -1]),
      .intervals [.until 3 none, .between 4 5 (.same 1)]], true, 7⟩
    s.text fmt2 = t.text fmt2 ∧ s ≠ t ∧ s.text fmt2 = "A periodic function with main period 3.00 and lengthscale 1.00, then repeatedly modulated by 2 more periodic functions (by decreasing period) of period 2.00 and lengthscale 1.00, and period 1.00 and lengthscale 0.33, whose shape changes smoothly with lengthscale 2.00, with polynomially varying amplitude of order 2 with roots 1.00, and -1.00; this component applies until 3.00, and between 4.00 and 5.00 (with same change slopes 1.00), and it has overall variance 7.00" := by
  decide +kernel

end GPyABCD
