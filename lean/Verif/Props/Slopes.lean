import Verif.Lemmas.Slopes
import Verif.Props.Interp

/-!
# Property C76: ends and change slopes in descriptions
-/

namespace GPyABCD
open Sops Interp

section
variable {α : Type} [LinearOrder α] [Add α]

/-- C76: the reduction of sigmoids to intervals makes no number up: every start of every interval, with its slope, is that of a
sigmoid which switches on there, and every end that of a sigmoid which switches off there. -/
theorem C76_reduction (gs : List (Interval.Group α)) (r : List (Option (Interval.Ivl α))) (h : Interval.sigmoidIntervals gs = .ok r) :
    ∀ i, some i ∈ r →
      (∀ s, i.start = some s → ∃ a, i.startSlope = some a ∧ ∃ g ∈ gs, g.startsAt s a) ∧
      (∀ e, i.stop = some e → ∃ a, i.stopSlope = some a ∧ ∃ g ∈ gs, g.stopsAt e a) := by
  intro i hi
  obtain ⟨h1, h2⟩ := Interval.sigmoidIntervals_ends h _ hi i rfl
  constructor
  · intro s hs
    rcases h1 with ⟨s', a, e1, e2, hg⟩ | ⟨e1, _⟩
    · rw [hs] at e1; cases e1; exact ⟨a, e2, hg⟩
    · rw [hs] at e1; cases e1
  · intro s hs
    rcases h2 with ⟨s', a, e1, e2, hg⟩ | ⟨e1, _⟩
    · rw [hs] at e1; cases e1; exact ⟨a, e2, hg⟩
    · rw [hs] at e1; cases e1

/-- Four kinds of sigmoids; the interval from 3 to 5 has the slope of the upward sigmoid and that of the window left out. -/
example : Interval.sigmoidIntervals [.S [⟨3, 7, 1⟩, ⟨1, 8, 1⟩], .Sr [⟨20, 4, 1⟩], .SIr [⟨5, 6, 4⟩], .SI [⟨2, 9, 10⟩]] =
    (.ok [some ⟨some 3, some 5, some 7, some 6⟩, some ⟨some 9, some 12, some 6, some 9⟩] : Except Interval.PyErr (List (Option (Interval.Ivl Int)))) := by
  decide

variable [One α]

/-- C76: every end told in a description is one of a sigmoid among the factors of the component. -/
theorem C76_ends (cfg : Cfg) (ps : PDict α) (pv : Option α) (s : Sentence α) (h : describe cfg ps pv = .ok s) :
    ∀ t ∈ s.ivls, EndsOf (factors ps) t := by
  intro t ht
  have := describe_tells h t ht
  cases t with
  | «until» e a =>
    obtain ⟨x, ⟨f, hf, h1, _⟩, _⟩ := this
    exact ⟨f, hf, h1⟩
  | «from» e a =>
    obtain ⟨x, ⟨f, hf, h1, _⟩, _⟩ := this
    exact ⟨f, hf, h1⟩
  | between u e a =>
    obtain ⟨x, y, ⟨f, hf, h1, _⟩, ⟨g, hg, h2, _⟩, _⟩ := this
    exact ⟨⟨f, hf, h1⟩, g, hg, h2⟩

/-- C76: when slopes are fitted, every slope told is the fitted slope of a sigmoid with the end it is told with. -/
theorem C76_slopes_partial (cfg : Cfg) (hc : cfg.fixSlope = false) (ps : PDict α) (pv : Option α) (s : Sentence α) (h : describe cfg ps pv = .ok s) :
    ∀ t ∈ s.ivls, SlopesOf (fun p => p.slope) (factors ps) t ∧
      ((∃ e a, t = .until e a) ∨ (∃ e a, t = .from e a) → AllTold t) := by
  intro t ht
  have := describe_tells h t ht
  cases t with
  | «until» e a =>
    obtain ⟨x, ⟨f, hf, h1, h2⟩, rfl⟩ := this
    simp only [hc, Bool.false_eq_true, if_false, slopeTaken] at h2 ⊢
    exact ⟨fun y hy => by cases hy; exact ⟨f, hf, h1, h2⟩, fun _ => rfl⟩
  | «from» e a =>
    obtain ⟨x, ⟨f, hf, h1, h2⟩, rfl⟩ := this
    simp only [hc, Bool.false_eq_true, if_false, slopeTaken] at h2 ⊢
    exact ⟨fun y hy => by cases hy; exact ⟨f, hf, h1, h2⟩, fun _ => rfl⟩
  | between u e a =>
    obtain ⟨x, y, _, _, rfl⟩ := this
    simp only [hc, Bool.false_eq_true, if_false]
    exact ⟨trivial, by simp⟩

/-- Where C76 fails: when slopes are fitted, the two slopes of a bounded interval are never told. -/
theorem C76_windows_untold (cfg : Cfg) (hc : cfg.fixSlope = false) (ps : PDict α) (pv : Option α) (s : Sentence α) (h : describe cfg ps pv = .ok s)
    (u e : α) (a : Slopes α) (ht : .between u e a ∈ s.ivls) : ¬ AllTold (.between u e a) := by
  obtain ⟨x, y, _, _, rfl⟩ := describe_tells h _ ht
  simp [hc, AllTold]

/-- Where C76 fails: when slopes are fixed, those of a bounded interval are told, always as 1. -/
theorem C76_windows_one (cfg : Cfg) (hc : cfg.fixSlope = true) (ps : PDict α) (pv : Option α) (s : Sentence α) (h : describe cfg ps pv = .ok s) :
    ∀ t ∈ s.ivls, (∃ e, t = .until e none) ∨ (∃ u, t = .from u none) ∨ ∃ u e, t = .between u e (.same 1) := by
  intro t ht
  have := describe_tells h t ht
  cases t with
  | «until» e a => obtain ⟨x, _, rfl⟩ := this; simp [hc]
  | «from» e a => obtain ⟨x, _, rfl⟩ := this; simp [hc]
  | between u e a =>
    obtain ⟨x, y, ⟨f, _, _, h1⟩, ⟨g, _, _, h2⟩, rfl⟩ := this
    simp only [slopeTaken, hc, if_true, Option.some.injEq] at h1 h2
    subst h1 h2
    simp [hc]

end

/-! ## For fitted expressions -/

section
variable {α : Type} [LinearOrder α] [Add α] [One α] [Mul α]

/-- C76 for a fitted expression: every end told of a component is an end of a sigmoid of that component; when slopes are fitted, so is every slope told. -/
theorem C76_components (comb : α → α → α) (cfg : Cfg) (k : PKE α) (cts : List (PKE α)) (hk : asLeaf k = none)
    (hf : Fitted (fun _ => True) k) (h : sops comb cfg k = .ok (.comm .sum [] [] none cts)) :
    List.Forall₂ (fun c t => ∃ bts ps pv, t = PKE.comm .prod bts ps pv [] ∧ ∀ s, describe cfg ps pv = .ok s →
      ∀ t ∈ s.ivls, EndsOf c.fs t ∧ (cfg.fixSlope = false → SlopesOf (fun p => p.slope) c.fs t)) (comps k) cts := by
  obtain ⟨cts', e, h2⟩ := form_holds (comb := comb) cfg k hk hf h
  cases e
  refine h2.imp ?_
  rintro c t ⟨n, rfl, hn⟩
  refine ⟨n.bts, n.ps, n.pv, rfl, fun s hs t ht => ?_⟩
  have sub : ∀ f ∈ factors n.ps, f.1.isSigmoid = true → f ∈ c.fs := by
    rintro ⟨b, p⟩ hm hb
    simp only [factors, List.mem_flatMap, List.mem_map] at hm
    obtain ⟨e, he, q, hq, e1⟩ := hm
    cases e1
    have hg := PDict.get_of_mem hn.inv.dok he
    rw [← hg] at hq
    have := (hn.sig e.1 hb).mem_iff.1 hq
    obtain ⟨⟨b', p'⟩, hf', rfl⟩ := List.mem_map.1 this
    obtain ⟨h1, h2⟩ := List.mem_filter.1 hf'
    simp only [decide_eq_true_eq] at h2
    subst h2
    exact h1
  have on : ∀ (b : Base) (p : PD α) s, SwitchesOn b p s → b.isSigmoid = true := by
    intro b p s h; cases b <;> first | rfl | exact h.elim
  have off : ∀ (b : Base) (p : PD α) s, SwitchesOff b p s → b.isSigmoid = true := by
    intro b p s h; cases b <;> first | rfl | exact h.elim
  constructor
  · have := C76_ends cfg _ _ s hs t ht
    cases t with
    | «until» e a =>
      obtain ⟨f, hf, h⟩ := this
      exact ⟨f, sub f hf (off _ _ _ h), h⟩
    | «from» e a =>
      obtain ⟨f, hf, h⟩ := this
      exact ⟨f, sub f hf (on _ _ _ h), h⟩
    | between u e a =>
      obtain ⟨⟨f, hf, h⟩, g, hg, h'⟩ := this
      exact ⟨⟨f, sub f hf (on _ _ _ h), h⟩, g, sub g hg (off _ _ _ h'), h'⟩
  · intro hc'
    obtain ⟨this, _⟩ := C76_slopes_partial cfg hc' _ _ s hs t ht
    cases t with
    | «until» e a =>
      intro x hx
      obtain ⟨f, hf, h, h'⟩ := this x hx
      exact ⟨f, sub f hf (off _ _ _ h), h, h'⟩
    | «from» e a =>
      intro x hx
      obtain ⟨f, hf, h, h'⟩ := this x hx
      exact ⟨f, sub f hf (on _ _ _ h), h, h'⟩
    | between u e a =>
      cases a with
      | none => trivial
      | same x =>
        obtain ⟨⟨f, hf, h, h1⟩, g, hg, h', h2⟩ := this
        exact ⟨⟨f, sub f hf (on _ _ _ h), h, h1⟩, g, sub g hg (off _ _ _ h'), h', h2⟩
      | two x y =>
        obtain ⟨⟨f, hf, h, h1⟩, g, hg, h', h2⟩ := this
        exact ⟨⟨f, sub f hf (on _ _ _ h), h, h1⟩, g, sub g hg (off _ _ _ h'), h', h2⟩

end

/-! ## Examples -/

/-- `CP(C, CW(PER, LIN))` with fitted slopes 9 and 6. -/
def exampleSlopes : PKE Int :=
  .change .CP { location := some 3, slope := some 9 } (.leaf .C { variance := some 4 })
    (.change .CW { location := some 5, width := some 4, slope := some 6 } (.leaf .PER { variance := some 2, period := some 8, lengthscale := some 1 })
      (.leaf .LIN { variance := some 3, offset := some 1 }))

/-- Fitted slopes. -/
def freeSlopes : Cfg := { includeSE := false, linOffset := true, fixSlope := false }

/-- The sentences of `exampleSlopes`. -/
private def sentencesOf (cfg : Cfg) : Except Interval.PyErr (List (List (IvlText Int))) :=
  match sops (fun a _ => a) cfg exampleSlopes with
  | .ok (.comm _ _ _ _ cts) => cts.mapM (fun t =>
    match t with
    | .comm _ _ ps pv _ => (fun s => s.ivls) <$> describe cfg ps pv
    | _ => .error .value)
  | _ => .error .value

/-- With fitted slopes: the slopes of the half-open intervals are told, those of the bounded ones are not. -/
example : Fitted (fun _ => True) exampleSlopes ∧ sentencesOf freeSlopes = .ok [[.until 3 (some 9)], [.between 3 5 .none, .from 9 (some 6)], [.between 5 9 .none]] :=
  ⟨by simp [exampleSlopes, Fitted, Base.isSigmoid], by decide⟩

/-- With fixed slopes: those of the bounded ones are told, as 1. -/
example : sentencesOf Cfg.default = .ok [[.until 3 none], [.between 3 5 (.same 1), .from 9 none], [.between 5 9 (.same 1)]] := by decide

/-- The slope the change kernels have when it is fixed, `changeOperators.py:15, 88, 107`, `changeWindowShiftedSides.py:138` and `baseKernels.py:56-57, 65-66`. -/
def fixedSlope : ℚ := 1 / 2

/-- Where C76 fails: the slope told of the window of a change window kernel is not the one it has. -/
theorem C76_fixed_slope_wrong : ∃ (ps : PDict ℚ) (pv : Option ℚ) (s : Sentence ℚ) (t : IvlText ℚ), describe Cfg.default ps pv = .ok s ∧ t ∈ s.ivls ∧
    ¬ SlopesOf (fun _ => some fixedSlope) (factors ps) t := by
  refine ⟨[(.LIN, [{ variance := some 1, offset := some 1 }]), (.SI, [{ location := some 0, width := some 2 }])], some 1,
    ⟨.linear (some 1), [.intervals [.between 0 2 (.same 1)]], true, 1⟩, .between 0 2 (.same 1), by decide +kernel, by simp [Sentence.ivls], ?_⟩
  rintro ⟨⟨f, _, _, h⟩, _⟩
  simp only [Option.some.injEq, fixedSlope] at h
  norm_num at h

end GPyABCD
