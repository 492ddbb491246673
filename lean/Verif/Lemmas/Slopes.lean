import Verif.Spec.Slopes
import Verif.Lemmas.IntervalEnds
import Verif.Lemmas.InterpMain

/-! Ends and slopes in sentences. -/

namespace GPyABCD
namespace Interp
open Sops Interval

variable {α : Type} [LinearOrder α] [Add α] [One α]
set_option linter.unusedSectionVars false

/-- The slope the interpretation takes a sigmoid to have, `kernelInterpretation.py:97`. -/
def slopeTaken (cfg : Cfg) (p : PD α) : Option α := if cfg.fixSlope then some 1 else p.slope

omit [LinearOrder α] [Add α] in
theorem readAll_mem {β : Type} {f : PD α → Except PyErr β} {ps : List (PD α)} {l : List β} (h : readAll f ps = .ok l) :
    ∀ x ∈ l, ∃ p ∈ ps, f p = .ok x := by
  induction ps generalizing l with
  | nil => cases h; simp
  | cons p ps ih =>
    simp only [readAll, bind_ok] at h
    obtain ⟨x, hx, xs, hxs, h⟩ := h
    cases h
    intro y hy
    rcases List.mem_cons.1 hy with rfl | hy
    · exact ⟨p, by simp, hx⟩
    · obtain ⟨q, hq, e⟩ := ih hxs y hy
      exact ⟨q, by simp [hq], e⟩

omit [LinearOrder α] [Add α] in
theorem readSig_gives {cfg : Cfg} {w : Bool} {p : PD α} {q : SigP α} (h : readSig cfg w p = .ok q) :
    p.location = some q.loc ∧ slopeTaken cfg p = some q.slope ∧ (w = true → p.width = some q.width) := by
  unfold readSig at h
  cases hc : cfg.fixSlope <;> cases w <;>
    simp only [hc, bind_ok, get_ok, if_true, Bool.false_eq_true, if_false, Except.ok.injEq, pure, Except.pure] at h
  · obtain ⟨l, hl, s, hs, x, _, rfl⟩ := h
    exact ⟨hl, by simp [slopeTaken, hc, hs], by simp⟩
  · obtain ⟨l, hl, s, hs, x, hx, rfl⟩ := h
    exact ⟨hl, by simp [slopeTaken, hc, hs], fun _ => hx⟩
  · obtain ⟨l, hl, s, hs, x, _, rfl⟩ := h
    exact ⟨hl, by simp [slopeTaken, hc, hs], by simp⟩
  · obtain ⟨l, hl, s, hs, x, hx, rfl⟩ := h
    exact ⟨hl, by simp [slopeTaken, hc, hs], fun _ => hx⟩

/-- Every switch of the groups is one of the factors. -/
def SwitchOn (cfg : Cfg) (fs : List (Base × PD α)) (s a : α) : Prop := ∃ f ∈ fs, SwitchesOn f.1 f.2 s ∧ slopeTaken cfg f.2 = some a

/-- The same for switching off. -/
def SwitchOff (cfg : Cfg) (fs : List (Base × PD α)) (s a : α) : Prop := ∃ f ∈ fs, SwitchesOff f.1 f.2 s ∧ slopeTaken cfg f.2 = some a

theorem groups_switch {cfg : Cfg} {ps : PDict α} {gs : List (Interval.Group α)} (h : groups cfg ps = .ok gs) :
    ∀ g ∈ gs, (∀ s a, g.startsAt s a → SwitchOn cfg (factors ps) s a) ∧ ∀ s a, g.stopsAt s a → SwitchOff cfg (factors ps) s a := by
  induction ps generalizing gs with
  | nil => cases h; simp
  | cons e ps ih =>
    obtain ⟨b, l⟩ := e
    have up : ∀ g : Interval.Group α, ((∀ s a, g.startsAt s a → SwitchOn cfg (factors ps) s a) ∧ ∀ s a, g.stopsAt s a → SwitchOff cfg (factors ps) s a) →
        (∀ s a, g.startsAt s a → SwitchOn cfg (factors ((b, l) :: ps)) s a) ∧ ∀ s a, g.stopsAt s a → SwitchOff cfg (factors ((b, l) :: ps)) s a := by
      intro g hg
      constructor
      · intro s a hs
        obtain ⟨f, hf, r⟩ := hg.1 s a hs
        exact ⟨f, by simp only [factors, List.flatMap_cons, List.mem_append]; exact Or.inr hf, r⟩
      · intro s a hs
        obtain ⟨f, hf, r⟩ := hg.2 s a hs
        exact ⟨f, by simp only [factors, List.flatMap_cons, List.mem_append]; exact Or.inr hf, r⟩
    have here : ∀ p ∈ l, (b, p) ∈ factors ((b, l) :: ps) := by
      intro p hp
      simp only [factors, List.flatMap_cons, List.mem_append, List.mem_map]
      exact Or.inl ⟨p, hp, rfl⟩
    cases b with
    | S =>
      simp only [groups, bind_ok] at h
      obtain ⟨x, hx, xs, hxs, h⟩ := h
      cases h
      intro g hg
      rcases List.mem_cons.1 hg with rfl | hg
      · refine ⟨?_, fun s a h => h.elim⟩
        rintro s a ⟨q, hq, rfl, rfl⟩
        obtain ⟨p, hp, e⟩ := readAll_mem hx q hq
        exact ⟨_, here p hp, (readSig_gives e).1, (readSig_gives e).2.1⟩
      · exact up g (ih hxs g hg)
    | Sr =>
      simp only [groups, bind_ok] at h
      obtain ⟨x, hx, xs, hxs, h⟩ := h
      cases h
      intro g hg
      rcases List.mem_cons.1 hg with rfl | hg
      · refine ⟨fun s a h => h.elim, ?_⟩
        rintro s a ⟨q, hq, rfl, rfl⟩
        obtain ⟨p, hp, e⟩ := readAll_mem hx q hq
        exact ⟨_, here p hp, (readSig_gives e).1, (readSig_gives e).2.1⟩
      · exact up g (ih hxs g hg)
    | SI =>
      simp only [groups, bind_ok] at h
      obtain ⟨x, hx, xs, hxs, h⟩ := h
      cases h
      intro g hg
      rcases List.mem_cons.1 hg with rfl | hg
      · constructor
        · rintro s a ⟨q, hq, rfl, rfl⟩
          obtain ⟨p, hp, e⟩ := readAll_mem hx q hq
          exact ⟨_, here p hp, (readSig_gives e).1, (readSig_gives e).2.1⟩
        · rintro s a ⟨q, hq, rfl, rfl⟩
          obtain ⟨p, hp, e⟩ := readAll_mem hx q hq
          exact ⟨_, here p hp, ⟨_, _, (readSig_gives e).1, (readSig_gives e).2.2 rfl, rfl⟩, (readSig_gives e).2.1⟩
      · exact up g (ih hxs g hg)
    | SIr =>
      simp only [groups, bind_ok] at h
      obtain ⟨x, hx, xs, hxs, h⟩ := h
      cases h
      intro g hg
      rcases List.mem_cons.1 hg with rfl | hg
      · constructor
        · rintro s a ⟨q, hq, rfl, rfl⟩
          obtain ⟨p, hp, e⟩ := readAll_mem hx q hq
          exact ⟨_, here p hp, ⟨_, _, (readSig_gives e).1, (readSig_gives e).2.2 rfl, rfl⟩, (readSig_gives e).2.1⟩
        · rintro s a ⟨q, hq, rfl, rfl⟩
          obtain ⟨p, hp, e⟩ := readAll_mem hx q hq
          exact ⟨_, here p hp, (readSig_gives e).1, (readSig_gives e).2.1⟩
      · exact up g (ih hxs g hg)
    | _ => exact fun g hg => up g (ih h g hg)

/-- What an interval of a sentence tells. -/
def IvlTells (cfg : Cfg) (P Q : α → α → Prop) : IvlText α → Prop
  | .until e a => ∃ x, Q e x ∧ a = if cfg.fixSlope then none else some x
  | .from s a => ∃ x, P s x ∧ a = if cfg.fixSlope then none else some x
  | .between s e a => ∃ x y, P s x ∧ Q e y ∧ a = if cfg.fixSlope then (if x = y then .same x else .two x y) else .none

omit [Add α] [One α] in
theorem ivlText_tells {cfg : Cfg} {P Q : α → α → Prop} {v : Option (Ivl α)} {t : IvlText α} (hv : EndsO P Q v) (h : ivlText cfg v = .ok t) :
    IvlTells cfg P Q t := by
  cases v with
  | none => cases h
  | some i =>
    obtain ⟨hs, he⟩ := hv i rfl
    obtain ⟨s, e, ss, es⟩ := i
    rcases hs with ⟨s', x, e1, e2, hP⟩ | ⟨e1, e2⟩ <;> cases e1 <;> cases e2 <;> rcases he with ⟨e', y, e1, e2, hQ⟩ | ⟨e1, e2⟩ <;> cases e1 <;> cases e2
    · simp only [ivlText, Option.isNone_some, Bool.false_eq_true, if_false, Interval.get, bind, Except.bind, pure, Except.pure] at h
      split at h
      · rename_i c
        split at h
        · rename_i d; cases h; exact ⟨_, _, hP, hQ, by simp [c, d]⟩
        · rename_i d; cases h; exact ⟨_, _, hP, hQ, by simp [c, d]⟩
      · rename_i c; cases h; exact ⟨_, _, hP, hQ, by simp [c]⟩
    · simp only [ivlText, Option.isNone_some, Option.isNone_none, Bool.false_eq_true, if_false, if_true, Interval.get, bind, Except.bind, pure, Except.pure] at h
      split at h
      · rename_i c; cases h; exact ⟨_, hP, by simp [c]⟩
      · rename_i c; cases h; exact ⟨_, hP, by simp [c]⟩
    · simp only [ivlText, Option.isNone_none, if_true, Interval.get, bind, Except.bind, pure, Except.pure] at h
      split at h
      · rename_i c; cases h; exact ⟨_, hQ, by simp [c]⟩
      · rename_i c; cases h; exact ⟨_, hQ, by simp [c]⟩
    · simp [ivlText, Interval.get, bind, Except.bind] at h

omit [Add α] [One α] in
theorem ivlTexts_tells {cfg : Cfg} {P Q : α → α → Prop} {l : List (Option (Ivl α))} {ts : List (IvlText α)} (hl : EndsL P Q l) (h : ivlTexts cfg l = .ok ts) :
    ∀ t ∈ ts, IvlTells cfg P Q t := by
  induction l generalizing ts with
  | nil => cases h; simp
  | cons v l ih =>
    simp only [ivlTexts, bind_ok] at h
    obtain ⟨x, hx, xs, hxs, h⟩ := h
    cases h
    intro t ht
    rcases List.mem_cons.1 ht with rfl | ht
    · exact ivlText_tells (hl v (by simp)) hx
    · exact ih (fun w hw => hl w (by simp [hw])) hxs t ht

omit [Add α] [One α] in
theorem postBase_plain {cfg : Cfg} {e : Base × List (PD α)} {o : Option (Modifier α)} (h : postBase cfg e = .ok o) : ∀ l, .intervals l ∉ o.toList := by
  intro l hl
  obtain ⟨b, ps⟩ := e
  have lin : ∀ (q : Modifier α), readLin cfg Modifier.linear Modifier.polynomial ps = .ok q → q ≠ .intervals l := by
    intro q hq
    unfold readLin at hq
    split at hq
    · cases hq
    · split at hq
      · obtain ⟨_, _, rfl⟩ := map_ok.1 hq; simp
      · cases hq; simp
    · split at hq
      · obtain ⟨_, _, rfl⟩ := map_ok.1 hq; simp
      · cases hq; simp
  cases b with
  | SE =>
    cases ps with
    | nil => cases h
    | cons p ps => obtain ⟨_, _, rfl⟩ := map_ok.1 h; simp at hl
  | LIN =>
    obtain ⟨q, hq, rfl⟩ := map_ok.1 h
    simp only [Option.toList_some, List.mem_singleton] at hl
    exact lin q hq hl.symm
  | _ => simp [postBase, Base.isSigmoid] at h <;> subst h <;> simp at hl

omit [Add α] [One α] in
theorem postAll_plain {cfg : Cfg} {es : List (Base × List (PD α))} {ms : List (Modifier α)} (h : postAll cfg es = .ok ms) : ∀ l, .intervals l ∉ ms := by
  induction es generalizing ms with
  | nil => cases h; simp
  | cons e es ih =>
    simp only [postAll, bind_ok] at h
    obtain ⟨x, hx, xs, hxs, h⟩ := h
    cases h
    intro l hl
    rcases List.mem_append.1 hl with hl | hl
    · exact postBase_plain hx l hl
    · exact ih hxs l hl

/-- Every interval of a sentence tells ends of sigmoids among the factors, with the slopes they are taken to have. -/
theorem describe_tells {cfg : Cfg} {ps : PDict α} {pv : Option α} {s : Sentence α} (h : describe cfg ps pv = .ok s) :
    ∀ t ∈ s.ivls, IvlTells cfg (SwitchOn cfg (factors ps)) (SwitchOff cfg (factors ps)) t := by
  unfold describe at h
  simp only [bind_ok] at h
  obtain ⟨iv, hiv, v, hv, h⟩ := h
  split at h
  · cases h
  · rename_i e es _
    simp only [bind_ok] at h
    obtain ⟨ms, hms, h⟩ := h
    have off : ∀ (m : Modifier α), m ∈ ms → ∀ t : IvlText α, t ∈ (match m with
        | .intervals l => l
        | _ => ([] : List (IvlText α))) → False := by
      intro m hm t ht
      cases m with
      | intervals l => exact absurd hm (postAll_plain hms l)
      | _ => simp at ht
    cases iv with
    | none =>
      simp only [bind_ok] at h
      obtain ⟨last, hlast, f, hf, h⟩ := h
      cases h
      cases hlast
      intro t ht
      simp only [Sentence.ivls, List.mem_flatMap, Option.toList_none, List.append_nil] at ht
      obtain ⟨m, hm, ht⟩ := ht
      exact (off m hm t ht).elim
    | some l =>
      simp only [bind_ok] at h
      obtain ⟨last, hlast, f, hf, h⟩ := h
      cases h
      intro t ht
      simp only [Sentence.ivls, List.mem_flatMap] at ht
      obtain ⟨m, hm, ht⟩ := ht
      rcases List.mem_append.1 hm with hm | hm
      · exact (off m hm t ht).elim
      · unfold toIntervals at hiv
        obtain ⟨gs, hgs, hiv⟩ := bind_ok.1 hiv
        have hl : sigmoidIntervals gs = .ok l := by
          split at hiv
          · cases hiv
          · obtain ⟨_, h1, h2⟩ := map_ok.1 hiv
            cases h2
            exact h1
        obtain ⟨as, ha, hl⟩ := bind_ok.1 hl
        have hg := groups_switch hgs
        have ends := simplifyAll_ends (reduceGroups_ends ha (fun g h => (hg g h).1) (fun g h => (hg g h).2)) hl
        simp only [postIvl] at hlast
        obtain ⟨ts, hts, hlast⟩ := bind_ok.1 hlast
        split at hlast
        · cases hlast; simp at hm
        · cases hlast
          simp only [Option.toList_some, List.mem_singleton] at hm
          subst hm
          exact ivlTexts_tells ends hts t ht

end Interp
end GPyABCD
