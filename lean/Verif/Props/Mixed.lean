import Verif.Lemmas.Mixed
import Verif.Props.Interp
import Mathlib.Algebra.Order.Field.Rat
import Mathlib.Algebra.Order.Field.Basic

/-!
# When mixed sigmoids reduce to intervals
-/

namespace GPyABCD
open Interval
variable {α : Type} [LinearOrder α] [DenselyOrdered α] [NoMinOrder α] [NoMaxOrder α] [Add α]

omit [DenselyOrdered α] [NoMinOrder α] [NoMaxOrder α] in
theorem reduceGroups_iff {gs : List (Interval.Group α)} (hw : ∀ g ∈ gs, g.widths) (h0 : ∀ g ∈ gs, g.nonempty) :
    (∃ xs, reduceGroups gs = .ok xs) ↔ ∀ g ∈ gs, g.fitted := by
  have one : ∀ g : Interval.Group α, g.widths → g.nonempty → ((∃ b, reduceGroup g = .ok b) ↔ g.fitted) := by
    intro g hw h0
    cases g with
    | S ps =>
      obtain ⟨p, _, h, _⟩ := C44_starts ps h0
      exact ⟨fun _ => trivial, fun _ => ⟨_, by rw [reduceGroup, h]; rfl⟩⟩
    | Sr ps =>
      obtain ⟨p, _, h, _⟩ := C44_ends ps h0
      exact ⟨fun _ => trivial, fun _ => ⟨_, by rw [reduceGroup, h]; rfl⟩⟩
    | SI ps =>
      obtain ⟨r, h, _⟩ := C44_windows ps h0
      exact ⟨fun _ => trivial, fun _ => ⟨_, by rw [reduceGroup, h]; rfl⟩⟩
    | SIr ps =>
      refine Iff.trans ?_ (C45_iff ps h0 hw).1
      simp only [reduceGroup, map_ok]
      exact ⟨fun ⟨_, r, h, _⟩ => ⟨r, h⟩, fun ⟨r, h⟩ => ⟨_, r, h, rfl⟩⟩
  induction gs with
  | nil => exact ⟨fun _ => by simp, fun _ => ⟨[], rfl⟩⟩
  | cons g gs ih =>
    have i1 := one g (hw g List.mem_cons_self) (h0 g List.mem_cons_self)
    have i2 := ih (fun g hg => hw g (List.mem_cons_of_mem _ hg)) (fun g hg => h0 g (List.mem_cons_of_mem _ hg))
    rw [List.forall_mem_cons]
    refine Iff.trans ?_ (and_congr i1 i2)
    simp only [reduceGroups, bind_ok]
    constructor
    · rintro ⟨_, b, hb, bs, hbs, _⟩
      exact ⟨⟨b, hb⟩, bs, hbs⟩
    · rintro ⟨⟨b, hb⟩, bs, hbs⟩
      exact ⟨_, b, hb, bs, hbs, rfl⟩

/-- C46: exactly when a mixture of sigmoids is reduced to intervals: the reversed windows are listed so that each fits those before it, and each
group meets the groups before it. Otherwise it raises, or a `None` is among the intervals. -/
theorem C46_iff (gs : List (Interval.Group α)) (hne : gs ≠ []) (hw : ∀ g ∈ gs, g.widths) (h0 : ∀ g ∈ gs, g.nonempty)
    (hrev : gs.Pairwise (fun q g => ¬ (q.reversed = true ∧ g.reversed = true))) :
    (∃ r, sigmoidIntervals gs = .ok r ∧ none ∉ r) ↔
      (∀ g ∈ gs, g.fitted) ∧ ∀ qs g rest, gs = qs ++ g :: rest → Meets qs g := by
  rw [← reduceGroups_iff hw h0]
  by_cases hf : ∃ xs, reduceGroups gs = .ok xs
  swap
  · refine iff_of_false ?_ (fun c => hf c.1)
    rintro ⟨r, h, _⟩
    obtain ⟨xs, hxs, _⟩ := bind_ok.1 h
    exact hf ⟨xs, hxs⟩
  obtain ⟨xs, hxs⟩ := hf
  rw [and_iff_right ⟨xs, hxs⟩]
  have hsig : ∀ r, sigmoidIntervals gs = .ok r ↔ simplifyAll xs = .ok r := fun r => by rw [sigmoidIntervals, hxs]; rfl
  simp only [hsig]
  have fin : ∀ (a : Arg α) bs c, simplifyGo (some a) bs = .ok c →
      (Bad c → ¬ ∃ r, simplifyAll (a :: bs) = .ok r ∧ none ∉ r) ∧ (∀ d n, c = some d → Rep d n → ∃ r, simplifyAll (a :: bs) = .ok r ∧ none ∉ r) := by
    intro a bs c hc
    simp only [simplifyAll, hc, bind, Except.bind]
    constructor
    · rintro hb ⟨r, h1, h2⟩
      cases hb with
      | none => cases h1
      | flat => cases h1; simp at h2
      | holes h => cases h1; exact h2 h
    · rintro d n rfl hd
      cases hd with
      | flat => exact ⟨_, rfl, by simp⟩
      | holes => exact ⟨_, rfl, by simp⟩
  cases gs with
  | nil => exact absurd rfl hne
  | cons g gs =>
    simp only [reduceGroups, bind_ok] at hxs
    obtain ⟨b, hb, bs, hbs, hx⟩ := hxs
    cases hx
    have hw' := fun g hg => hw g (List.mem_cons_of_mem _ hg)
    have h0' := fun g hg => h0 g (List.mem_cons_of_mem _ hg)
    rcases group_reduced (hw g List.mem_cons_self) (h0 g List.mem_cons_self) hb with ⟨m, hm, tm, m0, cm, hs⟩ | ⟨rfl, hwin, hno⟩
    · have hgood : Good [g] b m := ⟨hm, tm, by simpa using cm, fun hq => Or.inl (by rw [hs, hq g (by simp)]; rfl)⟩
      have hex : ∃ x, g.on x := by
        obtain ⟨i, hi⟩ := List.exists_mem_of_ne_nil _ m0
        obtain ⟨x, hx⟩ := tm.point i hi
        exact ⟨x, (cm x).1 ⟨i, hi, hx⟩⟩
      obtain ⟨x, hx⟩ := hex
      have hfirst : Meets [] g := ⟨fun _ => ⟨x, by simp⟩, fun _ _ => ⟨x, hx⟩, fun a b c d h => absurd (by simp) h.2.2.1⟩
      obtain ⟨g1, g2⟩ := good_go hbs hw' h0' (qs := [g]) hrev hgood
      by_cases hall : ∀ ps g' rest, gs = ps ++ g' :: rest → Meets ([g] ++ ps) g'
      · obtain ⟨c, n, e1, e2⟩ := g1 hall
        refine iff_of_true ((fin b bs _ e1).2 c n rfl e2) ?_
        rintro qs g' rest hq
        cases qs with
        | nil =>
          simp only [List.nil_append, List.cons.injEq] at hq
          rw [← hq.1]
          exact hfirst
        | cons y qs =>
          simp only [List.cons_append, List.cons.injEq] at hq
          rw [← hq.1]
          exact hall qs g' rest hq.2
      · refine iff_of_false ?_ (fun H => hall (fun ps g' rest hp => H (g :: ps) g' rest (by rw [hp]; rfl)))
        simp only [not_forall] at hall
        obtain ⟨ps, g', rest, hp, hn⟩ := hall
        cases hgo : simplifyGo (some b) bs with
        | ok c => exact (fin b bs c hgo).1 (g2 ⟨ps, g', rest, hp, hn⟩ c hgo)
        | error e =>
          rintro ⟨r, h, _⟩
          simp only [simplifyAll, hgo, bind, Except.bind] at h
          cases h
    · refine iff_of_false ?_ (fun H => hno ((H [] g gs rfl).2.1 hwin ?_))
      · cases hgo : simplifyGo (some (.flat .SI none)) bs with
        | ok c => exact (fin _ bs c hgo).1 (bad_go (reduceGroups_all hbs hw' h0') .flat hgo)
        | error e =>
          rintro ⟨r, h, _⟩
          simp only [simplifyAll, hgo, bind, Except.bind] at h
          cases h
      · cases g with
        | SI ps =>
          obtain ⟨x, _⟩ := exists_before ps (h0 (.SI ps) List.mem_cons_self)
          exact ⟨x, by simp⟩
        | _ => cases hwin

/-- A window that overlaps both sides of a reversed one is reduced, so the condition holds. -/
example : ∀ qs g rest, [Interval.Group.S [⟨0, 1, 0⟩], .SIr [⟨2, 1, 1⟩, ⟨6, 1, 2⟩], .SI [⟨1, 1, 8⟩, ⟨-1, 1, (8 : Rat)⟩] ] = qs ++ g :: rest → Meets qs g := by
  refine ((C46_iff (α := Rat) _ (by simp) ?_ ?_ ?_).1 ⟨[some ⟨some 1, some 2, some 1, some 1⟩, some ⟨some 3, some 6, some 1, some 1⟩], by decide +kernel, by simp⟩).2
  · simp [Interval.Group.widths]
  · simp [Interval.Group.nonempty]
  · simp [Interval.Group.reversed]

/-- One that overlaps one side only is not. -/
example : ¬ ∀ qs g rest, [Interval.Group.S [⟨0, 1, 0⟩], .SIr [⟨2, 1, 1⟩], .SI [⟨4, 1, (1 : Rat)⟩] ] = qs ++ g :: rest → Meets qs g := by
  intro h
  obtain ⟨r, h1, h2⟩ := (C46_iff (α := Rat) _ (by simp) (by simp [Interval.Group.widths]) (by simp [Interval.Group.nonempty]) (by simp [Interval.Group.reversed])).2
    ⟨fun g hg => by
      simp only [List.mem_cons, List.not_mem_nil, or_false] at hg
      obtain rfl | rfl | rfl := hg
      · trivial
      · exact (C45_iff (α := Rat) [⟨2, 1, 1⟩] (by simp) (by simp)).1.1 ⟨[⟨none, some 2, none, some 1⟩, ⟨some 3, none, some 1, none⟩], by decide +kernel⟩
      · trivial, h⟩
  have : sigmoidIntervals [Interval.Group.S [⟨0, 1, 0⟩], .SIr [⟨2, 1, 1⟩], .SI [⟨4, 1, (1 : Rat)⟩] ] =
      .ok [none, some ⟨some 4, some 5, some 1, some 1⟩] := by decide +kernel
  rw [this] at h1
  cases h1
  simp at h2

namespace Interp
open Sops

/-- The sigmoids of a component, by kind in the order of its parameters, can be reduced to intervals. -/
def Suited [One α] (cfg : Cfg) (ps : PDict α) : Prop :=
  ∃ gs, groups cfg ps = .ok gs ∧ (∀ g ∈ gs, g.fitted) ∧ ∀ qs g rest, gs = qs ++ g :: rest → Meets qs g

end Interp
open Sops Interp
variable [One α] [Mul α]

/-- C47: exactly which components have a sentence. -/
theorem C47_iff (comb : α → α → α) (cfg : Cfg) (k : PKE α) (cts : List (PKE α)) (hk : asLeaf k = none)
    (hf : Fitted (fun _ => True) k) (hq : EveryTerm (Sensible cfg) k) (h : sops comb cfg k = .ok (.comm .sum [] [] none cts)) :
    List.Forall₂ (fun c t => ∃ bts ps pv, t = PKE.comm .prod bts ps (some pv) [] ∧
      (Suited cfg ps → ∃ s, describe cfg ps (some pv) = .ok s ∧ s.var = pv ∧ Relates cfg c s) ∧
      (¬ Suited cfg ps → ∃ e, describe cfg ps (some pv) = .error e)) (comps k) cts := by
  refine (holds_of comb cfg (kept_sensible cfg) k cts hk hf hq h).imp ?_
  rintro c t ⟨n, rfl, hn, hd⟩
  have hkeys : DictQ (Keys cfg) n.ps := fun e he p hp => (hd e he p hp).1
  have hwid : DictQ WidthOK n.ps := fun e he p hp => (hd e he p hp).2
  obtain ⟨gs, h1, h2⟩ := describe_ok (cfg := cfg) hn.inv hn.plain hkeys hwid
  obtain ⟨v, hv⟩ := Option.isSome_iff_exists.1 hn.plain.1
  refine ⟨n.bts, n.ps, v, by rw [Prod.ke, hv], ?_⟩
  have fin : ∀ s, Tells cfg n.ps n.pv s → s.var = v ∧ Relates cfg c s := by
    intro s t
    have := t.var
    rw [hv] at this
    cases this
    exact ⟨rfl, located hn t, fun hc => describes hn hc t⟩
  obtain ⟨g1, g2⟩ := groups_kinds hn.inv.dok.ne h1
  obtain ⟨gs', e1, _, hwg, _⟩ := groups_ok hkeys hwid
  rw [h1] at e1
  cases e1
  have key : gs ≠ [] → ((∃ r, sigmoidIntervals gs = .ok r ∧ none ∉ r) ↔ Suited cfg n.ps) := by
    intro h0
    rw [C46_iff gs h0 hwg (fun g hg => by have := g2 g hg; cases g <;> exact this) ?_]
    · constructor
      · exact fun H => ⟨gs, h1, H⟩
      · rintro ⟨gs', e, H⟩
        rw [h1] at e
        cases e
        exact H
    · have : (gs.map gkind).Pairwise (fun a b => a ≠ b) := by
        rw [g1]
        exact hn.inv.dok.nodup.filter _
      rw [List.pairwise_map] at this
      refine this.imp ?_
      intro a b hab
      cases a <;> cases b <;> simp_all [gkind, Interval.Group.reversed]
  rw [← hv]
  rcases h2 with ⟨h0, s, h3, h4⟩ | ⟨h0, l, h3, h4, s, h5, h6⟩ | ⟨h0, l, h3, h4, h5⟩ | ⟨h0, e, h3, h4⟩
  · refine ⟨fun _ => ⟨s, h3, fin s h4⟩, fun hn => absurd ⟨gs, h1, ?_⟩ hn⟩
    subst h0
    exact ⟨by simp, by simp⟩
  · exact ⟨fun _ => ⟨s, h5, fin s h6⟩, fun hn => absurd ((key h0).1 ⟨l, h3, h4⟩) hn⟩
  · refine ⟨fun hs => ?_, fun _ => ⟨_, h5⟩⟩
    obtain ⟨r, r1, r2⟩ := (key h0).2 hs
    rw [h3] at r1; cases r1; exact absurd h4 r2
  · refine ⟨fun hs => ?_, fun _ => ⟨_, h4⟩⟩
    obtain ⟨r, r1, r2⟩ := (key h0).2 hs
    rw [h3] at r1; cases r1

/-- C47: exactly when there is a text; it has one sentence per component. -/
theorem C47_text_iff (comb : α → α → α) (fmt : α → String) (cfg : Cfg) (k : PKE α) (hk : asLeaf k = none)
    (hf : Fitted (fun _ => True) k) (ho : OwnTerms k) (hq : EveryTerm (Sensible cfg) k) :
    ∃ cts, sops comb cfg k = .ok (.comm .sum [] [] none cts) ∧
      ((∀ bts ps pv, .comm .prod bts ps pv [] ∈ cts → Suited cfg ps) →
        ∃ ss, ss.length = count k ∧ List.Forall₂ (fun c s => Relates cfg c s) (comps k) ss ∧
          interpretation fmt cfg (.comm .sum [] [] none cts) = .ok ("The fit kernel consists of " ++ toString (count k) ++ " components:" ++
            String.join (ss.map (fun s => "\n\t" ++ s.text fmt)))) ∧
      (¬ (∀ bts ps pv, .comm .prod bts ps pv [] ∈ cts → Suited cfg ps) →
        ∃ e, interpretation fmt cfg (.comm .sum [] [] none cts) = .error e) := by
  obtain ⟨k', h⟩ := C42_partial comb cfg k hk hf ho
  obtain ⟨cts, rfl, hx, hlen⟩ := C43_shape comb cfg k k' hk hf h
  have h1 := C47_iff comb cfg k cts hk hf hq h
  refine ⟨cts, h, ?_⟩
  have : ((∀ bts ps pv, .comm .prod bts ps pv [] ∈ cts → Suited cfg ps) → ∃ ss, describeAll cfg cts = .ok ss ∧ List.Forall₂ (fun c s => Relates cfg c s) (comps k) ss) ∧
      (¬ (∀ bts ps pv, .comm .prod bts ps pv [] ∈ cts → Suited cfg ps) → ∃ e, describeAll cfg cts = .error e) := by
    clear hlen h hx
    generalize comps k = cs at h1
    induction h1 with
    | nil => exact ⟨fun _ => ⟨[], rfl, .nil⟩, fun hn => absurd (by simp) hn⟩
    | @cons c t cs ts a _ ih =>
      obtain ⟨bts, ps, pv, rfl, a1, a2⟩ := a
      obtain ⟨i1, i2⟩ := ih
      constructor
      · intro hall
        obtain ⟨ss, e1, e2⟩ := i1 (fun b p v hm => hall b p v (by simp [hm]))
        obtain ⟨s, e3, _, e4⟩ := a1 (hall _ _ _ List.mem_cons_self)
        refine ⟨s :: ss, ?_, .cons e4 e2⟩
        simp only [describeAll, bind, Except.bind, e3, e1]; rfl
      · intro hn
        by_cases hs : Suited cfg ps
        · obtain ⟨s, e3, _, e4⟩ := a1 hs
          obtain ⟨e, he⟩ := i2 (fun hall => hn (fun b p v hm => by
            rcases List.mem_cons.1 hm with hm | hm
            · cases hm; exact hs
            · exact hall b p v hm))
          exact ⟨e, by simp only [describeAll, bind, Except.bind, e3, he]⟩
        · obtain ⟨e, he⟩ := a2 hs
          exact ⟨e, by simp only [describeAll, bind, Except.bind, he]⟩
  constructor
  · intro hall
    obtain ⟨ss, e1, e2⟩ := this.1 hall
    refine ⟨ss, ?_, e2, ?_⟩
    · rw [← e2.length_eq, length_comps k hf]
    · simp only [interpretation, bind, Except.bind, e1, hlen, Counter.total]
      rfl
  · intro hn
    obtain ⟨e, he⟩ := this.2 hn
    exact ⟨e, by simp only [interpretation, bind, Except.bind, he]; rfl⟩

/-- `CW(C, CW(C, LIN))`, from 0 to 4 and from 1 to 2. -/
def exampleWithin : PKE Rat :=
  .change .CW { location := some 0, width := some 4 } (.leaf .C { variance := some 2 })
    (.change .CW { location := some 1, width := some 1 } (.leaf .C { variance := some 3 }) (.leaf .LIN { variance := some 4, offset := some 1 }))

/-- Its components suit, so it has a text. -/
example : ∃ cts, sops (fun a _ => a) Cfg.default exampleWithin = .ok (.comm .sum [] [] none cts) ∧
    ∀ bts ps pv, .comm .prod bts ps pv [] ∈ cts → Suited Cfg.default ps := by
  obtain ⟨cts, h1, _, h2⟩ := C47_text_iff (fun a _ => a) (fun _ => "n") Cfg.default exampleWithin rfl (by simp [exampleWithin, Fitted, Base.isSigmoid])
    (by simp [exampleWithin, OwnTerms]) (by simp [exampleWithin, EveryTerm, Sensible, Keys, firstWeight, secondWeight, Cfg.default])
  refine ⟨cts, h1, ?_⟩
  by_contra hn
  obtain ⟨e, he⟩ := h2 hn
  have : ((sops (fun a _ => a) Cfg.default exampleWithin).toOption.bind (fun k => (interpretation (fun _ => "n") Cfg.default k).toOption)).isSome = true := by
    decide +kernel
  rw [h1] at this
  simp [Except.toOption, he] at this

end GPyABCD
