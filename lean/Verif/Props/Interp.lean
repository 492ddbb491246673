import Verif.Lemmas.InterpMain
import Verif.Props.Sops
import Verif.Props.Intervals

/-!
# Property C47: descriptions of components; C43 continued
-/

namespace GPyABCD
open Sops Interp

section
variable {α : Type} [LinearOrder α] [Add α] [One α] [Mul α]

theorem kept_sensible (cfg : Cfg) : Kept (α := α) (Sensible cfg) := by
  refine ⟨?_, ?_, ?_⟩
  · intro b p h
    cases b <;> exact h
  · intro x; exact ⟨by simp [Keys], by simp⟩
  · exact ⟨trivial, by simp⟩

private theorem kept_points : Kept (α := α) (fun b _ => b ≠ .SI ∧ b ≠ .SIr) :=
  ⟨fun _ _ h => h, fun _ => by simp, by simp⟩

theorem holds_of (comb : α → α → α) (cfg : Cfg) {Q : Base → PD α → Prop} (K : Kept Q) (k : PKE α) (cts : List (PKE α)) (hk : asLeaf k = none)
    (hf : Fitted (fun _ => True) k) (hq : EveryTerm Q k) (h : sops comb cfg k = .ok (.comm .sum [] [] none cts)) :
    List.Forall₂ (fun c t => ∃ n : Sops.Prod α, t = n.ke ∧ Holds c n ∧ DictQ Q n.ps) (comps k) cts := by
  obtain ⟨cts', e, h2⟩ := form_holds cfg k hk hf h
  cases e
  have hQ := sops_Q K cfg k _ hq h
  simp only [EveryTerm] at hQ
  replace hQ := everyTermL_iff.1 hQ.2
  clear h
  generalize comps k = cs at h2
  induction h2 with
  | nil => exact .nil
  | cons h1 _ ih =>
    refine .cons ?_ (ih fun k hk => hQ k (by simp [hk]))
    obtain ⟨n, rfl, hn⟩ := h1
    refine ⟨n, rfl, hn, ?_⟩
    have := hQ n.ke (by simp)
    simp only [Prod.ke, EveryTerm] at this
    exact this.1

/-- C47, partial. For every component of the sum-of-products form of a fitted expression: unless the reduction of its sigmoids to
intervals raises or contains `None` (C45, C46), there is a sentence. It says the variance and where the component applies, and unless noise has multiplied
`LIN` (C43) everything it should (`Describes`): each base kernel as often as it is left, with its numbers.
Otherwise the error is that of the reduction or the `TypeError` of `None`. -/
theorem C47_partial (comb : α → α → α) (cfg : Cfg) (k : PKE α) (cts : List (PKE α)) (hk : asLeaf k = none)
    (hf : Fitted (fun _ => True) k) (hq : EveryTerm (Sensible cfg) k) (h : sops comb cfg k = .ok (.comm .sum [] [] none cts)) :
    List.Forall₂ (fun c t => ∃ bts ps pv gs, t = PKE.comm .prod bts ps (some pv) [] ∧ groups cfg ps = .ok gs ∧
      ((∃ s, describe cfg ps (some pv) = .ok s ∧ s.var = pv ∧ Relates cfg c s) ∨
        (∃ l, Interval.sigmoidIntervals gs = .ok l ∧ none ∈ l ∧ describe cfg ps (some pv) = .error .type) ∨
        ∃ e, gs ≠ [] ∧ Interval.sigmoidIntervals gs = .error e ∧ describe cfg ps (some pv) = .error e)) (comps k) cts := by
  refine (holds_of comb cfg (kept_sensible cfg) k cts hk hf hq h).imp ?_
  rintro c t ⟨n, rfl, hn, hd⟩
  obtain ⟨gs, h1, h2⟩ := describe_ok (cfg := cfg) hn.inv hn.plain (fun e he p hp => (hd e he p hp).1) (fun e he p hp => (hd e he p hp).2)
  obtain ⟨v, hv⟩ := Option.isSome_iff_exists.1 hn.plain.1
  refine ⟨n.bts, n.ps, v, gs, by rw [Prod.ke, hv], h1, ?_⟩
  have fin : ∀ s, Tells cfg n.ps n.pv s → s.var = v ∧ Relates cfg c s := by
    intro s t
    have := t.var
    rw [hv] at this
    cases this
    exact ⟨rfl, located hn t, fun hc => describes hn hc t⟩
  rw [← hv]
  rcases h2 with ⟨_, s, h3, h4⟩ | ⟨_, l, _, _, s, h3, h4⟩ | ⟨_, l, h3, h4, h5⟩ | ⟨h0, e, h3, h4⟩
  · exact Or.inl ⟨s, h3, fin s h4⟩
  · exact Or.inl ⟨s, h3, fin s h4⟩
  · exact Or.inr (Or.inl ⟨l, h3, h4, h5⟩)
  · exact Or.inr (Or.inr ⟨e, h0, h3, h4⟩)

omit [One α] [Mul α] in
private theorem groups_plain (gs : List (Interval.Group α)) (hk : ∀ g ∈ gs, gkind g ≠ .SIr) (hne : ∀ g ∈ gs, gpars g ≠ []) : ∀ g ∈ gs, PlainGroup g := by
  intro g hg
  have h1 := hk g hg
  have h2 := hne g hg
  cases g <;> simp_all [PlainGroup, gkind, gpars]

/-- C47: every component whose sigmoids are change points, or that has one sigmoid only, or no reversed windows and a point where all are on (`Tellable`), has a
sentence. -/
theorem C47_tellable (comb : α → α → α) (cfg : Cfg) (k : PKE α) (cts : List (PKE α)) (hk : asLeaf k = none)
    (hf : Fitted (fun _ => True) k) (hq : EveryTerm (Sensible cfg) k) (h : sops comb cfg k = .ok (.comm .sum [] [] none cts)) :
    List.Forall₂ (fun c t => ∃ bts ps pv, t = PKE.comm .prod bts ps (some pv) [] ∧ (Tellable c → ∃ s, describe cfg ps (some pv) = .ok s ∧
      s.var = pv ∧ Relates cfg c s)) (comps k) cts := by
  refine (holds_of comb cfg (kept_sensible cfg) k cts hk hf hq h).imp ?_
  rintro c t ⟨n, rfl, hn, hd⟩
  have hkeys : DictQ (Keys cfg) n.ps := fun e he p hp => (hd e he p hp).1
  have hwid : DictQ WidthOK n.ps := fun e he p hp => (hd e he p hp).2
  obtain ⟨gs, h1, h2⟩ := describe_ok (cfg := cfg) hn.inv hn.plain hkeys hwid
  obtain ⟨v, hv⟩ := Option.isSome_iff_exists.1 hn.plain.1
  refine ⟨n.bts, n.ps, v, by rw [Prod.ke, hv], fun ht => ?_⟩
  have fin : ∀ s, Tells cfg n.ps n.pv s → s.var = v ∧ Relates cfg c s := by
    intro s t
    have := t.var
    rw [hv] at this
    cases this
    exact ⟨rfl, located hn t, fun hc => describes hn hc t⟩
  obtain ⟨g1, g2⟩ := groups_kinds hn.inv.dok.ne h1
  have kinds : ∀ g ∈ gs, ∃ p, (gkind g, p) ∈ c.fs := by
    intro g hg
    have : gkind g ∈ gs.map gkind := List.mem_map_of_mem hg
    rw [g1] at this
    obtain ⟨m1, m2⟩ := List.mem_filter.1 this
    obtain ⟨e, he, hek⟩ := List.mem_map.1 m1
    obtain ⟨p, hp⟩ := List.exists_mem_of_ne_nil _ (hn.inv.dok.ne e he)
    rw [← hek] at m2 ⊢
    exact ⟨p, (hn.entries e he m2 p hp).2⟩
  have ok : gs ≠ [] → ∃ l', Interval.sigmoidIntervals gs = .ok l' ∧ none ∉ l' := by
    intro h0
    rcases ht with ht | ⟨ht, hw⟩ | ⟨ht, x, hx⟩
    · refine points_reduce h0 ?_ ?_ g2
      · intro g hg
        obtain ⟨p, hp⟩ := kinds g hg
        have := ht _ hp
        cases g <;> simp_all [gkind]
      · rw [g1]
        exact hn.inv.dok.nodup.filter _
    · exact single_reduce hn h1 h0 ht hw
    · obtain ⟨gs', e1, _, _, hon⟩ := groups_ok hkeys hwid
      rw [h1] at e1
      cases e1
      obtain ⟨i, hi⟩ := C46_plain gs h0 (groups_plain gs (by
        intro g hg
        obtain ⟨p, hp⟩ := kinds g hg
        exact ht _ hp) g2) x ((hon x).2 (by
          intro e he p hp
          cases hs : e.1.isSigmoid with
          | false =>
            generalize e.1 = b at hs
            cases b <;> trivial
          | true => exact hx _ (hn.entries e he hs p hp).2))
      exact ⟨_, hi, by simp⟩
  rcases h2 with ⟨_, s, h3, h4⟩ | ⟨_, l, _, _, s, h3, h4⟩ | ⟨h0, l, h3, h4, h5⟩ | ⟨h0, e, h3, h4⟩
  · exact ⟨s, by rw [← hv]; exact h3, fin s h4⟩
  · exact ⟨s, by rw [← hv]; exact h3, fin s h4⟩
  · obtain ⟨l', e1, e2⟩ := ok h0
    rw [e1] at h3; cases h3; exact absurd h4 e2
  · obtain ⟨l', e1, e2⟩ := ok h0
    rw [e1] at h3; cases h3

omit [LinearOrder α] [Add α] [One α] [Mul α] in
mutual
/-- What holds of every term holds of every factor of a component. -/
theorem comps_Q {Q : Base → PD α → Prop} (hQ : ∀ b p, Q b p → Q b p.noVar) : (k : PKE α) → EveryTerm Q k → ∀ c ∈ comps k, ∀ f ∈ c.fs, Q f.1 f.2
  | .leaf b p, h => by
    simp only [EveryTerm] at h
    simp only [comps, List.mem_singleton, forall_eq, Comp.one]
    exact hQ _ _ h
  | .comm .sum bts ps pv cts, h => by
    simp only [EveryTerm] at h
    simp only [comps, List.mem_append, List.mem_reverse, List.mem_flatMap, List.mem_map]
    rintro c (⟨e, he, p, hp, rfl⟩ | hc)
    · simp only [Comp.one, List.mem_singleton, forall_eq]
      exact hQ _ _ (h.1 e he p hp)
    · exact comps_QS hQ cts h.2 c hc
  | .comm .prod bts ps pv cts, h => by
    simp only [EveryTerm] at h
    simp only [comps, List.mem_map]
    rintro c ⟨d, hd, rfl⟩ f hf
    simp only [Comp.mul, List.mem_append, List.mem_flatMap, List.mem_map] at hf
    rcases hf with ⟨e, he, p, hp, rfl⟩ | hf
    · exact h.1 e he p hp
    · exact comps_QP hQ cts h.2 d hd f hf
  | .change cc p l r, h => by
    simp only [EveryTerm] at h
    simp only [comps, List.mem_append, List.mem_map]
    rintro c (⟨d, hd, rfl⟩ | ⟨d, hd, rfl⟩) f hf
    · simp only [Comp.mul, Comp.one, List.mem_append, List.mem_singleton] at hf
      rcases hf with hf | rfl
      · exact comps_Q hQ l h.2.2.1 d hd f hf
      · exact hQ _ _ h.1
    · simp only [Comp.mul, Comp.one, List.mem_append, List.mem_singleton] at hf
      rcases hf with hf | rfl
      · exact comps_Q hQ r h.2.2.2 d hd f hf
      · exact hQ _ _ h.2.1
theorem comps_QS {Q : Base → PD α → Prop} (hQ : ∀ b p, Q b p → Q b p.noVar) : (ks : List (PKE α)) → EveryTermL Q ks → ∀ c ∈ compsSum ks, ∀ f ∈ c.fs, Q f.1 f.2
  | [], _ => by simp [compsSum]
  | k :: ks, h => by
    simp only [EveryTermL] at h
    simp only [compsSum, List.mem_append]
    rintro c (hc | hc)
    · exact comps_Q hQ k h.1 c hc
    · exact comps_QS hQ ks h.2 c hc
theorem comps_QP {Q : Base → PD α → Prop} (hQ : ∀ b p, Q b p → Q b p.noVar) : (ks : List (PKE α)) → EveryTermL Q ks → ∀ c ∈ compsProd ks, ∀ f ∈ c.fs, Q f.1 f.2
  | [], _ => by simp [compsProd]
  | k :: ks, h => by
    simp only [EveryTermL] at h
    simp only [compsProd, List.mem_flatMap, List.mem_map]
    rintro c ⟨x, hx, y, hy, rfl⟩ f hf
    simp only [Comp.mul, List.mem_append] at hf
    rcases hf with hf | hf
    · exact comps_Q hQ k h.1 x hx f hf
    · exact comps_QP hQ ks h.2 y hy f hf
end

omit [LinearOrder α] [Add α] [One α] [Mul α] in
mutual
theorem noWindow_points : (k : PKE α) → Fitted (fun _ => True) k → NoWindow k → EveryTerm (fun b _ => b ≠ .SI ∧ b ≠ .SIr) k
  | .leaf b p, hf, _ => by
    simp only [Fitted] at hf
    simp only [EveryTerm]
    constructor <;> rintro rfl <;> simp [Base.isSigmoid] at hf
  | .comm .sum bts ps pv cts, hf, hw => by
    simp only [Fitted] at hf
    simp only [NoWindow] at hw
    simp only [EveryTerm]
    refine ⟨?_, noWindow_pointsL cts hf.2.2 hw⟩
    intro e he p _
    have := hf.1.plain e he
    constructor <;> intro h <;> rw [h] at this <;> cases this
  | .comm .prod bts ps pv cts, hf, hw => by
    simp only [Fitted] at hf
    simp only [NoWindow] at hw
    simp only [EveryTerm]
    refine ⟨?_, noWindow_pointsL cts hf.2.2.2.2 hw⟩
    intro e he p _
    have := hf.1.plain e he
    constructor <;> intro h <;> rw [h] at this <;> cases this
  | .change c p l r, hf, hw => by
    simp only [Fitted] at hf
    simp only [NoWindow] at hw
    obtain ⟨rfl, h1, h2⟩ := hw
    simp only [EveryTerm]
    exact ⟨by simp [firstWeight], by simp [secondWeight], noWindow_points l hf.2.1 h1, noWindow_points r hf.2.2 h2⟩
theorem noWindow_pointsL : (ks : List (PKE α)) → FittedL (fun _ => True) ks → NoWindowL ks → EveryTermL (fun b _ => b ≠ .SI ∧ b ≠ .SIr) ks
  | [], _, _ => trivial
  | k :: ks, hf, hw => by
    simp only [FittedL] at hf
    simp only [NoWindowL] at hw
    simp only [EveryTermL]
    exact ⟨noWindow_points k hf.1.2 hw.1, noWindow_pointsL ks hf.2 hw.2⟩
end

theorem noWindow_tellable (k : PKE α) (hf : Fitted (fun _ => True) k) (hw : NoWindow k) : ∀ c ∈ comps k, Tellable c :=
  fun c hc => Or.inl fun f hm => comps_Q (Q := fun b _ => b ≠ .SI ∧ b ≠ .SIr) (fun _ _ h => h) k (noWindow_points k hf hw) c hc f hm

/-- The whole text, if all components are tellable: it starts with the number of components, and there is one sentence per component. -/
theorem C47_text (comb : α → α → α) (fmt : α → String) (cfg : Cfg) (k : PKE α) (hk : asLeaf k = none)
    (hf : Fitted (fun _ => True) k) (ho : OwnTerms k) (hq : EveryTerm (Sensible cfg) k) (hw : ∀ c ∈ comps k, Tellable c) :
    ∃ k' ss, sops comb cfg k = .ok k' ∧ ss.length = count k ∧
      List.Forall₂ (fun c s => Relates cfg c s) (comps k) ss ∧
      interpretation fmt cfg k' = .ok ("The fit kernel consists of " ++ toString (count k) ++ " components:" ++
        String.join (ss.map (fun s => "\n\t" ++ s.text fmt))) := by
  obtain ⟨k', h⟩ := C42_partial comb cfg k hk hf ho
  obtain ⟨cts, rfl, hx, hlen⟩ := C43_shape comb cfg k k' hk hf h
  have h1 := C47_tellable comb cfg k cts hk hf hq h
  have : ∃ ss, describeAll cfg cts = .ok ss ∧ List.Forall₂ (fun c s => Relates cfg c s) (comps k) ss := by
    clear hlen h hx
    generalize comps k = cs at h1 hw
    induction h1 with
    | nil => exact ⟨[], rfl, .nil⟩
    | cons a _ ih =>
      obtain ⟨ss, e1, e2⟩ := ih (fun c hc => hw c (by simp [hc]))
      obtain ⟨bts, ps, pv, rfl, a⟩ := a
      obtain ⟨s, e3, _, e4⟩ := a (hw _ (by simp))
      refine ⟨s :: ss, ?_, .cons e4 e2⟩
      simp only [describeAll, bind, Except.bind, e3, e1]; rfl
  obtain ⟨ss, e1, e2⟩ := this
  refine ⟨_, ss, h, ?_, e2, ?_⟩
  · rw [← e2.length_eq, length_comps k hf]
  · simp only [interpretation, bind, Except.bind, e1, hlen, Counter.total]
    rfl

/-- Without change windows all components are tellable. -/
theorem C47_points (comb : α → α → α) (fmt : α → String) (cfg : Cfg) (k : PKE α) (hk : asLeaf k = none)
    (hf : Fitted (fun _ => True) k) (ho : OwnTerms k) (hq : EveryTerm (Sensible cfg) k) (hw : NoWindow k) :
    ∃ k' ss, sops comb cfg k = .ok k' ∧ ss.length = count k ∧
      List.Forall₂ (fun c s => Relates cfg c s) (comps k) ss ∧
      interpretation fmt cfg k' = .ok ("The fit kernel consists of " ++ toString (count k) ++ " components:" ++
        String.join (ss.map (fun s => "\n\t" ++ s.text fmt))) :=
  C47_text comb fmt cfg k hk hf ho hq (noWindow_tellable k hf hw)

end

/-! ## C43: variances and parameters of the components -/

section
variable {α : Type}

/-- C43, the variances: that of a component is the product of the variances of the terms it is made of. -/
theorem C43_variance [CommRing α] (comb : α → α → α) (cfg : Cfg) (k : PKE α) (cts : List (PKE α)) (hk : asLeaf k = none)
    (hf : Fitted (fun _ => True) k) (h : sops comb cfg k = .ok (.comm .sum [] [] none cts)) :
    List.Forall₂ (fun c t => ∃ bts ps pv, t = PKE.comm .prod bts ps (some pv) [] ∧ pv = c.vars.prod) (comps k) cts := by
  have ho : OwnTerms k := by
    by_contra hn; rw [C42_raises comb cfg k hk hf hn] at h; cases h
  obtain ⟨k'', h1, cts', rfl, h2⟩ := sops_ok (R := α) (φ := id) (shape := fun _ _ => 1) (P := fun _ => True) (fun _ _ _ _ => trivial) cfg k hk hf ho
  rw [h1] at h; cases h
  refine h2.imp ?_
  rintro c t ⟨⟨bts, ps, pv⟩, rfl, h4, h5⟩
  obtain ⟨v, hv⟩ := Option.isSome_iff_exists.1 h5.1
  simp only at hv; subst hv
  refine ⟨bts, ps, v, rfl, ?_⟩
  have := h4.var ⟨rfl, fun _ _ => rfl, fun _ => rfl, by simp⟩
  simpa [varVal] using this

/-- C43, the parameters: those of the sigmoids, and without noise those of `PER`, `LIN` and a single `SE`, are those of the terms
the component is made of, each once. (Noise absorbs `C`, `SE` and `PER`, and several `SE` become one.) -/
theorem C43_params [Mul α] [One α] (comb : α → α → α) (cfg : Cfg) (k : PKE α) (cts : List (PKE α)) (hk : asLeaf k = none)
    (hf : Fitted (fun _ => True) k) (h : sops comb cfg k = .ok (.comm .sum [] [] none cts)) :
    List.Forall₂ (fun c t => ∃ bts ps pv, t = PKE.comm .prod bts ps (some pv) [] ∧
      ∀ b, b.isSigmoid = true ∨ c.count .WN = 0 ∧ (b = .PER ∨ b = .LIN ∨ b = .SE ∧ c.count .SE ≤ 1) →
        (ps.get b).Perm ((c.fs.filter (fun f => decide (f.1 = b))).map (fun f => f.2))) (comps k) cts := by
  obtain ⟨cts', e, h2⟩ := form_holds cfg k hk hf h
  cases e
  refine h2.imp ?_
  rintro c t ⟨⟨bts, ps, pv⟩, rfl, hn⟩
  obtain ⟨v, hv⟩ := Option.isSome_iff_exists.1 hn.plain.1
  simp only at hv; subst hv
  exact ⟨bts, ps, v, rfl, fun b hb => hb.elim (hn.sig b) (fun h0 => hn.dicts (Or.inl h0.1) b (Or.inr h0))⟩

end

/-! ## Examples -/

/-- `CP(PER * (WN + LIN + LIN), CP(C, LIN))` -/
def exampleTold : PKE Int :=
  .change .CP { location := some 3, slope := some 9 } (.comm .prod [(.PER, 1)] [(.PER, [{ period := some 2, lengthscale := some 8 }])] (some 5)
    [.comm .sum [(.WN, 1), (.LIN, 2)] [(.WN, [{ variance := some 7 }]),
      (.LIN, [{ variance := some 1, offset := some 2 }, { variance := some 2, offset := some 4 }])] none []])
    (.change .CP { location := some 6, slope := some 1 } (.leaf .C { variance := some 4 }) (.leaf .LIN { variance := some 3, offset := some 1 }))

theorem exampleTold_fitted (P : Int → Prop) : Fitted P exampleTold := by
  simp only [exampleTold, Fitted, FittedL, asLeaf]
  refine ⟨trivial, ⟨⟨rfl, by decide, by simp, by simp [Base.isSigmoid], by simp⟩, by simp, by simp, by simp, ⟨trivial, ⟨rfl, by decide, by simp, by simp [Base.isSigmoid], by simp⟩, trivial, trivial⟩, trivial⟩, trivial, ⟨rfl, by simp⟩, rfl, by simp⟩

theorem exampleTold_own : OwnTerms exampleTold := by simp [exampleTold, OwnTerms, OwnTermsL]

theorem exampleTold_sensible (cfg : Cfg) : EveryTerm (Sensible cfg) exampleTold := by
  simp [exampleTold, EveryTerm, EveryTermL, Sensible, Keys, firstWeight, secondWeight]

example (cfg : Cfg) (fmt : Int → String) : ∃ k' ss, sops (fun a _ => a) cfg exampleTold = .ok k' ∧ ss.length = 5 ∧
    List.Forall₂ (fun c s => Relates cfg c s) (comps exampleTold) ss ∧
    interpretation fmt cfg k' = .ok ("The fit kernel consists of " ++ toString (count exampleTold) ++ " components:" ++
      String.join (ss.map (fun s => "\n\t" ++ s.text fmt))) :=
  C47_points (fun a _ => a) fmt cfg exampleTold rfl (exampleTold_fitted _) exampleTold_own (exampleTold_sensible cfg)
    (by simp [exampleTold, NoWindow, NoWindowL])

/-- All its components are clean. -/
example : ∀ c ∈ comps exampleTold, c.Clean := by
  have e : (comps exampleTold).map (fun c => (c.count .WN, c.count .LIN)) = [(0, 1), (0, 1), (1, 0), (0, 0), (0, 1)] := rfl
  intro c hc
  have := List.mem_map_of_mem (f := fun c : Comp Int => (c.count .WN, c.count .LIN)) hc
  rw [e] at this
  simp only [List.mem_cons, Prod.mk.injEq] at this
  unfold Comp.Clean
  rcases this with h | h | h | h | h | h <;> simp_all

/-- `LIN + CW(PER, LIN) + CP(C, CP(LIN, C))`: the window is alone. -/
def exampleAlone : PKE Int :=
  .comm .sum [(.LIN, 1)] [(.LIN, [{ variance := some 1, offset := some 2 }])] none
    [.change .CW { location := some 3, width := some 4 } (.leaf .PER { variance := some 2, period := some 8, lengthscale := some 1 })
      (.leaf .LIN { variance := some 3, offset := some 1 }),
     .change .CP { location := some 5 } (.leaf .C { variance := some 4 }) (.change .CP { location := some 9 } (.leaf .LIN { variance := some 5, offset := some 6 })
      (.leaf .C { variance := some 7 }))]

example : Fitted (fun _ => True) exampleAlone ∧ OwnTerms exampleAlone ∧ EveryTerm (Sensible Cfg.default) exampleAlone ∧ ∀ c ∈ comps exampleAlone, Tellable c := by
  refine ⟨?_, ?_, ?_, ?_⟩
  · simp only [exampleAlone, Fitted, FittedL, asLeaf]
    simp [Base.isSigmoid]
    exact ⟨rfl, by decide, by simp, by simp [Base.isSigmoid], by simp⟩
  · simp [exampleAlone, OwnTerms, OwnTermsL]
  · simp [exampleAlone, EveryTerm, EveryTermL, Sensible, Keys, firstWeight, secondWeight, Cfg.default]
  · have e : comps exampleAlone = [⟨[1], [(.LIN, { offset := some 2 })]⟩,
      ⟨[2], [(.PER, { period := some 8, lengthscale := some 1 }), (.SIr, { location := some 3, width := some 4 })]⟩,
      ⟨[3], [(.LIN, { offset := some 1 }), (.SI, { location := some 3, width := some 4 })]⟩, ⟨[4], [(.C, {}), (.Sr, { location := some 5 })]⟩,
      ⟨[5], [(.LIN, { offset := some 6 }), (.Sr, { location := some 9 }), (.S, { location := some 5 })]⟩,
      ⟨[7], [(.C, {}), (.S, { location := some 9 }), (.S, { location := some 5 })]⟩] := rfl
    rw [e]
    simp only [List.forall_mem_cons, List.not_mem_nil, false_implies, implies_true, and_true]
    refine ⟨Or.inl (by simp), Or.inr (Or.inl ?_), Or.inr (Or.inl ?_), Or.inl (by simp), Or.inl (by simp), Or.inl (by simp)⟩ <;> simp [Base.isSigmoid]

/-- Of `CP(C, CW(C, LIN))` with the window after the change, the component inside the window is tellable too: there is a point where all is on. -/
example : Tellable (⟨[4], [(.LIN, { offset := some 1 }), (.SI, { location := some 5, width := some 4 }), (.S, { location := some 3 })]⟩ : Comp Int) :=
  Or.inr (Or.inr ⟨by simp, 7, by simp [SigOn]⟩)

/-! ## Where C47 fails -/

/-- `CW(C, CW(C, LIN))`, the second window outside the first. -/
def exampleWindows : PKE Int :=
  .change .CW { location := some 0, width := some 1 } (.leaf .C { variance := some 2 })
    (.change .CW { location := some 5, width := some 1 } (.leaf .C { variance := some 3 }) (.leaf .LIN { variance := some 4, offset := some 1 }))

/-- C47 is false for nested change windows which do not meet: `TypeError` (`SI_overlap` returns `None`, C46). -/
theorem C47_nested_windows : Fitted (fun _ => True) exampleWindows ∧ OwnTerms exampleWindows ∧ EveryTerm (Sensible Cfg.default) exampleWindows ∧
    ∃ k', sops (fun a _ => a) Cfg.default exampleWindows = .ok k' ∧ interpretation toString Cfg.default k' = .error .type := by
  refine ⟨?_, ?_, ?_, _, rfl, rfl⟩
  · simp [exampleWindows, Fitted, Base.isSigmoid]
  · simp [exampleWindows, OwnTerms]
  · simp [exampleWindows, EveryTerm, Sensible, Keys, firstWeight, secondWeight, Cfg.default]

/-- The same expression is covered by `C47_partial`. -/
example : ∃ cts, sops (fun a _ => a) Cfg.default exampleWindows = .ok (.comm .sum [] [] none cts) ∧
    List.Forall₂ (fun c t => ∃ bts ps pv gs, t = PKE.comm .prod bts ps (some pv) [] ∧ groups Cfg.default ps = .ok gs ∧
      ((∃ s, describe Cfg.default ps (some pv) = .ok s ∧ s.var = pv ∧ Relates Cfg.default c s) ∨
        (∃ l, Interval.sigmoidIntervals gs = .ok l ∧ none ∈ l ∧ describe Cfg.default ps (some pv) = .error .type) ∨
        ∃ e, gs ≠ [] ∧ Interval.sigmoidIntervals gs = .error e ∧ describe Cfg.default ps (some pv) = .error e)) (comps exampleWindows) cts := by
  obtain ⟨h1, h2, h3, _⟩ := C47_nested_windows
  obtain ⟨k', h⟩ := C42_partial (fun a _ => a) Cfg.default exampleWindows rfl h1 h2
  obtain ⟨cts, rfl, _⟩ := C43_shape _ _ _ _ rfl h1 h
  exact ⟨cts, h, C47_partial _ _ _ _ rfl h1 h3 h⟩

/-- `CP(CP(C, LIN), C)` with the inner change point, 5, after the outer, 0. -/
def exampleNowhere : PKE Int :=
  .change .CP { location := some 0 } (.change .CP { location := some 5 } (.leaf .C { variance := some 2 }) (.leaf .LIN { variance := some 3, offset := some 7 }))
    (.leaf .C { variance := some 4 })

/-- A component which applies nowhere is told as if it applied everywhere: no interval is mentioned. -/
theorem C47_nowhere : Fitted (fun _ => True) exampleNowhere ∧ ∃ a ps pv b s,
    sops (fun a _ => a) Cfg.default exampleNowhere = .ok (.comm .sum [] [] none [a, .comm .prod [(.LIN, 1), (.S, 1), (.Sr, 1)] ps pv [], b]) ∧
    describe Cfg.default ps pv = .ok s ∧ s.mods = [] ∧
    s.text toString = "A linear function with horizontal offset 7, and it has overall variance 3" := by
  refine ⟨by simp [exampleNowhere, Fitted, Base.isSigmoid], _, _, _, _, _, rfl, rfl, rfl, ?_⟩
  decide

/-- Where noise has multiplied `LIN`, the sentence does not mention `LIN`: the component of `CP(WN * LIN, C)`. -/
theorem C47_lin_untold : Fitted (fun _ => True) exampleLost ∧ ∃ bts ps pv r,
    sops (fun a _ => a) Cfg.default exampleLost = .ok (.comm .sum [] [] none (.comm .prod bts ps pv [] :: r)) ∧ bts.get .LIN = 1 ∧
    (ps.get .LIN = [] ∧ (ps.map (fun e => e.1)) = [.WN, .Sr]) := by
  refine ⟨C43_lin_lost.1, _, _, _, _, rfl, rfl, rfl, rfl⟩

end GPyABCD
