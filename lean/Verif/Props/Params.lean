import Verif.Lemmas.ParamsTerms
import Verif.Props.Interp
import Verif.Lemmas.ParamsShift

/-!
# Properties: parameters of fitted kernels (C40) and interpreting fitted models (C75)
-/

namespace GPyABCD
open KE Sops Params Interp

variable {α : Type}

/-! ## C40 -/

/-- C40. The kernel of a stable expression can be built, and whatever values fitting gives its parameters, matching them back succeeds, does not change the
expression, and gives every term the parameters of the kernel component built from it (`Carries`). -/
theorem C40_matched (cfg : Cfg) (k : KE) (hk : k.isBase = false) (hw : wf k = true) (he : noEmpty k = true)
    (hs : ∀ x ∈ bases k, x.isSigmoid = false) (h : keq (simplify cfg k) k = true) :
    ∃ s, toKernel cfg k = .ok s ∧ ∀ g : GK α, erase g = s → ∃ f, fitParams cfg g k = .ok f ∧ forget f = k ∧ Carries f g := by
  obtain ⟨s, h1, h2⟩ := Params.root (α := α) cfg k (stable_matchable hw he hs h).1 hk
  refine ⟨s, h1, fun g hg => ?_⟩
  obtain ⟨f, h3, h4⟩ := h2 g hg
  exact ⟨f, h3, h4.2.1, h4.1⟩

/-- C40 does not need the rules on base terms, only the shape of the tree: no one-term node below the root, no sum in a sum, no product in a product. -/
theorem C40_shape (cfg : Cfg) (k : KE) (hk : k.isBase = false) (hm : Matchable k) :
    ∃ s, toKernel cfg k = .ok s ∧ ∀ g : GK α, erase g = s → ∃ f, fitParams cfg g k = .ok f ∧ forget f = k ∧ Carries f g := by
  obtain ⟨s, h1, h2⟩ := Params.root (α := α) cfg k hm hk
  refine ⟨s, h1, fun g hg => ?_⟩
  obtain ⟨f, h3, h4⟩ := h2 g hg
  exact ⟨f, h3, h4.2.1, h4.1⟩

/-- C40, kernels that belong to no model: `init_rand_params` of an expression whose simplified form is stable gives the terms of that form the parameters of the
kernel built from it, whatever values these got. -/
theorem C40_random (cfg : Cfg) (values : GK Unit → GK α) (hv : ∀ s, erase (values s) = s) (k : KE) (hk : k.isBase = false) (hw : wf k = true)
    (he : noEmpty (simplify cfg k) = true) (hs : ∀ x ∈ bases k, x.isSigmoid = false) (h : keq (simplify cfg (simplify cfg k)) (simplify cfg k) = true) :
    ∃ s f, toKernel cfg (simplify cfg k) = .ok s ∧ initRandParams cfg values k = .ok f ∧ forget f = simplify cfg k ∧ Carries f (values s) := by
  have hk' : (simplify cfg k).isBase = false := by rw [isBase_simplify]; exact hk
  obtain ⟨s, h1, h2⟩ := C40_matched (α := α) cfg (simplify cfg k) hk' (wf_simplify cfg k hw) he (fun x hx => hs x ((bases_simplify cfg k hw).subset hx)) h
  obtain ⟨f, h3, h4, h5⟩ := h2 (values s) (hv s)
  refine ⟨s, f, h1, ?_, h4, h5⟩
  rw [← h3, fitParams, initRandParams, h1]
  exact (matchUp_shift cfg _ true (kernel_dict cfg (values s)) (Or.inl rfl)).symm

/-- C40. What matching returns has the same covariance as the fitted kernel. -/
theorem C40_covariance {R : Type} [CommRing R] (φ : α → R) (shape : Base → PD α → R) (cfg : Cfg) (k : KE) (hk : k.isBase = false)
    (hm : Matchable k) (s : GK Unit) (hs : toKernel cfg k = .ok s) (g : GK α) (hg : erase g = s) (f : PKE α) (hf : fitParams cfg g k = .ok f) :
    eval φ shape f = gval φ shape g := by
  obtain ⟨s', h1, h2⟩ := C40_shape (α := α) cfg k hk hm
  rw [h1] at hs
  obtain ⟨f', h3, _, h4⟩ := h2 g (hg.trans (Except.ok.inj hs).symm)
  rw [h3] at hf
  rw [← Except.ok.inj hf]
  exact eval_carries φ shape f' g h4

/-- C40. Every base term has one dictionary per occurrence with the parameters of its kernel, a product has one variance for its base terms, and if it has
none it has no variance; `P` is any property of the lengthscales of `SE`. -/
theorem C40_fitted (P : α → Prop) (cfg : Cfg) (k : KE) (hk : k.isBase = false) (hw : wf k = true) (he : noEmpty k = true)
    (hs : ∀ x ∈ bases k, x.isSigmoid = false) (h : keq (simplify cfg k) k = true) (s : GK Unit) (hks : toKernel cfg k = .ok s) (g : GK α)
    (hg : erase g = s) (hP : SEOK P g) (f : PKE α) (hf : fitParams cfg g k = .ok f) : Fitted P f ∧ EveryTerm (Keys cfg) f := by
  have hst := stable_matchable hw he hs h
  obtain ⟨s', h1, h2⟩ := Params.root (α := α) cfg k hst.1 hk
  rw [h1] at hks
  obtain ⟨f', h3, h4⟩ := h2 g (hg.trans (Except.ok.inj hks).symm)
  rw [h3] at hf
  rw [← Except.ok.inj hf]
  refine ⟨h4.2.2 P hst.2 hP, every_carries (keys_noVar cfg) f' g h4.1 (keys_erase cfg g ?_)⟩
  rw [hg, ← Except.ok.inj hks]
  exact keys_toKernel cfg k s' h1

/-- `PER + LIN + LIN*SE*(SE + C) + LIN*PER + CP(LIN + WN, LIN + SE)` -/
def exampleKE : KE :=
  comm .sum [(.PER, 1), (.LIN, 1)] [comm .prod [(.SE, 1), (.LIN, 1)] [comm .sum [(.SE, 1), (.C, 1)] []], comm .prod [(.LIN, 1), (.PER, 1)] [],
    change .CP (comm .sum [(.LIN, 1), (.WN, 1)] []) (comm .sum [(.LIN, 1), (.SE, 1)] [])]

/-- Its kernel after fitting, with numbers that tell the components apart. -/
def exampleGK : GK Nat :=
  .comb .sum [.base .PER { variance := some 1, period := some 2, lengthscale := some 3 }, .base .LIN { variance := some 4, offset := some 5 },
    .comb .prod [.base .SE { variance := some 6, lengthscale := some 7 }, .base .LIN { offset := some 8 },
      .comb .sum [.base .SE { variance := some 9, lengthscale := some 10 }, .base .C { variance := some 11 }]],
    .comb .prod [.base .PER { variance := some 12, period := some 13, lengthscale := some 14 }, .base .LIN { offset := some 15 }],
    .change .CP { location := some 16 } (.comb .sum [.base .WN { variance := some 17 }, .base .LIN { variance := some 18, offset := some 19 }])
      (.comb .sum [.base .SE { variance := some 20, lengthscale := some 21 }, .base .LIN { variance := some 22, offset := some 23 }])]

theorem exampleKE_ok : exampleKE.isBase = false ∧ wf exampleKE = true ∧ noEmpty exampleKE = true ∧ (∀ x ∈ bases exampleKE, x.isSigmoid = false) ∧
    keq (simplify Cfg.default exampleKE) exampleKE = true ∧ toKernel Cfg.default exampleKE = .ok (erase exampleGK) := by
  refine ⟨rfl, by decide, by decide, by decide, by decide, by rfl⟩

example : ∃ f, fitParams Cfg.default exampleGK exampleKE = .ok f ∧ forget f = exampleKE ∧ Carries f exampleGK := by
  obtain ⟨h1, h2, h3, h4, h5, h6⟩ := exampleKE_ok
  obtain ⟨s, h7, h8⟩ := C40_matched (α := Nat) Cfg.default exampleKE h1 h2 h3 h4 h5
  rw [h6] at h7
  exact h8 exampleGK (Except.ok.inj h7)

-- the dictionary used: names as GPy prints them
example : (paramList Cfg.default exampleGK).map (fun e => (String.ofList e.1, e.2)) =
    [("GP_regression.sum.pure_std_periodic.variance", 1), ("GP_regression.sum.pure_std_periodic.period", 2),
     ("GP_regression.sum.pure_std_periodic.lengthscale", 3), ("GP_regression.sum.linear_with_offset.variance", 4),
     ("GP_regression.sum.linear_with_offset.offset", 5), ("GP_regression.sum.mul.rbf.variance", 6), ("GP_regression.sum.mul.rbf.lengthscale", 7),
     ("GP_regression.sum.mul.linear_with_offset.offset", 8), ("GP_regression.sum.mul.sum.rbf.variance", 9),
     ("GP_regression.sum.mul.sum.rbf.lengthscale", 10), ("GP_regression.sum.mul.sum.bias.variance", 11),
     ("GP_regression.sum.mul_1.pure_std_periodic.variance", 12), ("GP_regression.sum.mul_1.pure_std_periodic.period", 13),
     ("GP_regression.sum.mul_1.pure_std_periodic.lengthscale", 14), ("GP_regression.sum.mul_1.linear_with_offset.offset", 15),
     ("GP_regression.sum.change_point.sum.white.variance", 17), ("GP_regression.sum.change_point.sum.linear_with_offset.variance", 18),
     ("GP_regression.sum.change_point.sum.linear_with_offset.offset", 19), ("GP_regression.sum.change_point.sum_1.rbf.variance", 20),
     ("GP_regression.sum.change_point.sum_1.rbf.lengthscale", 21), ("GP_regression.sum.change_point.sum_1.linear_with_offset.variance", 22),
     ("GP_regression.sum.change_point.sum_1.linear_with_offset.offset", 23), ("GP_regression.sum.change_point.location", 16)] := by rfl

example : Matchable exampleKE := (stable_matchable exampleKE_ok.2.1 exampleKE_ok.2.2.1 exampleKE_ok.2.2.2.1 exampleKE_ok.2.2.2.2.1).1

example : SEOK (fun a => 0 < a) exampleGK := by simp [exampleGK, SEOK, SEOKL, lsOK]

/-- Expressions that are not stable need not match: GPy flattens a product in a product, the expression does not, and the name `mul.mul. …` is not found.
The expression `LIN * (LIN * SE)` arises by removing `PER` from `LIN * (LIN * SE + PER)` (`C26_not_stable`). -/
theorem C40_nested_keyerror : ∃ (k : KE) (g : GK Nat), k.isBase = false ∧ wf k = true ∧ noEmpty k = true ∧ toKernel Cfg.default k = .ok (erase g) ∧
    fitParams Cfg.default g k = .error .key :=
  ⟨comm .prod [(.LIN, 1)] [comm .prod [(.LIN, 1), (.SE, 1)] []],
    .comb .prod [.base .LIN { variance := some 1, offset := some 1 }, .base .SE { variance := some 1, lengthscale := some 1 }, .base .LIN { offset := some 1 }],
    rfl, by decide, by decide, by rfl, by rfl⟩

/-! ## C75 -/

section
variable [LinearOrder α] [Mul α] [One α] [Add α]

/-- Windows end no earlier than they start. -/
def WindowsOK (g : GK α) : Prop := GEvery (fun b p => b = .SI ∨ b = .SIr → ∀ l ∈ p.location, ∀ w ∈ p.width, l ≤ l + w) g

mutual
theorem every_and {Q Q' : Base → PD α → Prop} (k : PKE α) (h : EveryTerm Q k) (h' : EveryTerm Q' k) : EveryTerm (fun b p => Q b p ∧ Q' b p) k := by
  cases k with
  | leaf => simp only [EveryTerm] at h h' ⊢; exact ⟨h, h'⟩
  | comm o b ps pv cts =>
    simp only [EveryTerm] at h h' ⊢
    exact ⟨fun e he p hp => ⟨h.1 e he p hp, h'.1 e he p hp⟩, every_andL cts h.2 h'.2⟩
  | change c p l r =>
    simp only [EveryTerm] at h h' ⊢
    exact ⟨⟨h.1, h'.1⟩, ⟨h.2.1, h'.2.1⟩, every_and l h.2.2.1 h'.2.2.1, every_and r h.2.2.2 h'.2.2.2⟩
theorem every_andL {Q Q' : Base → PD α → Prop} (ks : List (PKE α)) (h : EveryTermL Q ks) (h' : EveryTermL Q' ks) :
    EveryTermL (fun b p => Q b p ∧ Q' b p) ks := by
  cases ks with
  | nil => trivial
  | cons k ks =>
    simp only [EveryTermL] at h h' ⊢
    exact ⟨every_and k h.1 h'.1, every_andL ks h.2 h'.2⟩
end

mutual
private theorem every_mono {Q Q' : Base → PD α → Prop} (hQ : ∀ b p, Q b p → Q' b p) (k : PKE α) (h : EveryTerm Q k) : EveryTerm Q' k := by
  cases k with
  | leaf => simp only [EveryTerm] at h ⊢; exact hQ _ _ h
  | comm o b ps pv cts =>
    simp only [EveryTerm] at h ⊢
    exact ⟨fun e he p hp => hQ _ _ (h.1 e he p hp), every_monoL hQ cts h.2⟩
  | change c p l r =>
    simp only [EveryTerm] at h ⊢
    exact ⟨hQ _ _ h.1, hQ _ _ h.2.1, every_mono hQ l h.2.2.1, every_mono hQ r h.2.2.2⟩
private theorem every_monoL {Q Q' : Base → PD α → Prop} (hQ : ∀ b p, Q b p → Q' b p) (ks : List (PKE α)) (h : EveryTermL Q ks) : EveryTermL Q' ks := by
  cases ks with
  | nil => trivial
  | cons k ks =>
    simp only [EveryTermL] at h ⊢
    exact ⟨every_mono hQ k h.1, every_monoL hQ ks h.2⟩
end

theorem asLeaf_of {f : PKE α} {k : KE} (h : forget f = k) (hk : k.isBase = false) : asLeaf f = none := asLeaf_forget h hk

mutual
theorem se_true (g : GK α) : SEOK (fun _ => True) g := by
  cases g with
  | base => simp [SEOK, lsOK]
  | comb o ps => rw [SEOK]; exact se_trueL ps
  | change c p l r => rw [SEOK]; exact ⟨se_true l, se_true r⟩
theorem se_trueL (gs : List (GK α)) : SEOKL (fun _ => True) gs := by
  cases gs with
  | nil => rw [SEOKL]; trivial
  | cons g gs => rw [SEOKL]; exact ⟨se_true g, se_trueL gs⟩
end

/-- Windows end after they start: the widths are positive. -/
def WindowsPos (g : GK α) : Prop := GEvery (fun b p => b = .SI ∨ b = .SIr → ∀ l ∈ p.location, ∀ w ∈ p.width, l < l + w) g

/-- C75 (partial: components bounded by a window and something else and nodes without base terms are left out, see the theorems below, and of a component with
both noise and `LIN` only variance and bounds are promised). A fitted model of a stable expression is interpreted: the text has one sentence for every component of
the matched expression, each says what it should of its component, and the covariances of the components add up to that of the fitted kernel. -/
theorem C75_interpret_partial {R : Type} [CommRing R] (φ : α → R) (shape : Base → PD α → R) (comb : α → α → α) (fmt : α → String) (cfg : Cfg) (k : KE)
    (hk : k.isBase = false) (hw : wf k = true) (he : noEmpty k = true) (hs : ∀ x ∈ bases k, x.isSigmoid = false)
    (h : keq (simplify cfg k) k = true) (ho : allNodes ownNode k = true) (hc : aloneWindows k = true) :
    ∃ s, toKernel cfg k = .ok s ∧ ∀ g : GK α, erase g = s → WindowsPos g → ∃ f ss, fitParams cfg g k = .ok f ∧ Carries f g ∧
      List.Forall₂ (fun c t => Relates cfg c t) (comps f) ss ∧ ((comps f).map (Comp.val φ shape)).sum = gval φ shape g ∧
      interpret comb fmt cfg g k = .ok ("The fit kernel consists of " ++ toString (comps f).length ++ " components:" ++
        String.join (ss.map (fun t => "\n\t" ++ t.text fmt))) := by
  obtain ⟨s, h1, h2⟩ := C40_matched (α := α) cfg k hk hw he hs h
  refine ⟨s, h1, fun g hg hpos => ?_⟩
  obtain ⟨f, h3, h4, h5⟩ := h2 g hg
  obtain ⟨h6, h7⟩ := C40_fitted (fun _ => True) cfg k hk hw he hs h s h1 g hg (se_true g) f h3
  have hl := asLeaf_of h4 hk
  have hown : OwnTerms f := own_of f h6 (by rw [h4]; exact ho)
  have hpos : EveryTerm (fun b p => b = .SI ∨ b = .SIr → ∀ l ∈ p.location, ∀ w ∈ p.width, l < l + w) f := every_carries (fun _ _ hq => hq) f g h5 hpos
  have hsen : EveryTerm (Sensible cfg) f := every_mono (fun b p hq => ⟨hq.1, fun hb l hl w hw => (hq.2 hb l hl w hw).le⟩) f (every_and f h7 hpos)
  have htell := tellable_of f h6 (by rw [h4]; exact hc) (fun c hc g hg e => comps_Q (fun _ _ hq => hq) f hpos c hc g hg (Or.inl e))
  obtain ⟨k', ss, h8, h9, h10, h11⟩ := C47_text comb fmt cfg f hl h6 hown hsen htell
  have hlen : ss.length = (comps f).length := h10.length_eq.symm
  refine ⟨f, ss, h3, h5, h10, ?_, ?_⟩
  · rw [← eval_comps f h6, eval_carries φ shape f g h5]
  · simp only [interpret, h3, h8, h11, ← hlen, h9]

/-- C75 without windows (partial as above): nothing need be known of the values. -/
theorem C75_points_partial {R : Type} [CommRing R] (φ : α → R) (shape : Base → PD α → R) (comb : α → α → α) (fmt : α → String) (cfg : Cfg) (k : KE)
    (hk : k.isBase = false) (hw : wf k = true) (he : noEmpty k = true) (hs : ∀ x ∈ bases k, x.isSigmoid = false)
    (h : keq (simplify cfg k) k = true) (ho : allNodes ownNode k = true) (hc : CC.CW ∉ changes k) :
    ∃ s, toKernel cfg k = .ok s ∧ ∀ g : GK α, erase g = s → ∃ f ss, fitParams cfg g k = .ok f ∧ Carries f g ∧
      List.Forall₂ (fun c t => Relates cfg c t) (comps f) ss ∧ ((comps f).map (Comp.val φ shape)).sum = gval φ shape g ∧
      interpret comb fmt cfg g k = .ok ("The fit kernel consists of " ++ toString (comps f).length ++ " components:" ++
        String.join (ss.map (fun t => "\n\t" ++ t.text fmt))) := by
  obtain ⟨s, h1, h2⟩ := C40_matched (α := α) cfg k hk hw he hs h
  refine ⟨s, h1, fun g hg => ?_⟩
  obtain ⟨f, h3, h4, h5⟩ := h2 g hg
  obtain ⟨h6, h7⟩ := C40_fitted (fun _ => True) cfg k hk hw he hs h s h1 g hg (se_true g) f h3
  have hl := asLeaf_of h4 hk
  have hown : OwnTerms f := own_of f h6 (by rw [h4]; exact ho)
  have hnw : NoWindow f := noWindow_of f (by rw [h4]; exact hc)
  have hsen : EveryTerm (Sensible cfg) f := by
    have := every_and f h7 (noWindow_points f h6 hnw)
    refine every_mono ?_ f this
    rintro b p ⟨hkk, hb1, hb2⟩
    refine ⟨hkk, ?_⟩
    rintro (rfl | rfl)
    · exact absurd rfl hb1
    · exact absurd rfl hb2
  obtain ⟨k', ss, h8, h9, h10, h11⟩ := C47_points comb fmt cfg f hl h6 hown hsen hnw
  have hlen : ss.length = (comps f).length := h10.length_eq.symm
  refine ⟨f, ss, h3, h5, h10, ?_, ?_⟩
  · rw [← eval_comps f h6, eval_carries φ shape f g h5]
  · simp only [interpret, h3, h8, h11, ← hlen, h9]

/-- C75. If some sum or product has no base terms of its own, `interpret` raises `AssertionError`. -/
theorem C75_raises (comb : α → α → α) (fmt : α → String) (cfg : Cfg) (k : KE) (hk : k.isBase = false) (hw : wf k = true) (he : noEmpty k = true)
    (hs : ∀ x ∈ bases k, x.isSigmoid = false) (h : keq (simplify cfg k) k = true) (ho : allNodes ownNode k = false) :
    ∃ s, toKernel cfg k = .ok s ∧ ∀ g : GK α, erase g = s → interpret comb fmt cfg g k = .error (.form .assertion) := by
  obtain ⟨s, h1, h2⟩ := C40_matched (α := α) cfg k hk hw he hs h
  refine ⟨s, h1, fun g hg => ?_⟩
  obtain ⟨f, h3, h4, h5⟩ := h2 g hg
  obtain ⟨h6, h7⟩ := C40_fitted (fun _ => True) cfg k hk hw he hs h s h1 g hg (se_true g) f h3
  have hown : ¬ OwnTerms f := by
    intro hn
    have := of_own f h6 hn
    rw [h4, ho] at this
    cases this
  simp only [interpret, h3, C42_raises comb cfg f (asLeaf_of h4 hk) h6 hown]

/-- C75, with any windows (partial: that there is a sentence for every component is not promised, as nested windows can have no common points,
`C47_nested_windows`). Nothing else can fail than telling the intervals: every component has a sentence that says what it should, or its intervals have no
common points or cannot be computed (`C47_partial`). The text consists of these sentences. -/
theorem C75_windows_partial (comb : α → α → α) (fmt : α → String) (cfg : Cfg) (k : KE) (hk : k.isBase = false) (hw : wf k = true) (he : noEmpty k = true)
    (hs : ∀ x ∈ bases k, x.isSigmoid = false) (h : keq (simplify cfg k) k = true) (ho : allNodes ownNode k = true) :
    ∃ s, toKernel cfg k = .ok s ∧ ∀ g : GK α, erase g = s → WindowsOK g → ∃ f cts, fitParams cfg g k = .ok f ∧ Carries f g ∧
      List.Forall₂ (fun c t => ∃ bts ps pv gs, t = PKE.comm .prod bts ps (some pv) [] ∧ groups cfg ps = .ok gs ∧
        ((∃ s, describe cfg ps (some pv) = .ok s ∧ s.var = pv ∧ Relates cfg c s) ∨
          (∃ l, Interval.sigmoidIntervals gs = .ok l ∧ none ∈ l ∧ describe cfg ps (some pv) = .error .type) ∨
          ∃ e, gs ≠ [] ∧ Interval.sigmoidIntervals gs = .error e ∧ describe cfg ps (some pv) = .error e)) (comps f) cts ∧
      (∀ ss, describeAll cfg cts = .ok ss → interpret comb fmt cfg g k = .ok ("The fit kernel consists of " ++ toString cts.length ++ " components:" ++
        String.join (ss.map (fun t => "\n\t" ++ t.text fmt)))) ∧
      ∀ e, describeAll cfg cts = .error e → interpret comb fmt cfg g k = .error (.telling e) := by
  obtain ⟨s, h1, h2⟩ := C40_matched (α := α) cfg k hk hw he hs h
  refine ⟨s, h1, fun g hg hwin => ?_⟩
  obtain ⟨f, h3, h4, h5⟩ := h2 g hg
  obtain ⟨h6, h7⟩ := C40_fitted (fun _ => True) cfg k hk hw he hs h s h1 g hg (se_true g) f h3
  have hl := asLeaf_of h4 hk
  obtain ⟨k', h8⟩ := C42_partial comb cfg f hl h6 (own_of f h6 (by rw [h4]; exact ho))
  obtain ⟨cts, rfl, _, _⟩ := C43_shape comb cfg f k' hl h6 h8
  have hsen : EveryTerm (Sensible cfg) f := every_and f h7 (every_carries (fun _ _ hq => hq) f g h5 hwin)
  refine ⟨f, cts, h3, h5, C47_partial comb cfg f cts hl h6 hsen h8, ?_, ?_⟩
  · intro ss hss
    simp only [interpret, h3, h8, interpretation, hss, bind, Except.bind]
    rfl
  · intro e he
    simp only [interpret, h3, h8, interpretation, he, bind, Except.bind]
    rfl

-- `exampleKE` has base terms at every node and no windows, and its kernel has no windows
example : allNodes ownNode exampleKE = true ∧ CC.CW ∉ changes exampleKE := by decide

-- an expression with a window, and its kernel
example : let k := change .CW (base .LIN) (comm .sum [(.LIN, 1), (.SE, 1)] [])
    let g : GK Int := .change .CW { location := some 3, width := some 2 } (.base .LIN { variance := some 4, offset := some 5 })
      (.comb .sum [.base .SE { variance := some 20, lengthscale := some 21 }, .base .LIN { variance := some 22, offset := some 23 }])
    wf k = true ∧ noEmpty k = true ∧ (∀ x ∈ bases k, x.isSigmoid = false) ∧ keq (simplify Cfg.default k) k = true ∧ allNodes ownNode k = true ∧
      aloneWindows k = true ∧ toKernel Cfg.default k = .ok (erase g) ∧ WindowsOK g ∧ WindowsPos g := by
  refine ⟨by decide, by decide, by decide, by decide, by decide, by decide, by rfl, ?_, ?_⟩
  · simp [WindowsOK, GEvery, GEveryL, firstWeight, secondWeight]
  · simp [WindowsPos, GEvery, GEveryL, firstWeight, secondWeight]

-- windows beside change points in different terms are alone, a window in a branch of a change point is not
example : aloneWindows (comm .sum [(.LIN, 1)] [change .CW (base .PER) (base .LIN), change .CP (base .C) (change .CP (base .LIN) (base .PER))]) = true ∧
    aloneWindows (change .CP (base .C) (change .CW (base .PER) (base .LIN))) = false ∧
    aloneWindows (comm .prod [(.LIN, 1)] [change .CW (base .PER) (base .LIN), change .CP (base .C) (base .LIN)]) = false := by decide

-- a stable expression with a sum that has no base terms
example : let k := comm .sum [] [comm .prod [(.LIN, 1), (.PER, 1)] [], comm .prod [(.LIN, 2)] []]
    wf k = true ∧ noEmpty k = true ∧ (∀ x ∈ bases k, x.isSigmoid = false) ∧ keq (simplify Cfg.default k) k = true ∧ allNodes ownNode k = false := by
  decide

end

end GPyABCD
