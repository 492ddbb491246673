import Verif.Lemmas.SopsMain
import Verif.Model.Kernels
import Mathlib.Analysis.SpecialFunctions.Exp
import Mathlib.Analysis.SpecialFunctions.Sqrt
import Mathlib.Tactic.FieldSimp
import Mathlib.Tactic.NormNum

/-!
# Properties C41 - C43: the sum-of-products form
-/

namespace GPyABCD
open Sops Kern

variable {α : Type} [Mul α] [One α]

/-! ## C41: the same covariance -/

/-- C41, partial. Whatever the covariances of the base kernels at a pair of inputs (as long as constants have shape one and noise
absorbs stationary shapes), the sum-of-products form of a fitted expression has the covariance of the expression. Left out,
because the code gets them wrong: expressions in which noise multiplies `LIN` (`C41_noise_lin`), `SE` multiplying `SE` (`C41_se`;
covered here for a combination formula which is right); and expressions with a node without base terms (`C42_raises`). -/
theorem C41_partial {R : Type} [CommRing R] (φ : α → R) (shape : Base → PD α → R) (L : ShapeLaws φ shape) (comb : α → α → α)
    (P : α → Prop) (hP : ∀ a b, P a → P b → P (comb a b)) (cfg : Cfg) (k : PKE α) (hk : asLeaf k = none) (hf : Fitted P k)
    (ho : OwnTerms k) (hc : ∀ c ∈ comps k, c.count .WN = 0 ∨ c.count .LIN = 0)
    (hs : ∀ c ∈ comps k, c.count .SE ≤ 1 ∨ SELaw shape comb P) :
    ∃ k', sops comb cfg k = .ok k' ∧ eval φ shape k' = eval φ shape k := by
  obtain ⟨k', h1, cts, rfl, h2⟩ := sops_ok (φ := φ) (shape := shape) hP cfg k hk hf ho
  refine ⟨_, h1, ?_⟩
  rw [eval, evalSum_rel L h2 hc hs, ← eval_comps k hf]
  simp

/-- Squared exponential, periodic-like, linear, constant, noise and sigmoid shapes at the inputs `x` and `y`; the slope that is not
among the parameters is the fixed one, `1/2` in change kernels (`changeOperators.py:15`). -/
noncomputable def realShape (x y : ℝ) (b : Base) (p : PD ℝ) : ℝ :=
  match b with
  | .C => 1
  | .WN => if x = y then 1 else 0
  | .SE => Real.exp (-(x - y) ^ 2 / (2 * p.lengthscale.getD 1 ^ 2))
  | .PER => Real.exp (-(x - y) ^ 2 / p.period.getD 1)
  | .LIN => (x - p.offset.getD 0) * (y - p.offset.getD 0)
  | .S => basisK 1 (phiS (p.location.getD 0) (p.slope.getD (1 / 2)) false) x y
  | .Sr => basisK 1 (phiS (p.location.getD 0) (p.slope.getD (1 / 2)) true) x y
  | .SI => basisK 1 (phiSI (p.location.getD 0) (p.slope.getD (1 / 2)) (p.width.getD 1) false) x y
  | .SIr => basisK 1 (phiSI (p.location.getD 0) (p.slope.getD (1 / 2)) (p.width.getD 1) true) x y

/-- The laws hold for real kernels. -/
theorem realShape_laws (x y : ℝ) : ShapeLaws (α := ℝ) id (realShape x y) := by
  refine ⟨rfl, fun _ _ => rfl, fun _ => rfl, ?_⟩
  intro b p q hb
  by_cases h : x = y
  · subst h
    rcases hb with rfl | rfl | rfl <;> simp [realShape]
  · simp [realShape, h]

/-- The covariance read off a fitted changepoint is that of the change kernel (`ChangeKernelBase.K`) of its two branches, so C41 is about the
kernels that are fitted. -/
theorem C41_changepoint_kernel (x y : ℝ) (loc slope : ℝ) (l r : PKE ℝ) :
    eval id (realShape x y) (.change .CP { location := some loc, slope := some slope } l r) =
      changeK (fun x y => eval id (realShape x y) l) (fun x y => eval id (realShape x y) r) (phiS loc slope false) (phiS loc slope true) x y := by
  simp [eval, changeK, basisK, termVal, varVal, realShape, firstWeight, secondWeight, PD.noVar]

/-- The same for changewindows. -/
theorem C41_changewindow_kernel (x y : ℝ) (loc slope width : ℝ) (l r : PKE ℝ) :
    eval id (realShape x y) (.change .CW { location := some loc, slope := some slope, width := some width } l r) =
      changeK (fun x y => eval id (realShape x y) l) (fun x y => eval id (realShape x y) r) (phiSI loc slope width false)
        (phiSI loc slope width true) x y := by
  simp [eval, changeK, basisK, termVal, varVal, realShape, firstWeight, secondWeight, PD.noVar]

/-- The formula for the product of two squared exponentials: `a l / sqrt (a² + l²)` is right. -/
theorem SE_formula (x y : ℝ) : SELaw (realShape x y) (fun a l => a * l / Real.sqrt (a ^ 2 + l ^ 2)) (fun a => 0 < a) := by
  refine ⟨?_, ?_⟩
  · intro a b ha hb; positivity
  · intro p q a b hp hq ha hb
    simp only [realShape, hp, hq, Option.getD_some]
    rw [← Real.exp_add]
    congr 1
    rw [div_pow, Real.sq_sqrt (by positivity)]
    field_simp
    ring

/-- `PER * (WN + C(1) + LIN)`-like fitted expression used as an example. -/
def exampleFit : PKE ℝ :=
  .change .CP { location := some 3 } (.comm .prod [(.PER, 1)] [(.PER, [{ period := some 2 }])] (some 5)
    [.comm .sum [(.WN, 1), (.LIN, 2)] [(.WN, [{ variance := some 7 }]), (.LIN, [{ variance := some 1, offset := some 2 }, { variance := some 2 }])] none []])
    (.leaf .C { variance := some 4 })

theorem exampleFit_fitted (P : ℝ → Prop) : Fitted P exampleFit := by
  simp only [exampleFit, Fitted, FittedL, asLeaf]
  refine ⟨trivial, ⟨⟨rfl, by decide, by simp, by simp [Base.isSigmoid], by simp⟩, by simp, by simp, by simp, ⟨trivial, ⟨rfl, by decide, by simp, by simp [Base.isSigmoid], by simp⟩, trivial, trivial⟩, trivial⟩, rfl, by simp⟩

theorem exampleFit_own : OwnTerms exampleFit := by simp [exampleFit, OwnTerms, OwnTermsL]

/-- The hypotheses are met by a change point with a product of a sum on one side. -/
example (x y : ℝ) : ∃ k', sops (fun a _ => a) Cfg.default exampleFit = .ok k' ∧
    eval id (realShape x y) k' = eval id (realShape x y) exampleFit := by
  refine C41_partial id _ (realShape_laws x y) _ (fun _ => True) (fun _ _ _ _ => trivial) _ _ rfl (exampleFit_fitted _) exampleFit_own ?_ ?_
  · have e : (comps exampleFit).map (fun c => (c.count .WN, c.count .LIN)) = [(0, 1), (0, 1), (1, 0), (0, 0)] := rfl
    intro c hc
    have := List.mem_map_of_mem (f := fun c : Comp ℝ => (c.count .WN, c.count .LIN)) hc
    rw [e] at this
    simp at this
    omega
  · have e : (comps exampleFit).map (fun c => c.count .SE) = [0, 0, 0, 0] := rfl
    intro c hc
    have := List.mem_map_of_mem (f := fun c : Comp ℝ => c.count .SE) hc
    rw [e] at this
    simp at this
    left; omega

/-- C41 is false when noise multiplies `LIN` below a change operator or another sum: `simplify_base_terms_params`
(`commutatives.py:93-95`) deletes the parameters of `LIN`. Here `CP(WN * LIN, C)`. -/
theorem C41_noise_lin : ∃ (shape : Base → PD Int → Int) (k k' : PKE Int), ShapeLaws id shape ∧ Fitted (fun _ => True) k ∧ OwnTerms k ∧
    sops (fun a _ => a) Cfg.default k = .ok k' ∧ eval id shape k = 3 ∧ eval id shape k' = 2 := by
  refine ⟨fun b _ => if b = .LIN then 2 else 1,
    .change .CP {} (.comm .prod [(.WN, 1), (.LIN, 1)] [(.WN, [{}]), (.LIN, [{}])] (some 1) []) (.leaf .C { variance := some 1 }), _, ?_, ?_, ?_, rfl, ?_, ?_⟩
  · refine ⟨rfl, fun _ _ => rfl, fun _ => rfl, ?_⟩
    rintro b p q (rfl | rfl | rfl) <;> rfl
  · simp only [Fitted, FittedL]
    refine ⟨trivial, ⟨⟨rfl, by decide, by simp, by simp [Base.isSigmoid], by simp⟩, by simp, by simp, fun _ b => by cases b <;> rfl, trivial⟩, rfl, by simp⟩
  · simp [OwnTerms, OwnTermsL]
  · simp [eval, evalProd, termVal, varVal, firstWeight, secondWeight]
  · rfl

/-- C41 is false when `SE` multiplies `SE`: the formula `(a + l) / sqrt (a² + l²)` of `commutatives.py:100` is not the lengthscale
of the product. Here `SE * (SE + LIN)` with lengthscales one, at the inputs 0 and 1: the covariance of the product of the two
`SE` is `e⁻¹`, that of the form is `e^(-1/4)`. -/
theorem C41_se : ∃ (k k' : PKE ℝ), Fitted (fun a => 0 < a) k ∧ OwnTerms k ∧
    sops (fun a l => (a + l) / Real.sqrt (a ^ 2 + l ^ 2)) Cfg.default k = .ok k' ∧
    eval id (realShape 0 1) k = Real.exp (-1) ∧ eval id (realShape 0 1) k' = Real.exp (-1 / 4) ∧ Real.exp (-1) ≠ Real.exp (-1 / 4) := by
  refine ⟨.comm .prod [(.SE, 1)] [(.SE, [{ lengthscale := some 1 }])] (some 1)
    [.comm .sum [(.SE, 1), (.LIN, 1)] [(.SE, [{ variance := some 1, lengthscale := some 1 }]), (.LIN, [{ variance := some 1 }])] none []],
    .comm .sum [] [] none [.comm .prod _ [(.SE, [{ lengthscale := some 1 }]), (.LIN, [{}])] (some _) [],
      .comm .prod _ [(.SE, [{ lengthscale := some ((1 + 1) / Real.sqrt (1 ^ 2 + 1 ^ 2)) }])] (some (1 * 1 * (1 * 1))) []], ?_, ?_, rfl, ?_, ?_, ?_⟩
  · simp only [Fitted, FittedL, asLeaf]
    refine ⟨⟨rfl, by decide, by simp, by simp [Base.isSigmoid], by simp⟩, by simp, by simp, by simp, ⟨trivial, ⟨rfl, by decide, by simp, by simp [Base.isSigmoid], by simp⟩, trivial, trivial⟩, trivial⟩
  · simp [OwnTerms, OwnTermsL]
  · simp only [eval, evalProd, evalSum, varVal]
    simp [termVal, realShape, varVal, PD.noVar]
    rw [← Real.exp_add]; norm_num
  · simp only [eval, evalProd, evalSum, varVal]
    simp [termVal, realShape, varVal, PD.noVar]
    norm_num
  · intro h
    have := Real.exp_injective h
    norm_num at this

/-! ## C42: every fitted expression has a form -/

/-- C42, partial. A fitted expression all of whose sums and products have base terms of their own has a sum-of-products form
(`interpret` gets past it; the sentences are C47). Left out: `C42_raises`. -/
theorem C42_partial (comb : α → α → α) (cfg : Cfg) (k : PKE α) (hk : asLeaf k = none) (hf : Fitted (fun _ => True) k) (ho : OwnTerms k) :
    ∃ k', sops comb cfg k = .ok k' := by
  obtain ⟨k', h, _⟩ := sops_ok (R := Int) (φ := fun _ => 1) (shape := fun _ _ => 1) (fun _ _ _ _ => trivial) cfg k hk hf ho
  exact ⟨k', h⟩

example : ∃ k', sops (fun a _ => a) Cfg.default exampleFit = .ok k' :=
  C42_partial _ _ _ rfl (exampleFit_fitted _) exampleFit_own

/-- All other fitted expressions raise `AssertionError`: the test `assert self.parameters` takes a node without base terms for
one without parameters. -/
theorem C42_raises (comb : α → α → α) (cfg : Cfg) (k : PKE α) (hk : asLeaf k = none) (hf : Fitted (fun _ => True) k) (ho : ¬ OwnTerms k) :
    sops comb cfg k = .error .assertion :=
  sops_raises (fun _ _ _ _ => trivial) cfg k hk hf ho

/-- `(LIN * PER) + (LIN * LIN)` -/
def exampleBare : PKE Int :=
  .comm .sum [] [] none [.comm .prod [(.LIN, 1), (.PER, 1)] [(.LIN, [{}]), (.PER, [{}])] (some 1) [],
    .comm .prod [(.LIN, 2)] [(.LIN, [{}, {}])] (some 1) []]

/-- C42 is false: `(LIN * PER) + (LIN * LIN)`, an expression without anything unusual, cannot be interpreted. -/
theorem C42_witness : Fitted (fun _ => True) exampleBare ∧ sops (fun a _ => a) Cfg.default exampleBare = .error .assertion := by
  refine ⟨?_, rfl⟩
  simp only [exampleBare, Fitted, FittedL, asLeaf]
  refine ⟨⟨rfl, by decide, by simp, by simp, by simp⟩, trivial, ⟨trivial, ⟨rfl, by decide, by simp, by simp [Base.isSigmoid], by simp⟩, by simp, by simp, fun _ b => by cases b <;> rfl, trivial⟩, ⟨trivial, ⟨rfl, by decide, by simp, by simp [Base.isSigmoid], by simp⟩, by simp, by simp, fun _ b => by cases b <;> rfl, trivial⟩, trivial⟩

/-! ## C43: shape and number of components -/

/-- C43. A form that is produced is a sum without base terms and parameters, all of whose terms are products without composite
terms; their number is one for a base kernel or a product of base kernels, added over the terms of a sum and the branches of a
change operator, multiplied over the factors of a product. -/
theorem C43_shape (comb : α → α → α) (cfg : Cfg) (k k' : PKE α) (hk : asLeaf k = none) (hf : Fitted (fun _ => True) k)
    (h : sops comb cfg k = .ok k') :
    ∃ cts, k' = .comm .sum [] [] none cts ∧ (∀ t ∈ cts, ∃ bts ps pv, t = .comm .prod bts ps (some pv) [] ∧ ps ≠ []) ∧ cts.length = count k := by
  have ho : OwnTerms k := by
    by_contra hn; rw [C42_raises comb cfg k hk hf hn] at h; cases h
  obtain ⟨k'', h1, cts, rfl, h2⟩ := sops_ok (R := Int) (φ := fun _ => 1) (shape := fun _ _ => 1) (fun _ _ _ _ => trivial) cfg k hk hf ho
  rw [h1] at h; cases h
  refine ⟨cts, rfl, ?_, ?_⟩
  · intro t ht
    clear h1
    generalize comps k = cs at h2
    induction h2 with
    | nil => simp at ht
    | cons h3 _ ih =>
      rcases List.mem_cons.1 ht with rfl | ht
      · obtain ⟨⟨bts, ps, pv⟩, rfl, h4, h5⟩ := h3
        obtain ⟨v, hv⟩ := Option.isSome_iff_exists.1 h5.1
        simp only at hv; subst hv
        refine ⟨bts, ps, v, rfl, ?_⟩
        rintro rfl
        obtain ⟨b, _, hb⟩ := h5.2
        simp [PDict.get] at hb
      · exact ih ht
  · rw [← h2.length_eq, length_comps k hf]

example : count exampleFit = 4 := by simp [exampleFit, count, countProd, countSum, Counter.elements]

example : ∃ k', sops (fun a _ => a) Cfg.default exampleFit = .ok k' ∧
    ∃ cts, k' = .comm .sum [] [] none cts ∧ (∀ t ∈ cts, ∃ bts ps pv, t = .comm .prod bts ps (some pv) [] ∧ ps ≠ []) ∧ cts.length = count exampleFit := by
  obtain ⟨k', h⟩ := C42_partial (fun a _ => a) Cfg.default exampleFit rfl (exampleFit_fitted _) exampleFit_own
  exact ⟨k', h, C43_shape _ _ _ _ rfl (exampleFit_fitted _) h⟩

/-- C43, the base terms of the components: each is what is left of the factors of one choice of terms, and there is one
dictionary for each of them. Partial: not where noise meets `LIN` (`C43_lin_lost`). -/
theorem C43_bases_partial (comb : α → α → α) (cfg : Cfg) (k : PKE α) (cts : List (PKE α)) (hk : asLeaf k = none) (hf : Fitted (fun _ => True) k)
    (h : sops comb cfg k = .ok (.comm .sum [] [] none cts)) :
    List.Forall₂ (fun c t => ∃ bts ps pv, t = PKE.comm .prod bts ps (some pv) [] ∧
      (c.Clean → (∀ b, bts.get b = normal c.count b) ∧ Agrees bts ps)) (comps k) cts := by
  have ho : OwnTerms k := by
    by_contra hn; rw [C42_raises comb cfg k hk hf hn] at h; cases h
  obtain ⟨k'', h1, cts', rfl, h2⟩ := sops_ok (R := Int) (φ := fun _ => 1) (shape := fun _ _ => 1) (fun _ _ _ _ => trivial) cfg k hk hf ho
  rw [h1] at h; cases h
  refine h2.imp ?_
  rintro c t ⟨⟨bts, ps, pv⟩, rfl, h4, h5⟩
  obtain ⟨v, hv⟩ := Option.isSome_iff_exists.1 h5.1
  simp only at hv; subst hv
  refine ⟨bts, ps, v, rfl, fun hc => ⟨h4.bts hc, fun b => ?_⟩⟩
  split
  · next hb => subst hb; exact h4.inv.cW
  · next hb =>
    by_cases hL : b = .LIN
    · subst hL
      rcases hc with h0 | h0
      · exact h4.inv.cLeq (h4.noWN (Or.inl h0) h0)
      · have e1 := h4.noLIN (Or.inr h0) h0
        have e2 := h4.bts (Or.inr h0) .LIN
        rw [normal_LIN, h0] at e2
        simp only at e1 e2; rw [e1, e2]; rfl
    · exact h4.inv.cO b hb hL

/-- `CP(WN * LIN, C)` -/
def exampleLost : PKE Int :=
  .change .CP {} (.comm .prod [(.WN, 1), (.LIN, 1)] [(.WN, [{}]), (.LIN, [{}])] (some 1) []) (.leaf .C { variance := some 1 })

/-- Where noise meets `LIN`, the component keeps the base term and loses its parameters. -/
theorem C43_lin_lost : Fitted (fun _ => True) exampleLost ∧ ∃ bts ps pv r, sops (fun a _ => a) Cfg.default exampleLost =
    .ok (.comm .sum [] [] none (.comm .prod bts ps pv [] :: r)) ∧ bts.get .LIN = 1 ∧ ps.get .LIN = [] := by
  refine ⟨?_, _, _, _, _, rfl, rfl, rfl⟩
  simp only [exampleLost, Fitted, FittedL]
  refine ⟨trivial, ⟨⟨rfl, by decide, by simp, by simp [Base.isSigmoid], by simp⟩, by simp, by simp, fun _ b => by cases b <;> rfl, trivial⟩, rfl, by simp⟩

end GPyABCD
