import Verif.Props.KernelFam
import Verif.Props.Numeric
import Verif.Props.Ops
import Verif.Spec.Attain
import Verif.Lemmas.MemoryKeep
import Mathlib.Topology.Instances.Matrix
import Mathlib.Analysis.SpecialFunctions.Log.Basic

/-!
# Covariances that an expression can come as close to as wanted, and the likelihoods then
-/

namespace GPyABCD
open KE Kern Params Sops Filter Topology

/-- Members of a family come as close as wanted to a covariance, at all inputs. -/
def Tends (A : Fam) (f : Cov) : Prop := ∃ F : ℕ → Cov, (∀ m, F m ∈ A) ∧ ∀ x y, Tendsto (fun m => F m x y) atTop (𝓝 (f x y))

theorem logLik_cov {n : ℕ} (y : Fin n → ℝ) {M : ℕ → Matrix (Fin n) (Fin n) ℝ} {A : Matrix (Fin n) (Fin n) ℝ} (h : ∀ i j, Tendsto (fun m => M m i j) atTop (𝓝 (A i j)))
    (hA : A.det ≠ 0) : (∀ᶠ m in atTop, (M m).det ≠ 0) ∧
      Tendsto (fun m => 0.5 * (-n * Real.log (2 * Real.pi) - Real.log (M m).det - ∑ i, (M m)⁻¹.mulVec y i * y i)) atTop
        (𝓝 (0.5 * (-n * Real.log (2 * Real.pi) - Real.log A.det - ∑ i, A⁻¹.mulVec y i * y i))) := by
  have hM : Tendsto M atTop (𝓝 A) := tendsto_pi_nhds.2 fun i => tendsto_pi_nhds.2 fun j => h i j
  have hd : Tendsto (fun m => (M m).det) atTop (𝓝 A.det) := ((continuous_id.matrix_det).tendsto A).comp hM
  have ha : Tendsto (fun m => (M m).adjugate) atTop (𝓝 A.adjugate) := ((continuous_id.matrix_adjugate).tendsto A).comp hM
  have hi : Tendsto (fun m => (M m)⁻¹) atTop (𝓝 A⁻¹) := by
    simp only [Matrix.inv_def, Ring.inverse_eq_inv']
    exact (hd.inv₀ hA).smul ha
  refine ⟨hd.eventually_ne hA, ?_⟩
  refine Tendsto.const_mul _ ((tendsto_const_nhds.sub (hd.log hA)).sub ?_)
  refine tendsto_finsetSum _ fun i _ => Tendsto.mul_const _ ?_
  simp only [Matrix.mulVec, dotProduct]
  exact tendsto_finsetSum _ fun j _ => Tendsto.mul_const _ (tendsto_pi_nhds.1 (tendsto_pi_nhds.1 hi i) j)

/-- Where the covariances of an expression are limits of those of another, so are the likelihoods. -/
theorem attain_of_tends (cfg : Cfg) {k r : KE} (hk : ∀ b ∈ bases k, b.isSigmoid = false) (ek : noEmpty k = true) (hr : ∀ b ∈ bases r, b.isSigmoid = false)
    (er : noEmpty r = true) (h : ∀ f ∈ den (realI cfg posV) k, Tends (den (realI cfg posV) r) f) {n : ℕ} {X : Fin n → ℝ} (hX : Function.Injective X) (y : Fin n → ℝ) :
    Reaches cfg X y k r := by
  rintro g noise ⟨h1, h2⟩ hn hd ε hε
  obtain ⟨s, e1, e2⟩ := C84_covariances cfg k hk ek
  rw [h1] at e1
  injection e1 with e1
  have hg : CovOf cfg g (gcov cfg g) := covOf_iff.2 rfl
  obtain ⟨F, hF, hl⟩ := h _ ((e2 (gcov cfg g)).2 ⟨g, e1, h2, hg⟩)
  obtain ⟨s', e3, e4⟩ := C84_covariances cfg r hr er
  choose G hG using fun m => (e4 (F m)).1 (hF m)
  have hc : ∀ i j, Tendsto (fun m => covY cfg X (G m) noise i j) atTop (𝓝 (covY cfg X g noise i j)) := by
    intro i j
    simp only [covY, Matrix.add_apply, Matrix.of_apply, (hG _).2.2 n X hX, hg n X hX]
    exact (hl _ _).add_const _
  obtain ⟨c1, c2⟩ := logLik_cov y hc hd
  obtain ⟨m, m1, m2⟩ := (c1.and (c2.eventually (Metric.ball_mem_nhds _ hε))).exists
  refine ⟨G m, ⟨by rw [e3, (hG m).1], (hG m).2.1⟩, m1, ?_⟩
  rwa [Real.dist_eq] at m2

theorem den_nonempty (cfg : Cfg) {k : KE} (hk : ∀ b ∈ bases k, b.isSigmoid = false) (ek : noEmpty k = true) : (den (realI cfg posV) k).Nonempty := by
  obtain ⟨s, e1, e2⟩ := C84_covariances cfg k hk ek
  exact ⟨_, (e2 _).2 ⟨Memory.fill s, Memory.erase_fill s, Memory.adm_fill s, covOf_iff.2 rfl⟩⟩

theorem den_scalable (cfg : Cfg) {k : KE} (ek : noEmpty k = true) {f : Cov} (hf : f ∈ den (realI cfg posV) k) {v : ℝ} (hv : 0 < v) :
    (fun x y => v * f x y) ∈ den (realI cfg posV) k := by
  have hI : Laws (realI cfg posV) := realLaws varSet_pos
  have := closed_den' hI k
  rw [← den_eq_den' hI k ek, const_mul_eq varSet_pos] at this
  exact this f hf v hv

theorem inv_succ : Tendsto (fun m : ℕ => 1 / ((m : ℝ) + 1)) atTop (𝓝 0) := tendsto_one_div_add_atTop_nhds_zero_nat

theorem tends_add (cfg : Cfg) {A : Fam} {k : KE} (hk : ∀ b ∈ bases k, b.isSigmoid = false) (ek : noEmpty k = true) {f : Cov} (hf : f ∈ A) :
    Tends {h | ∃ f1 ∈ A, ∃ f2 ∈ den (realI cfg posV) k, h = fun x y => f1 x y + f2 x y} f := by
  obtain ⟨u, hu⟩ := den_nonempty cfg hk ek
  refine ⟨fun m x y => f x y + 1 / ((m : ℝ) + 1) * u x y, fun m => ⟨f, hf, _, den_scalable cfg ek hu (v := 1 / ((m : ℝ) + 1)) (by positivity), rfl⟩, fun x y => ?_⟩
  simpa using (inv_succ.mul_const (u x y)).const_add (f x y)

/-- Base kernels that can be as close to the constant 1 as wanted. -/
theorem tends_one (cfg : Cfg) {b : Base} (hs : b.isSigmoid = false) (hw : b ≠ .WN) (hl : b = .LIN → cfg.linOffset = true) : Tends (realF cfg posV b) fun _ _ => 1 := by
  have z := inv_succ
  cases b with
  | WN => exact absurd rfl hw
  | S => cases hs
  | Sr => cases hs
  | SI => cases hs
  | SIr => cases hs
  | C => exact ⟨fun _ => bias 1, fun _ => ⟨1, mem_posV.2 one_pos, rfl⟩, fun _ _ => tendsto_const_nhds⟩
  | LIN =>
    refine ⟨fun m => linearOffset ((1 / ((m : ℝ) + 1)) ^ 2) (-((m : ℝ) + 1)), fun m => ⟨_, (by rw [mem_posV]; positivity), _, fun h => by simp [hl rfl] at h, rfl⟩, fun x y => ?_⟩
    have : Tendsto (fun m : ℕ => (1 / ((m : ℝ) + 1) * x + 1) * (1 / ((m : ℝ) + 1) * y + 1)) atTop (𝓝 ((0 * x + 1) * (0 * y + 1))) :=
      ((z.mul_const x).add_const 1).mul ((z.mul_const y).add_const 1)
    simp only [zero_mul, zero_add, mul_one] at this
    refine this.congr fun m => ?_
    have : (m : ℝ) + 1 ≠ 0 := by positivity
    simp only [linearOffset]
    field_simp
    ring
  | SE =>
    refine ⟨fun m => rbf 1 ((m : ℝ) + 1), fun m => ⟨1, mem_posV.2 one_pos, _, (by positivity), rfl⟩, fun x y => ?_⟩
    have h2 : Tendsto (fun m : ℕ => -((1 / ((m : ℝ) + 1)) * (x - y)) ^ 2 / 2) atTop (𝓝 (-(0 * (x - y)) ^ 2 / 2)) := (((z.mul_const (x - y)).pow 2).neg).div_const 2
    have := ((Real.continuous_exp.tendsto _).comp h2).const_mul 1
    simp only [Function.comp_def] at this
    norm_num at this
    refine this.congr fun m => ?_
    simp only [rbf, one_mul, div_eq_mul_inv]
    congr 1
    ring
  | PER =>
    refine ⟨fun m => per 1 ((m : ℝ) + 1) 20000, fun m => ⟨1, mem_posV.2 one_pos, _, _, (by positivity), by norm_num, rfl⟩, fun x y => ?_⟩
    have h2 : Tendsto (fun m : ℕ => (2 * Real.pi) * (1 / ((m : ℝ) + 1)) * (x - y)) atTop (𝓝 ((2 * Real.pi) * 0 * (x - y))) := ((z.const_mul _).mul_const _)
    have := (Real.continuous_cos.tendsto _).comp h2
    simp only [Function.comp_def, mul_zero, zero_mul, Real.cos_zero] at this
    refine this.congr fun m => ?_
    have h3 : (20000 : ℝ) > 10000 := by norm_num
    simp only [per, perCore, if_pos h3, one_mul]
    congr 1
    ring

theorem tends_mul {A B : Fam} {f : Cov} (hf : f ∈ A) (hB : Tends B fun _ _ => 1) : Tends {h | ∃ f1 ∈ A, ∃ f2 ∈ B, h = fun x y => f1 x y * f2 x y} f := by
  obtain ⟨F, h1, h2⟩ := hB
  refine ⟨fun m x y => f x y * F m x y, fun m => ⟨f, hf, _, h1 m, rfl⟩, fun x y => ?_⟩
  simpa using (h2 x y).const_mul (f x y)

theorem tends_change {cfg : Cfg} {c : CC} {A B : Fam} {f u : Cov} (first : Bool) (P : ℕ → (ℝ → ℝ) × (ℝ → ℝ)) (hP : ∀ m, P m ∈ basisOf cfg c)
    (h1 : ∀ x, Tendsto (fun m => (P m).1 x) atTop (𝓝 (if first then 0 else 1))) (h2 : ∀ x, Tendsto (fun m => (P m).2 x) atTop (𝓝 (if first then 1 else 0)))
    (hf : f ∈ if first then A else B) (hu : u ∈ if first then B else A) : Tends (chgFam cfg c A B) f := by
  refine ⟨fun m => changeK (if first then f else u) (if first then u else f) (P m).1 (P m).2, fun m => ⟨_, ?_, _, ?_, P m, hP m, rfl⟩, fun x y => ?_⟩
  · cases first <;> assumption
  · cases first <;> assumption
  · have := (((h2 x).mul (h2 y)).const_mul 1).const_mul ((if first then f else u) x y) |>.add ((((h1 x).mul (h1 y)).const_mul 1).const_mul ((if first then u else f) x y))
    simp only [changeK, basisK]
    have e : (if first then f else u) x y * (1 * ((if first then 1 else 0) * (if first then 1 else 0))) + (if first then u else f) x y * (1 * ((if first then 0 else 1) * (if first then 0 else 1))) = f x y := by
      cases first <;> simp
    rw [e] at this
    exact this

theorem core_top : Tendsto core atTop (𝓝 1) := by
  have hinv : Tendsto (fun a : ℝ => (1 + a)⁻¹) atTop (𝓝 0) := Tendsto.comp tendsto_inv_atTop_zero (tendsto_atTop_add_const_left _ _ tendsto_id)
  have : Tendsto (fun a : ℝ => 1 - (1 + a)⁻¹) atTop (𝓝 (1 - 0)) := hinv.const_sub 1
  rw [sub_zero] at this
  refine this.congr' ?_
  filter_upwards [eventually_ge_atTop 0] with a ha
  rw [core_of_nonneg ha]
  have : 1 + a ≠ 0 := by linarith
  field_simp
  ring

theorem core_bot : Tendsto core atBot (𝓝 (-1)) := (core_top.comp tendsto_neg_atBot_atTop).neg.congr fun a => by simp [core_neg]

theorem sigmoid_top : Tendsto sigmoid atTop (𝓝 1) := by
  have := (core_top.const_add 1).div_const 2
  norm_num at this
  exact this.congr fun a => by rw [sigmoid_eq]

theorem sigmoid_bot : Tendsto sigmoid atBot (𝓝 0) := by
  have := (core_bot.const_add 1).div_const 2
  norm_num at this
  exact this.congr fun a => by rw [sigmoid_eq]

/-- Away from all data the change can be put so that only the first, or only the second, branch counts. -/
theorem change_away (cfg : Cfg) (c : CC) (first : Bool) : ∃ P : ℕ → (ℝ → ℝ) × (ℝ → ℝ), (∀ m, P m ∈ basisOf cfg c) ∧
    (∀ x, Tendsto (fun m => (P m).1 x) atTop (𝓝 (if first then 0 else 1))) ∧ ∀ x, Tendsto (fun m => (P m).2 x) atTop (𝓝 (if first then 1 else 0)) := by
  have hN : Tendsto (fun m : ℕ => (m : ℝ) + 1) atTop atTop := tendsto_atTop_add_const_right _ _ tendsto_natCast_atTop_atTop
  have up : ∀ (x : ℝ) {a : ℝ}, 0 < a → Tendsto (fun m : ℕ => (x + a * ((m : ℝ) + 1)) / 0.5) atTop atTop := fun x a ha =>
    (tendsto_atTop_add_const_left _ x (hN.const_mul_atTop ha)).atTop_div_const (by norm_num)
  have dn : ∀ (x : ℝ) {a : ℝ}, 0 < a → Tendsto (fun m : ℕ => (x - a * ((m : ℝ) + 1)) / 0.5) atTop atBot := fun x a ha => by
    have := tendsto_neg_atTop_atBot.comp (up (-x) ha)
    exact this.congr fun m => by simp only [Function.comp_apply]; ring
  cases c with
  | CP =>
    cases first with
    | true =>
      have h : ∀ x, Tendsto (fun m : ℕ => phiS ((m : ℝ) + 1) 0.5 false x) atTop (𝓝 0) := fun x =>
        (sigmoid_bot.comp (dn x one_pos)).congr fun m => by simp [phiS]
      refine ⟨fun m => (phiS ((m : ℝ) + 1) 0.5 false, phiS ((m : ℝ) + 1) 0.5 true), fun m => ⟨_, 0.5, by norm_num, fun _ => rfl, rfl⟩, h, fun x => ?_⟩
      have := (h x).const_sub 1
      simpa [phiS] using this
    | false =>
      have h : ∀ x, Tendsto (fun m : ℕ => phiS (-((m : ℝ) + 1)) 0.5 false x) atTop (𝓝 1) := fun x =>
        (sigmoid_top.comp (up x one_pos)).congr fun m => by simp only [Function.comp_apply, phiS, one_mul, sub_neg_eq_add]; rfl
      refine ⟨fun m => (phiS (-((m : ℝ) + 1)) 0.5 false, phiS (-((m : ℝ) + 1)) 0.5 true), fun m => ⟨_, 0.5, by norm_num, fun _ => rfl, rfl⟩, h, fun x => ?_⟩
      have := (h x).const_sub 1
      simpa [phiS] using this
  | CW =>
    cases first with
    | true =>
      have h : ∀ x, Tendsto (fun m : ℕ => phiSI ((m : ℝ) + 1) 0.5 1 false x) atTop (𝓝 0) := fun x => by
        have a1 := sigmoid_bot.comp (dn x one_pos)
        have a2 := sigmoid_top.comp (up (1 - x) one_pos)
        have := ((a1.add a2).sub_const 1).div_const (core (1 / (2 * 0.5)))
        norm_num at this
        refine this.congr fun m => ?_
        simp only [phiSI, Bool.false_eq_true, if_false]
        norm_num
        congr 4 <;> ring
      refine ⟨fun m => (phiSI ((m : ℝ) + 1) 0.5 1 false, phiSI ((m : ℝ) + 1) 0.5 1 true), fun m => ⟨_, 0.5, 1, by norm_num, fun _ => rfl, one_pos, rfl⟩, h, fun x => ?_⟩
      have := (h x).const_sub 1
      simpa [phiSI] using this
    | false =>
      have h : ∀ x, Tendsto (fun m : ℕ => phiSI (-(1 * ((m : ℝ) + 1))) 0.5 (2 * ((m : ℝ) + 1)) false x) atTop (𝓝 1) := fun x => by
        have a1 := sigmoid_top.comp (up x one_pos)
        have a2 := sigmoid_top.comp (up (-x) one_pos)
        have a3 : Tendsto (fun m : ℕ => core (2 * ((m : ℝ) + 1) / (2 * 0.5))) atTop (𝓝 1) :=
          core_top.comp ((hN.const_mul_atTop two_pos).atTop_div_const (by norm_num))
        have := ((a1.add a2).sub_const 1).div a3 one_ne_zero
        norm_num at this
        refine this.congr fun m => ?_
        simp only [phiSI, Bool.false_eq_true, if_false]
        norm_num
        congr 4 <;> ring
      refine ⟨fun m => (phiSI (-(1 * ((m : ℝ) + 1))) 0.5 (2 * ((m : ℝ) + 1)) false, phiSI (-(1 * ((m : ℝ) + 1))) 0.5 (2 * ((m : ℝ) + 1)) true),
        fun m => ⟨_, 0.5, _, by norm_num, fun _ => rfl, by positivity, rfl⟩, h, fun x => ?_⟩
      have := (h x).const_sub 1
      simpa [phiSI] using this

end GPyABCD
