import Verif.Lemmas.KernelFam
import Verif.Lemmas.KernelCross
import Verif.Props.KernelTree
import Verif.Props.Sem
import Mathlib.LinearAlgebra.Matrix.PosDef
import Mathlib.Data.Matrix.Block

/-!
# Properties C84, C85: kernels take on the covariances of their expressions; cross-covariances
-/

namespace GPyABCD
open Kern Params Sops KE

/-! ## C84 -/

/-- C84. The kernel object made from an expression can be given, by values of its linked parameters, exactly the covariance functions the expression stands
for: `den` (`Spec/Sem.lean`), of which the simplifier's correctness is stated, is about the matrices `K(X)` that the fit computes. -/
theorem C84_covariances (cfg : Cfg) (k : KE) (hs : ∀ b ∈ bases k, b.isSigmoid = false) (he : noEmpty k = true) :
    ∃ s, toKernel cfg k = .ok s ∧ ∀ f, f ∈ den (realI cfg posV) k ↔ ∃ g : GK ℝ, erase g = s ∧ Adm g ∧ CovOf cfg g f := by
  obtain ⟨s, h1, h2⟩ := kernel_vals cfg k hs he
  refine ⟨s, h1, fun f => ?_⟩
  rw [← h2]
  exact exists_congr fun g => and_congr_right fun _ => and_congr_right fun _ => covOf_iff.symm

/-- A nested case with a change operator: `LIN * PER + CW(C, WN)`. -/
example : ∃ s, toKernel .default (comm .sum [] [comm .prod [(.LIN, 1), (.PER, 1)] [], change .CW (base .C) (base .WN)]) = .ok s ∧
    ∀ f, f ∈ den (realI .default posV) (comm .sum [] [comm .prod [(.LIN, 1), (.PER, 1)] [], change .CW (base .C) (base .WN)]) ↔
      ∃ g : GK ℝ, erase g = s ∧ Adm g ∧ CovOf .default g f :=
  C84_covariances .default _ (by decide) (by decide)

/-- C84. Every kernel with values has one covariance function. -/
theorem C84_one_covariance (cfg : Cfg) (g : GK ℝ) : ∃! f, CovOf cfg g f :=
  ⟨gcov cfg g, covOf_iff.2 rfl, fun _ h => (covOf_iff.1 h).symm⟩

/-- C84 and C02. Before and after simplification the kernel objects can be fitted to the same covariances. -/
theorem C84_simplified_partial (cfg : Cfg) (k : KE) (hw : wf k = true) (hs : ∀ b ∈ bases k, b.isSigmoid = false) (he : noEmpty k = true)
    (he' : noEmpty (simplify cfg k) = true) (h : cfg.linOffset = false ∨ Base.C ∉ bases k ∨ Base.LIN ∉ bases k) :
    ∃ s s', toKernel cfg k = .ok s ∧ toKernel cfg (simplify cfg k) = .ok s' ∧
      ∀ f, (∃ g : GK ℝ, erase g = s ∧ Adm g ∧ CovOf cfg g f) ↔ ∃ g : GK ℝ, erase g = s' ∧ Adm g ∧ CovOf cfg g f := by
  obtain ⟨s, h1, h2⟩ := C84_covariances cfg k hs he
  obtain ⟨s', h3, h4⟩ := C84_covariances cfg (simplify cfg k) (fun b hb => hs b ((bases_simplify cfg k hw).subset hb)) he'
  exact ⟨s, s', h1, h3, fun f => by rw [← h2, ← h4, C02_family_partial cfg k hw he he' h]⟩

/-- `WN * SE + WN` becomes `WN`. -/
example : ∃ s s', toKernel .default (comm .sum [(.WN, 1)] [comm .prod [(.WN, 1), (.SE, 1)] []]) = .ok s ∧
    toKernel .default (simplify .default (comm .sum [(.WN, 1)] [comm .prod [(.WN, 1), (.SE, 1)] []])) = .ok s' ∧
      ∀ f, (∃ g : GK ℝ, erase g = s ∧ Adm g ∧ CovOf .default g f) ↔ ∃ g : GK ℝ, erase g = s' ∧ Adm g ∧ CovOf .default g f :=
  C84_simplified_partial .default _ (by decide) (by decide) (by decide) (by decide) (Or.inr (Or.inl (by decide)))

/-- C84, why the points have to be different: noise is by index, so with a repeated input no function of the inputs gives the matrix. -/
theorem C84_repeated_inputs : ∃ (g : GK ℝ) (X : Fin 2 → ℝ), Adm g ∧ ¬ ∃ f : Cov, ∀ i j, kerK .default X g i j = f (X i) (X j) := by
  refine ⟨.base .WN { variance := some 1 }, fun _ => 0, by simp [Adm, AdmPD], ?_⟩
  rintro ⟨f, hf⟩
  have h1 := hf 0 0
  have h2 := hf 0 1
  simp [kerK, baseK, varOf] at h1 h2
  rw [← h1] at h2
  norm_num at h2

/-! ## C85 -/

/-- C85. The order of the data points does not matter, nor does adding points: the matrix of some of the points, in any order, has the entries of the matrix
of all of them. -/
theorem C85_points (cfg : Cfg) {n m : ℕ} (X : Fin n → ℝ) (e : Fin m → Fin n) (he : Function.Injective e) (g : GK ℝ) (i j : Fin m) :
    kerK cfg (fun a => X (e a)) g i j = kerK cfg X g (e i) (e j) :=
  kerK_comp cfg X he i j g

/-- C85. `K(X, X2)` is the block of `K` of all points together, for every kernel and all points, repeated ones and points in both sets too. -/
theorem C85_block (cfg : Cfg) {n m : ℕ} (X : Fin n → ℝ) (Y : Fin m → ℝ) (g : GK ℝ) (i : Fin n) (j : Fin m) :
    kerK2 cfg X Y g i j = kerK cfg (Fin.append X Y) g (Fin.castAdd m i) (Fin.natAdd n j) := by
  have h := kerK2_comp cfg (Fin.append X Y) (Fin.castAdd m) (Fin.natAdd n) (i := i) (j := j)
    (by intro h; have := congrArg Fin.val h; simp at this; omega) g
  have h1 : Fin.append X Y ∘ Fin.castAdd m = X := by funext a; simp
  have h2 : Fin.append X Y ∘ Fin.natAdd n = Y := by funext a; simp
  rwa [h1, h2] at h

/-- C85. The diagonal blocks are the matrices of the two sets. -/
theorem C85_diagonal_blocks (cfg : Cfg) {n m : ℕ} (X : Fin n → ℝ) (Y : Fin m → ℝ) (g : GK ℝ) :
    (∀ i j, kerK cfg X g i j = kerK cfg (Fin.append X Y) g (Fin.castAdd m i) (Fin.castAdd m j)) ∧
      ∀ i j, kerK cfg Y g i j = kerK cfg (Fin.append X Y) g (Fin.natAdd n i) (Fin.natAdd n j) := by
  have h1 : Fin.append X Y ∘ Fin.castAdd m = X := by funext a; simp
  have h2 : Fin.append X Y ∘ Fin.natAdd n = Y := by funext a; simp
  constructor
  · intro i j
    have := kerK_comp cfg (Fin.append X Y) (e := Fin.castAdd m) (Fin.castAdd_injective n m) i j g
    rwa [h1] at this
  · intro i j
    have := kerK_comp cfg (Fin.append X Y) (e := Fin.natAdd n) (Fin.natAdd_injective m n) i j g
    rwa [h2] at this

/-- C85. Swapping the two sets transposes. -/
theorem C85_transpose (cfg : Cfg) {n m : ℕ} (X : Fin n → ℝ) (Y : Fin m → ℝ) (g : GK ℝ) (i : Fin n) (j : Fin m) :
    kerK2 cfg Y X g j i = kerK2 cfg X Y g i j := by
  have h := kerK2_comp cfg (Fin.append X Y) (Fin.natAdd n) (Fin.castAdd m) (i := j) (j := i)
    (by intro h; have := congrArg Fin.val h; simp at this; omega) g
  have h1 : Fin.append X Y ∘ Fin.castAdd m = X := by funext a; simp
  have h2 : Fin.append X Y ∘ Fin.natAdd n = Y := by funext a; simp
  rw [h1, h2] at h
  rw [h, C85_block]
  exact kerK_symm cfg _ g _ _

/-- C85. Away from the data, cross-covariances are values of the kernel's covariance function. -/
theorem C85_values (cfg : Cfg) {n m : ℕ} (X : Fin n → ℝ) (Y : Fin m → ℝ) (g : GK ℝ) (f : Cov) (hf : CovOf cfg g f) (i : Fin n) (j : Fin m) (h : X i ≠ Y j) :
    kerK2 cfg X Y g i j = f (X i) (Y j) := by
  have hX : Function.Injective ![X i, Y j] := by
    intro a b hab
    fin_cases a <;> fin_cases b <;> simp_all
  have h1 := hf 2 ![X i, Y j] hX 0 1
  have he : Function.Injective ![Fin.castAdd m i, Fin.natAdd n j] := by
    intro a b hab
    fin_cases a <;> fin_cases b <;> simp_all [Fin.ext_iff] <;> omega
  have h2 := C85_points cfg (Fin.append X Y) ![Fin.castAdd m i, Fin.natAdd n j] he g 0 1
  rw [C85_block]
  refine Eq.trans h2.symm (Eq.trans ?_ h1)
  congr 1
  funext a
  fin_cases a <;> simp

/-- C85. Without noise in the kernel, giving the points a second time makes no difference. -/
theorem C85_same_points (cfg : Cfg) {n : ℕ} (X : Fin n → ℝ) (g : GK ℝ) (h : NoWN g) (i j : Fin n) : kerK2 cfg X X g i j = kerK cfg X g i j :=
  kerK2_self cfg X i j g h

example : NoWN (.comb .sum [.base .LIN { variance := some 1 }, .change .CP { location := some 1 } (.base .PER {}) (.base .C {})]) := by simp [NoWN, NoWNL]

/-- C85, with noise it does: the noise is not part of the cross-covariance of a point with itself. -/
theorem C85_same_points_noise : ∃ (g : GK ℝ) (X : Fin 1 → ℝ), Adm g ∧ kerK2 .default X X g 0 0 ≠ kerK .default X g 0 0 :=
  ⟨.base .WN { variance := some 1 }, fun _ => 0, by simp [Adm, AdmPD], by simp [kerK2, baseK2, kerK, baseK, varOf]⟩

/-- C85 (partial: exact lengthscales, as in `C79_positive_partial`). Predicted variances and covariances at any new inputs are those of a random vector, and
observing never makes the prediction less certain than before. -/
theorem C85_predictions_partial (cfg : Cfg) {n m : ℕ} (X : Fin n → ℝ) (Y : Fin m → ℝ) (g : GK ℝ) (hg : Exact g) {noise : ℝ} (hn : 0 < noise) :
    (predCov cfg X Y g noise).PosSemidef ∧ (Matrix.of (kerK cfg Y g) - predCov cfg X Y g noise).PosSemidef := by
  obtain ⟨hA, hu⟩ := C79_regression_partial cfg X g hg hn
  have hi : Invertible (Matrix.of (kerK cfg X g) + noise • (1 : Matrix (Fin n) (Fin n) ℝ)) := hu.invertible
  set B : Matrix (Fin n) (Fin m) ℝ := Matrix.of (kerK2 cfg X Y g) with hB
  have ht : B.conjTranspose = B.transpose := by ext i j; simp
  constructor
  · rw [predCov, ← hB, ← ht]
    rw [← Matrix.PosDef.fromBlocks₁₁ B _ hA]
    have hj := (C79_positive_partial cfg (Fin.append X Y) g hg).submatrix (finSumFinEquiv : Fin n ⊕ Fin m ≃ Fin (n + m))
    have hd : (Matrix.fromBlocks (noise • (1 : Matrix (Fin n) (Fin n) ℝ)) 0 0 (0 : Matrix (Fin m) (Fin m) ℝ)).PosSemidef := by
      have : Matrix.fromBlocks (noise • (1 : Matrix (Fin n) (Fin n) ℝ)) 0 0 (0 : Matrix (Fin m) (Fin m) ℝ) =
          Matrix.diagonal (Sum.elim (fun _ => noise) (fun _ => 0)) := by
        ext i j
        rcases i with i | i <;> rcases j with j | j <;> simp [Matrix.diagonal_apply, Matrix.one_apply]
      rw [this]
      refine Matrix.PosSemidef.diagonal fun i => ?_
      cases i
      · exact hn.le
      · exact le_refl _
    have e : Matrix.fromBlocks (Matrix.of (kerK cfg X g) + noise • (1 : Matrix (Fin n) (Fin n) ℝ)) B B.conjTranspose (Matrix.of (kerK cfg Y g)) =
        (Matrix.of (kerK cfg (Fin.append X Y) g)).submatrix finSumFinEquiv finSumFinEquiv +
          Matrix.fromBlocks (noise • (1 : Matrix (Fin n) (Fin n) ℝ)) 0 0 (0 : Matrix (Fin m) (Fin m) ℝ) := by
      obtain ⟨h1, h2⟩ := C85_diagonal_blocks cfg X Y g
      ext i j
      rcases i with i | i <;> rcases j with j | j
      · simp [h1]
      · simp [hB, C85_block]
      · simp [hB, C85_block]
        exact kerK_symm cfg _ g _ _
      · simp [h2]
    rw [e]
    exact hj.add hd
  · rw [predCov, sub_sub_cancel, ← hB, ← ht]
    exact hA.inv.posSemidef.conjTranspose_mul_mul_same B

/-- A kernel that meets the hypothesis. -/
example : Exact (.comb .sum [.base .LIN { variance := some 2, offset := some 1 }, .change .CP { location := some 1 } (.base .PER { lengthscale := some 1 }) (.base .C {})]) := by
  simp [Exact, ExactL]; norm_num

end GPyABCD
