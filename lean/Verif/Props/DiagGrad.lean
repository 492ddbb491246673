import Verif.Model.DiagGrad
import Verif.Props.KernelTree

/-!
# Property C103: gradients through the diagonal
-/

namespace GPyABCD
open Kern Params Sops

mutual
/-- A kernel without change kernels all of whose base kernels have gradients through the diagonal: white noise, constants, squared exponentials, and linear kernels
without offset. -/
def Diagonal (cfg : Cfg) : GK ℝ → Prop
  | .base b _ => b = .WN ∨ b = .C ∨ b = .SE ∨ (b = .LIN ∧ cfg.linOffset = false)
  | .comb _ parts => DiagonalL cfg parts
  | .change _ _ _ _ => False
/-- All of a list. -/
def DiagonalL (cfg : Cfg) : List (GK ℝ) → Prop
  | [] => True
  | k :: ks => Diagonal cfg k ∧ DiagonalL cfg ks
end

/-- The loss that `dL_dKdiag` stands for. -/
def diagLoss {n : ℕ} (dL K : Fin n → ℝ) : ℝ := ∑ i, dL i * K i

mutual
private theorem posLength_of (cfg : Cfg) : ∀ k : GK ℝ, Diagonal cfg k → PosLength k
  | .base b p, h => by rintro rfl; simp [Diagonal] at h
  | .comb _ parts, h => posLengthL_of cfg parts h
  | .change _ _ _ _, h => h.elim
private theorem posLengthL_of (cfg : Cfg) : ∀ ks : List (GK ℝ), DiagonalL cfg ks → PosLengthL ks
  | [], _ => trivial
  | k :: ks, h => ⟨posLength_of cfg k h.1, posLengthL_of cfg ks h.2⟩
end

mutual
private theorem isSome_iff (cfg : Cfg) {n : ℕ} (X : Fin n → ℝ) : ∀ (k : GK ℝ) (dL : Fin n → ℝ), (kerDiagGrad cfg X dL k).isSome = true ↔ Diagonal cfg k
  | .base b p, dL => by cases b <;> simp [kerDiagGrad, baseDiagGrad, Diagonal]
  | .comb .sum parts, dL => by rw [kerDiagGrad, Option.isSome_map]; exact isSome_sum cfg X parts dL
  | .comb .prod parts, dL => by rw [kerDiagGrad, Option.isSome_map]; exact isSome_prod cfg X parts dL
  | .change c p l r, dL => by rw [kerDiagGrad]; simp only [Diagonal]; split <;> simp
private theorem isSome_sum (cfg : Cfg) {n : ℕ} (X : Fin n → ℝ) : ∀ (ks : List (GK ℝ)) (dL : Fin n → ℝ), (diagGradSum cfg X dL ks).isSome = true ↔ DiagonalL cfg ks
  | [], _ => by simp [diagGradSum, DiagonalL]
  | k :: ks, dL => by
    rw [diagGradSum, DiagonalL, ← isSome_iff cfg X k dL, ← isSome_sum cfg X ks dL]
    cases kerDiagGrad cfg X dL k <;> cases diagGradSum cfg X dL ks <;> simp
private theorem isSome_prod (cfg : Cfg) {n : ℕ} (X : Fin n → ℝ) : ∀ (ks : List (GK ℝ)) (dL : Fin n → ℝ), (diagGradProd cfg X dL ks).isSome = true ↔ DiagonalL cfg ks
  | [], _ => by simp [diagGradProd, DiagonalL]
  | k :: ks, dL => by
    rw [diagGradProd, DiagonalL, ← isSome_iff cfg X k (fun i => dL i * diagProd cfg X ks i), ← isSome_prod cfg X ks (fun i => dL i * kerDiag cfg X k i)]
    cases kerDiagGrad cfg X (fun i => dL i * diagProd cfg X ks i) k <;> cases diagGradProd cfg X (fun i => dL i * kerDiag cfg X k i) ks <;> simp
end

/-- A diagonal matrix. -/
private def onDiag {n : ℕ} (dL : Fin n → ℝ) : Arr n := fun i j => if i = j then dL i else 0

private theorem msum_onDiag {n : ℕ} (dL : Fin n → ℝ) (K : Arr n) : msum (onDiag dL) K = ∑ i, dL i * K i i := by
  simp [msum, onDiag]

private theorem mul_onDiag {n : ℕ} (dL : Fin n → ℝ) (K : Arr n) : (onDiag dL).mul K = onDiag (fun i => dL i * K i i) := by
  funext i j
  simp only [Arr.mul, onDiag]
  split
  · rename_i h; rw [h]
  · rw [zero_mul]

private theorem base_eq (cfg : Cfg) {n : ℕ} (X dL : Fin n → ℝ) (b : Base) (p g : PD ℝ) (h : baseDiagGrad cfg X dL b p = some g) :
    g = baseGrad cfg X (onDiag dL) b p := by
  cases b <;> simp only [baseDiagGrad, Option.some.injEq, reduceCtorEq] at h
  case WN => subst h; simp [baseGrad, baseGrad', onDiag]
  case C => subst h; simp [baseGrad, baseGrad', onDiag]
  case SE =>
    subst h
    simp [baseGrad, baseGrad', msum_onDiag, matK, rbf]
  case LIN =>
    cases hc : cfg.linOffset with
    | true => simp [hc] at h
    | false =>
      simp only [hc, Bool.false_eq_true, if_false, Option.some.injEq] at h
      subst h
      simp only [baseGrad, baseGrad', hc, Bool.false_eq_true, if_false, linearGradV]
      congr 3
      have : (fun i j => (onDiag dL i j + onDiag dL j i) / 2) = onDiag dL := by
        funext i j
        simp only [onDiag, eq_comm (a := j)]
        split
        · rename_i h; rw [h]; ring
        · ring
      rw [this]
      have hm : msum (fun i j => X i * X j) (onDiag dL) = msum (onDiag dL) (fun i j => X i * X j) := by
        simp only [msum, mul_comm]
      rw [hm, msum_onDiag]
      exact Finset.sum_congr rfl fun i _ => by ring

mutual
private theorem ker_eq (cfg : Cfg) {n : ℕ} (X : Fin n → ℝ) : ∀ (k : GK ℝ) (dL : Fin n → ℝ) (g : GK ℝ), kerDiagGrad cfg X dL k = some g → g = kerGrad cfg X (onDiag dL) k
  | .base b p, dL, g, h => by
    rw [kerDiagGrad, Option.map_eq_some_iff] at h
    obtain ⟨a, ha, rfl⟩ := h
    rw [kerGrad, base_eq cfg X dL b p a ha]
  | .comb .sum parts, dL, g, h => by
    rw [kerDiagGrad, Option.map_eq_some_iff] at h
    obtain ⟨a, ha, rfl⟩ := h
    rw [kerGrad, sum_eq cfg X parts dL a ha]
  | .comb .prod parts, dL, g, h => by
    rw [kerDiagGrad, Option.map_eq_some_iff] at h
    obtain ⟨a, ha, rfl⟩ := h
    rw [kerGrad, prod_eq cfg X parts dL a ha]
  | .change c p l r, dL, g, h => by
    have := (isSome_iff cfg X (.change c p l r) dL).1 (by rw [h]; rfl)
    exact this.elim
private theorem sum_eq (cfg : Cfg) {n : ℕ} (X : Fin n → ℝ) : ∀ (ks : List (GK ℝ)) (dL : Fin n → ℝ) (gs : List (GK ℝ)), diagGradSum cfg X dL ks = some gs →
    gs = gradSum cfg X (onDiag dL) ks
  | [], dL, gs, h => by simp only [diagGradSum, Option.some.injEq] at h; subst h; rw [gradSum]
  | k :: ks, dL, gs, h => by
    rw [diagGradSum] at h
    split at h
    · rename_i a as h1 h2
      simp only [Option.some.injEq] at h
      rw [← h, gradSum, ← ker_eq cfg X k dL a h1, ← sum_eq cfg X ks dL as h2]
    · cases h
private theorem prod_eq (cfg : Cfg) {n : ℕ} (X : Fin n → ℝ) : ∀ (ks : List (GK ℝ)) (dL : Fin n → ℝ) (gs : List (GK ℝ)), diagGradProd cfg X dL ks = some gs →
    gs = gradProd cfg X (onDiag dL) ks
  | [], dL, gs, h => by simp only [diagGradProd, Option.some.injEq] at h; subst h; rw [gradProd]
  | k :: ks, dL, gs, h => by
    have hd := (isSome_prod cfg X (k :: ks) dL).1 (by rw [h]; rfl)
    have e1 : (onDiag dL).mul (kerK cfg X k) = onDiag fun i => dL i * kerDiag cfg X k i := by
      rw [mul_onDiag]; congr 1; funext i; rw [C79_diagonal cfg X k (posLength_of cfg k hd.1)]
    have e2 : (onDiag dL).mul (kerProd cfg X ks) = onDiag fun i => dL i * diagProd cfg X ks i := by
      rw [mul_onDiag]; congr 1; funext i
      have := C79_diagonal cfg X (.comb .prod ks) (posLengthL_of cfg ks hd.2) i
      rw [kerDiag, kerK] at this
      rw [this]
    rw [diagGradProd] at h
    split at h
    · rename_i a as h1 h2
      simp only [Option.some.injEq] at h
      rw [← h, gradProd, e1, e2, ← ker_eq cfg X k _ a h1, ← prod_eq cfg X ks _ as h2]
    · cases h
end

/-- C103 (partial: most kernels have no such gradients). `update_gradients_diag` raises `NotImplementedError` exactly for the kernels with a change kernel, a periodic
kernel, a sigmoid or a linear kernel with offset anywhere in them. -/
theorem C103_available_partial (cfg : Cfg) {n : ℕ} (X dL : Fin n → ℝ) (k : GK ℝ) : kerDiagGrad cfg X dL k = none ↔ ¬Diagonal cfg k := by
  rw [← isSome_iff cfg X k dL]
  cases kerDiagGrad cfg X dL k <;> simp

/-- C103: with the default configuration that is so for every kernel that has a linear or periodic part; even a single linear kernel has none. -/
theorem C103_default_raises {n : ℕ} (X dL : Fin n → ℝ) (C : Place) (b : Base) (hb : b = .LIN ∨ b = .PER) (p : PD ℝ) :
    kerDiagGrad .default X dL (C.fill (.base b p)) = none := by
  rw [C103_available_partial]
  induction C with
  | here => rcases hb with rfl | rfl <;> simp [Place.fill, Diagonal, Cfg.default]
  | part op xs C ys ih =>
    simp only [Place.fill, Diagonal]
    intro h
    refine ih ?_
    induction xs with
    | nil => exact h.1
    | cons x xs ihx => exact ihx h.2
  | first c p C r ih => simp [Place.fill, Diagonal]
  | second c p l C ih => simp [Place.fill, Diagonal]

/-- C103: and for every kernel with a change kernel anywhere in it, whatever the configuration. -/
theorem C103_change_raises (cfg : Cfg) {n : ℕ} (X dL : Fin n → ℝ) (C : Place) (c : CC) (p : PD ℝ) (l r : GK ℝ) :
    kerDiagGrad cfg X dL (C.fill (.change c p l r)) = none := by
  rw [C103_available_partial]
  induction C with
  | here => simp [Place.fill, Diagonal]
  | part op xs C ys ih =>
    simp only [Place.fill, Diagonal]
    intro h
    refine ih ?_
    induction xs with
    | nil => exact h.1
    | cons x xs ihx => exact ihx h.2
  | first c p C r ih => simp [Place.fill, Diagonal]
  | second c p l C ih => simp [Place.fill, Diagonal]

private theorem diagonal_put (cfg : Cfg) (C : Place) (b : Base) (p p' : PD ℝ) (h : Diagonal cfg (C.fill (.base b p))) : Diagonal cfg (C.fill (.base b p')) := by
  induction C with
  | here => exact h
  | part op xs C ys ih =>
    simp only [Place.fill, Diagonal] at h ⊢
    induction xs with
    | nil => exact ⟨ih h.1, h.2⟩
    | cons x xs ihx => exact ⟨h.1, ihx h.2⟩
  | first c p C r ih => exact h.elim
  | second c p l C ih => exact h.elim

/-- C103: where it does not raise, what is written for every linked parameter is the derivative of `sum(dL_dKdiag * Kdiag(X))` with respect to it. -/
theorem C103_right (cfg : Cfg) {n : ℕ} (X dL : Fin n → ℝ) (C : Place) (b : Base) (p : PD ℝ) (q : Par) (t : ℝ) (hq : q.get p = some t) (hb : q ∈ parsOf cfg b)
    (hr : Regular b p q) (G : GK ℝ) (hG : kerDiagGrad cfg X dL (C.fill (.base b p)) = some G) :
    ∃ gs g, C.get G = some (.base b gs) ∧ q.get gs = some g ∧
      HasDerivAt (fun t => diagLoss dL (kerDiag cfg X (C.fill (.base b (q.put p t))))) g t := by
  have hs : SymmArr (onDiag dL) := fun i j => by
    simp only [onDiag, eq_comm (a := j)]
    split
    · rename_i h; rw [h]
    · rfl
  obtain ⟨gs, g, h1, h2, h3⟩ := C79_base_partial cfg X hs C b p q t hq hb hr
  have hd := (isSome_iff cfg X _ dL).1 (by rw [hG]; rfl)
  refine ⟨gs, g, by rw [ker_eq cfg X _ dL G hG]; exact h1, h2, ?_⟩
  refine h3.congr_of_eventuallyEq (Filter.Eventually.of_forall fun s => ?_)
  show diagLoss dL _ = msum (onDiag dL) _
  rw [msum_onDiag]
  refine Finset.sum_congr rfl fun i _ => ?_
  rw [C79_diagonal cfg X _ (posLength_of cfg _ (diagonal_put cfg C b p _ hd))]

-- the lengthscale in `WN + SE * C`
example : let p : PD ℝ := { variance := some 2, lengthscale := some 3 }
    let C : Place := .part .sum [.base .WN { variance := some (1 : ℝ) }] (.part .prod [] .here [.base .C {}]) []
    Par.lengthscale.get p = some 3 ∧ Par.lengthscale ∈ parsOf .default .SE ∧ Regular .SE p .lengthscale ∧ Diagonal .default (C.fill (.base .SE p)) := by
  refine ⟨rfl, by decide, ⟨fun _ => by simp, fun h => by cases h⟩, ?_⟩
  simp [Place.fill, Diagonal, DiagonalL]

end GPyABCD
