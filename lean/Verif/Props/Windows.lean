import Verif.Model.Windows
import Verif.Props.Numeric
import Mathlib.Analysis.Calculus.Deriv.Shift

/-!
# Properties C80 and C81: three-part change windows
-/

namespace GPyABCD
open Kern

/-! ## C80: diagonals and gradients -/

/-- C80. `Kdiag(X)` is the diagonal of `K(X)` if it is for the branches. -/
theorem C80_diagonal {n : ℕ} (first second third : Cov) (d1 d2 d3 : Fin n → ℝ) (X : Fin n → ℝ) (h1 : ∀ i, d1 i = first (X i) (X i))
    (h2 : ∀ i, d2 i = second (X i) (X i)) (h3 : ∀ i, d3 i = third (X i) (X i)) (shift l s w : ℝ) (i : Fin n) :
    threePartKdiag d1 d2 d3 l s w X i = threePartK first second third l s w (X i) (X i) ∧
    shiftedSidesKdiag d1 d2 shift l s w X i = shiftedSidesK first second shift l s w (X i) (X i) := by
  simp only [threePartKdiag, shiftedSidesKdiag, threePartK, shiftedSidesK, sigDiag, basisK, h1, h2, h3]
  constructor <;> ring

example : threePartKdiag (fun _ : Fin 2 => 3) (fun _ => 5) (fun _ => 7) 0 1 2 ![0, 2] 0 = threePartK (bias 3) (bias 5) (bias 7) 0 1 2 0 0 :=
  (C80_diagonal (bias 3) (bias 5) (bias 7) _ _ _ ![0, 2] (fun _ => rfl) (fun _ => rfl) (fun _ => rfl) 0 0 1 2 0).1

/-- A branch `k` that depends on a parameter, with derivative `k'` of every entry. -/
def Varies {n : ℕ} (X : Fin n → ℝ) (k : ℝ → Cov) (k' : Cov) (t : ℝ) : Prop := ∀ i j, HasDerivAt (fun t => k t (X i) (X j)) (k' (X i) (X j)) t

/-- C80. Each branch of a three-part window is given the matrix with which its own gradient is the derivative of the whole loss. -/
theorem C80_branches {n : ℕ} (first second third : Cov) (l s w : ℝ) (fixed : Bool) (dL : Fin n → Fin n → ℝ) (X : Fin n → ℝ) (k : ℝ → Cov) (k' : Cov) (t : ℝ)
    (hk : Varies X k k' t) :
    HasDerivAt (fun t => linLoss dL (threePartK (k t) second third l s w) X X) (linLoss (threePartGrad l s w fixed second dL X).first k' X X) t ∧
    HasDerivAt (fun t => linLoss dL (threePartK first (k t) third l s w) X X) (linLoss (threePartGrad l s w fixed (k t) dL X).second k' X X) t ∧
    HasDerivAt (fun t => linLoss dL (threePartK first second (k t) l s w) X X) (linLoss (threePartGrad l s w fixed second dL X).third k' X X) t := by
  refine ⟨?_, ?_, ?_⟩
  · refine (hasDerivAt_linLoss (k := fun t => threePartK (k t) second third l s w) (k' := fun i j => k' (X i) (X j) * basisK 1 (phiS l s true) (X i) (X j))
      fun i j => ?_).congr_deriv ?_
    · exact (((hk i j).mul_const _).add_const _).add_const _
    · exact Finset.sum_congr rfl fun i _ => Finset.sum_congr rfl fun j _ => by simp only [threePartGrad, sigK, matK]; ring
  · refine (hasDerivAt_linLoss (k := fun t => threePartK first (k t) third l s w) (k' := fun i j => k' (X i) (X j) * basisK 1 (phiSI l s w false) (X i) (X j))
      fun i j => ?_).congr_deriv ?_
    · exact (((hk i j).mul_const _).const_add _).add_const _
    · exact Finset.sum_congr rfl fun i _ => Finset.sum_congr rfl fun j _ => by simp only [threePartGrad, sigK, matK]; ring
  · refine (hasDerivAt_linLoss (k := fun t => threePartK first second (k t) l s w) (k' := fun i j => k' (X i) (X j) * basisK 1 (phiS (l + w) s false) (X i) (X j))
      fun i j => ?_).congr_deriv ?_
    · exact ((hk i j).mul_const _).const_add _
    · exact Finset.sum_congr rfl fun i _ => Finset.sum_congr rfl fun j _ => by simp only [threePartGrad, sigK, matK]; ring

/-- C80, for the window with shifted sides, whose first branch counts on both sides; and its shift. -/
theorem C80_shifted_branches {n : ℕ} (first second : Cov) (shift l s w : ℝ) (fixed : Bool) (dL : Fin n → Fin n → ℝ) (X : Fin n → ℝ) (k : ℝ → Cov) (k' : Cov) (t : ℝ)
    (hk : Varies X k k' t) :
    HasDerivAt (fun t => linLoss dL (shiftedSidesK (k t) second shift l s w) X X) (linLoss (shiftedSidesGrad l s w fixed second dL X).first k' X X) t ∧
    HasDerivAt (fun t => linLoss dL (shiftedSidesK first (k t) shift l s w) X X) (linLoss (shiftedSidesGrad l s w fixed (k t) dL X).second k' X X) t ∧
    HasDerivAt (fun shift => linLoss dL (shiftedSidesK first second shift l s w) X X) (shiftedSidesGrad l s w fixed second dL X).shift shift := by
  refine ⟨?_, ?_, ?_⟩
  · refine (hasDerivAt_linLoss (k := fun t => shiftedSidesK (k t) second shift l s w) (k' := fun i j => k' (X i) (X j) * basisK 1 (phiS l s true) (X i) (X j) +
      k' (X i) (X j) * basisK 1 (phiS (l + w) s false) (X i) (X j)) fun i j => ?_).congr_deriv ?_
    · exact (((hk i j).mul_const _).add_const _).add (((hk i j).add_const _).mul_const _)
    · exact Finset.sum_congr rfl fun i _ => Finset.sum_congr rfl fun j _ => by simp only [shiftedSidesGrad, sigK, matK]; ring
  · refine (hasDerivAt_linLoss (k := fun t => shiftedSidesK first (k t) shift l s w) (k' := fun i j => k' (X i) (X j) * basisK 1 (phiSI l s w false) (X i) (X j))
      fun i j => ?_).congr_deriv ?_
    · exact (((hk i j).mul_const _).const_add _).add_const _
    · exact Finset.sum_congr rfl fun i _ => Finset.sum_congr rfl fun j _ => by simp only [shiftedSidesGrad, sigK, matK]; ring
  · refine (hasDerivAt_linLoss (k := fun shift => shiftedSidesK first second shift l s w) (k' := fun i j => 1 * basisK 1 (phiS (l + w) s false) (X i) (X j))
      fun i j => ?_).congr_deriv ?_
    · exact (((hasDerivAt_id shift).const_add _).mul_const _).const_add _
    · exact Finset.sum_congr rfl fun i _ => Finset.sum_congr rfl fun j _ => by simp only [sigK, matK]; ring

example : Varies ![0, 1, 3] (fun v => linear v) (linear 1) 2 := fun i j => by
  exact ((hasDerivAt_id (2 : ℝ)).mul_const (![0, 1, 3] i)).mul_const (![0, 1, 3] j)

private theorem split_loss {n : ℕ} (first second third : Cov) (p1 p2 p3 : ℝ → ℝ) (dL : Fin n → Fin n → ℝ) (X : Fin n → ℝ) :
    linLoss dL (fun x y => first x y * basisK 1 p1 x y + second x y * basisK 1 p2 x y + third x y * basisK 1 p3 x y) X X =
      linLoss (fun i j => dL i j * first (X i) (X j)) (basisK 1 p1) X X + linLoss (fun i j => dL i j * second (X i) (X j)) (basisK 1 p2) X X +
        linLoss (fun i j => dL i j * third (X i) (X j)) (basisK 1 p3) X X := by
  simp only [linLoss, ← Finset.sum_add_distrib]
  exact Finset.sum_congr rfl fun i _ => Finset.sum_congr rfl fun j _ => by ring

private theorem symm_mul {n : ℕ} {dL : Fin n → Fin n → ℝ} (hs : SymmArr dL) {k : Cov} (hk : ∀ x y, k x y = k y x) (X : Fin n → ℝ) :
    SymmArr (fun i j => dL i j * k (X i) (X j)) := fun i j => by simp only [hs i j, hk (X i) (X j)]

/-- C80 (partial: the full claim is that these are the derivatives of the whole loss). The own gradients of a three-part window are the derivatives of the
loss when only the indicator of the second branch moves and the other two sigmoids stay where they are. -/
theorem C80_own_partial {n : ℕ} (first second third : Cov) (h2 : ∀ x y, second x y = second y x) (l : ℝ) {s w : ℝ} (hs : 0 < s) (hw : 0 < w)
    {dL : Fin n → Fin n → ℝ} (hd : SymmArr dL) (X : Fin n → ℝ) :
    let share : ℝ → ℝ → ℝ → ℝ := fun l' s' w' => linLoss dL (fun x y => first x y * basisK 1 (phiS l s true) x y + second x y * basisK 1 (phiSI l' s' w' false) x y +
      third x y * basisK 1 (phiS (l + w) s false) x y) X X
    HasDerivAt (fun l' => share l' s w) (threePartGrad l s w false second dL X).loc l ∧
    (∃ g, (threePartGrad l s w false second dL X).slope = some g ∧ HasDerivAt (fun s' => share l s' w) g s) ∧
    HasDerivAt (fun w' => share l s w') (threePartGrad l s w false second dL X).width w := by
  have hd2 := symm_mul hd h2 X
  simp only [split_loss]
  refine ⟨?_, ?_, ?_⟩
  · exact ((C52_window_location 1 l s w false false hd2 X none).const_add _).add_const _
  · obtain ⟨g, e, h⟩ := C52_window_slope 1 l hs hw false hd2 X none
    exact ⟨g, by simp [threePartGrad, e], (h.const_add _).add_const _⟩
  · exact ((C52_window_width 1 l hs hw false false hd2 X none).const_add _).add_const _

/-- C80. The derivatives of the whole loss: location and slope are the sums of the gradients of all three sigmoids, and the width adds to the
indicator's gradient the location gradient of the sigmoid that starts where the window ends. -/
theorem C80_right_sums {n : ℕ} (first second third : Cov) (h1 : ∀ x y, first x y = first y x) (h2 : ∀ x y, second x y = second y x)
    (h3 : ∀ x y, third x y = third y x) (l : ℝ) {s w : ℝ} (hs : 0 < s) (hw : 0 < w) {dL : Fin n → Fin n → ℝ} (hd : SymmArr dL) (X : Fin n → ℝ) :
    let g := threePartGrad l s w false second dL X
    let o := outerGrads l s w first third dL X
    HasDerivAt (fun l' => linLoss dL (threePartK first second third l' s w) X X) (o.1.1 + g.loc + o.2.1) l ∧
    (∃ g1 g2 g3, o.1.2 = some g1 ∧ g.slope = some g2 ∧ o.2.2 = some g3 ∧ HasDerivAt (fun s' => linLoss dL (threePartK first second third l s' w) X X) (g1 + g2 + g3) s) ∧
    HasDerivAt (fun w' => linLoss dL (threePartK first second third l s w') X X) (g.width + o.2.1) w := by
  have hd1 := symm_mul hd h1 X
  have hd2 := symm_mul hd h2 X
  have hd3 := symm_mul hd h3 X
  have e : ∀ l s w, linLoss dL (threePartK first second third l s w) X X = _ := fun l s w =>
    split_loss first second third (phiS l s true) (phiSI l s w false) (phiS (l + w) s false) dL X
  simp only [e]
  refine ⟨?_, ?_, ?_⟩
  · have a := C52_location 1 l s true false hd1 X none
    have b := C52_window_location 1 l s w false false hd2 X none
    have c := (C52_location 1 (l + w) s false false hd3 X none).comp_add_const l w
    exact (a.fun_add b).fun_add c
  · obtain ⟨g1, e1, a⟩ := C52_slope 1 l hs.ne' true hd1 X none
    obtain ⟨g2, e2, b⟩ := C52_window_slope 1 l hs hw false hd2 X none
    obtain ⟨g3, e3, c⟩ := C52_slope 1 (l + w) hs.ne' false hd3 X none
    exact ⟨g1, g2, g3, e1, by simp [threePartGrad, e2], e3, (a.fun_add b).fun_add c⟩
  · have b := C52_window_width 1 l hs hw false false hd2 X none
    have c := (C52_location 1 (l + w) s false false hd3 X none).comp_const_add l w
    exact (b.const_add _).fun_add c

/-- C80. So the location gradient is right exactly when those of the outer sigmoids cancel, and the width gradient exactly when the location gradient of
the third sigmoid is 0. -/
theorem C80_own_iff {n : ℕ} (first second third : Cov) (h1 : ∀ x y, first x y = first y x) (h2 : ∀ x y, second x y = second y x)
    (h3 : ∀ x y, third x y = third y x) (l : ℝ) {s w : ℝ} (hs : 0 < s) (hw : 0 < w) {dL : Fin n → Fin n → ℝ} (hd : SymmArr dL) (X : Fin n → ℝ) :
    let g := threePartGrad l s w false second dL X
    let o := outerGrads l s w first third dL X
    (HasDerivAt (fun l' => linLoss dL (threePartK first second third l' s w) X X) g.loc l ↔ o.1.1 + o.2.1 = 0) ∧
    (HasDerivAt (fun w' => linLoss dL (threePartK first second third l s w') X X) g.width w ↔ o.2.1 = 0) := by
  obtain ⟨a, _, b⟩ := C80_right_sums first second third h1 h2 h3 l hs hw hd X
  refine ⟨⟨fun h => ?_, fun h => a.congr_deriv ?_⟩, ⟨fun h => ?_, fun h => b.congr_deriv ?_⟩⟩
  · have := h.unique a; linarith
  · linarith
  · have := h.unique b; linarith
  · linarith

/-- C80, for the window with shifted sides: the third part is the first plus the shift. -/
theorem C80_shifted_own_iff {n : ℕ} (first second : Cov) (h1 : ∀ x y, first x y = first y x) (h2 : ∀ x y, second x y = second y x) (shift l : ℝ) {s w : ℝ}
    (hs : 0 < s) (hw : 0 < w) {dL : Fin n → Fin n → ℝ} (hd : SymmArr dL) (X : Fin n → ℝ) :
    let g := shiftedSidesGrad l s w false second dL X
    let o := outerGrads l s w first (fun x y => first x y + shift) dL X
    (HasDerivAt (fun l' => linLoss dL (shiftedSidesK first second shift l' s w) X X) g.loc l ↔ o.1.1 + o.2.1 = 0) ∧
    (HasDerivAt (fun w' => linLoss dL (shiftedSidesK first second shift l s w') X X) g.width w ↔ o.2.1 = 0) :=
  C80_own_iff first second (fun x y => first x y + shift) h1 h2 (fun x y => by rw [h1 x y]) l hs hw hd X

/-- The full claim is false: with one data point, at the start of the window or at its end, the code writes 0 where the derivative is not 0. -/
theorem C80_wrong : ∃ (first second third : Cov) (dL : Fin 1 → Fin 1 → ℝ) (X X' : Fin 1 → ℝ) (l s w : ℝ), SymmArr dL ∧ 0 < s ∧ 0 < w ∧
    IsCov first ∧ IsCov second ∧ IsCov third ∧
    ¬ HasDerivAt (fun l' => linLoss dL (threePartK first second third l' s w) X X) (threePartGrad l s w false second dL X).loc l ∧
    ¬ HasDerivAt (fun w' => linLoss dL (threePartK first second third l s w') X' X') (threePartGrad l s w false second dL X').width w := by
  refine ⟨bias 1, bias 0, bias 1, fun _ _ => 1, fun _ => 0, fun _ => 1, 0, 1, 1, fun _ _ => rfl, one_pos, one_pos,
    isCov_bias (by norm_num), isCov_bias (by norm_num), isCov_bias (by norm_num), fun h => ?_, fun h => ?_⟩
  · have := (C80_own_iff (n := 1) (bias 1) (bias 0) (bias 1) (fun _ _ => rfl) (fun _ _ => rfl) (fun _ _ => rfl) 0 one_pos one_pos (dL := fun _ _ => 1)
      (fun _ _ => rfl) (fun _ => 0)).1.1 h
    norm_num [outerGrads, gradS, gradS1, msum, dotT, bias, phiS, sigmoid, sigmoidD] at this
  · have := (C80_own_iff (n := 1) (bias 1) (bias 0) (bias 1) (fun _ _ => rfl) (fun _ _ => rfl) (fun _ _ => rfl) 0 one_pos one_pos (dL := fun _ _ => 1)
      (fun _ _ => rfl) (fun _ => 1)).2.1 h
    norm_num [outerGrads, gradS, gradS1, msum, dotT, bias, phiS, sigmoid, sigmoidD] at this

/-- Nor would the commented-out summands help: where only the second branch counts, and the code is right as it is, they would make it wrong. -/
theorem C80_comments_wrong : ∃ (second : Cov) (dL : Fin 1 → Fin 1 → ℝ) (X : Fin 1 → ℝ) (l s w : ℝ), SymmArr dL ∧ 0 < s ∧ 0 < w ∧ IsCov second ∧
    HasDerivAt (fun l' => linLoss dL (threePartK (bias 0) second (bias 0) l' s w) X X) (threePartGrad l s w false second dL X).loc l ∧
    HasDerivAt (fun w' => linLoss dL (threePartK (bias 0) second (bias 0) l s w') X X) (threePartGrad l s w false second dL X).width w ∧
    ¬ HasDerivAt (fun l' => linLoss dL (threePartK (bias 0) second (bias 0) l' s w) X X) (commentedGrad l s w (bias 0) second (bias 0) dL X).1 l ∧
    ¬ HasDerivAt (fun w' => linLoss dL (threePartK (bias 0) second (bias 0) l s w') X X) (commentedGrad l s w (bias 0) second (bias 0) dL X).2 w := by
  have key := C80_own_iff (n := 1) (bias 0) (bias 1) (bias 0) (fun _ _ => rfl) (fun _ _ => rfl) (fun _ _ => rfl) 0 (s := 1) (w := 2) one_pos two_pos
    (dL := fun _ _ => 1) (fun _ _ => rfl) (fun _ => 0)
  have o : outerGrads (n := 1) 0 1 2 (bias 0) (bias 0) (fun _ _ => 1) (fun _ => 0) = ((0, some 0), (0, some 0)) := by
    simp [outerGrads, gradS, gradS1, msum, bias]
  simp only [o, add_zero, iff_true] at key
  refine ⟨bias 1, fun _ _ => 1, fun _ => 0, 0, 1, 2, fun _ _ => rfl, one_pos, two_pos, isCov_bias (by norm_num), key.1, key.2, fun h => ?_, fun h => ?_⟩
  · have := h.unique key.1
    simp only [commentedGrad, o] at this
    norm_num [threePartGrad, gradSI, gradSI', msum, dotT, bias, phiSI, sigmoid, sigmoidD, core, invCoreD] at this
  · have := h.unique key.2
    simp only [commentedGrad, o] at this
    norm_num [threePartGrad, gradSI, gradSI', msum, dotT, bias, phiSI, sigmoid, sigmoidD, core, invCoreD] at this

/-! ## C81: parameters that are not numbers -/

/-- The latest number among values written one after the other, or else the first value. -/
noncomputable def latest (x : ℝ) : List (Option ℝ) → ℝ
  | [] => x
  | none :: vs => latest x vs
  | some y :: vs => latest y vs

private theorem latest_append (x : ℝ) (vs : List (Option ℝ)) (v : Option ℝ) : latest x (vs ++ [v]) = v.getD (latest x vs) := by
  induction vs generalizing x with
  | nil => cases v <;> rfl
  | cons u vs ih => cases u <;> simp only [List.cons_append, latest, ih]

/-- C81. Whatever the optimiser writes, numbers or not, the sigmoids in a three-part window have the latest numbers that were written: the first two
start at the location, the third where the window ends. -/
theorem C81_guarded (l s w : ℝ) (ws : List Own) :
    let L := latest l (ws.map Own.loc)
    let S := latest s (ws.map Own.slope)
    let W := latest w (ws.map Own.width)
    let x := Win.run Win.changed3 ⟨some l, some s, some w⟩ ws
    x.own = ⟨some L, some S, some W⟩ ∧ x.ind = ⟨some L, some S, some W⟩ ∧ x.rev = (some L, some S) ∧ x.sig = (some (L + W), some S) ∧
      x.last = ⟨some L, some S, some W⟩ := by
  induction ws using List.reverseRecOn with
  | nil => simp [Win.run, Win.init, Win.changed3, nanGuard, Win.handOn, nanAdd, latest]
  | append_singleton ws p ih =>
    simp only at ih
    obtain ⟨_, _, _, _, ih⟩ := ih
    have e : Win.run Win.changed3 ⟨some l, some s, some w⟩ (ws ++ [p]) = Win.changed3 { Win.run Win.changed3 ⟨some l, some s, some w⟩ ws with own := p } := by
      simp [Win.run]
    simp only [List.map_append, List.map_cons, List.map_nil, latest_append, e]
    revert ih
    generalize Win.run Win.changed3 ⟨some l, some s, some w⟩ ws = x
    intro ih
    obtain ⟨p1, p2, p3⟩ := p
    cases p1 <;> cases p2 <;> cases p3 <;> simp [Win.changed3, nanGuard, Win.handOn, nanAdd, ih]

example : latest 0 [some 1, none, some 3, none] = 3 := rfl

/-- C81. Without the guards, as in the window with shifted sides, what was written last is handed on: numbers are, and `nan` is. -/
theorem C81_unguarded (p q : Own) (ws : List Own) :
    let x := Win.run Win.changedS p (ws ++ [q])
    x.own = q ∧ x.ind = q ∧ x.rev = (q.loc, q.slope) ∧ x.sig = (nanAdd q.loc q.width, q.slope) := by
  simp [Win.run, Win.changedS, Win.handOn]

/-- So a width that is not a number stays one. -/
theorem C81_unguarded_nan : (Win.run Win.changedS ⟨some 0, some 1, some 2⟩ [⟨some 0, some 1, none⟩]).sig.1 = none ∧
    (Win.run Win.changed3 ⟨some 0, some 1, some 2⟩ [⟨some 0, some 1, none⟩]).sig.1 = some (0 + 2) := by
  simp [Win.run, Win.changedS, Win.changed3, nanGuard, Win.handOn, Win.init, nanAdd]

end GPyABCD
