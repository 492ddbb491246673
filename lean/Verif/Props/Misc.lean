import Mathlib.Analysis.Complex.ExponentialBounds
import Verif.Model.Misc
import Verif.Lemmas.Gradients
import Mathlib.Analysis.SpecialFunctions.Log.Monotone
import Mathlib.Topology.Order.OrderClosed
import Mathlib.Topology.Piecewise
import Mathlib.Analysis.SpecificLimits.Basic

/-! # C55, C56, C63, C64 -/

namespace GPyABCD
open Kern

/-! ## C55: parameters of change kernels -/

namespace ChangeObj

/-- The parameters a sequence of writes leaves in the change kernel itself. -/
def ownAfter {θ : Type} (p : Sig) : List (Write θ) → Sig
  | [] => p
  | .loc x :: ws => ownAfter { p with loc := x } ws
  | .slope x :: ws => ownAfter { p with slope := x } ws
  | .width x :: ws => ownAfter { p with width := x } ws
  | _ :: ws => ownAfter p ws

/-- The last value written to the first branch. -/
def last1 {θ : Type} (t : θ) : List (Write θ) → θ
  | [] => t
  | .branch1 u :: ws => last1 u ws
  | _ :: ws => last1 t ws

/-- The last value written to the second branch. -/
def last2 {θ : Type} (t : θ) : List (Write θ) → θ
  | [] => t
  | .branch2 u :: ws => last2 u ws
  | _ :: ws => last2 t ws

theorem K_writes {θ : Type} (c : CC) (kern : ℕ → θ → Cov) (o : Obj) (h : Store θ)
    (e1 : o.link1 ≠ o.first) (e2 : o.link2 ≠ o.first) (e3 : o.link1 ≠ o.second) (e4 : o.link2 ≠ o.second)
    (es : o.sig = o.own) (er : o.sigR = o.own) (ws : List (Write θ)) :
    K c kern (ws.foldl write (o, h)) =
      changeK (kern 1 (h.get o.first)) (kern 2 (h.get o.second))
        (basis c false (ownAfter o.own ws)) (basis c true (ownAfter o.own ws)) := by
  induction ws generalizing o h with
  | nil => simp [K, ownAfter, es, er]
  | cons w ws ih =>
    rw [List.foldl_cons]
    cases w with
    | branch1 t =>
      refine (ih (write (o, h) (.branch1 t)).1 (write (o, h) (.branch1 t)).2 e1 e2 e3 e4 rfl rfl).trans ?_
      simp [write, changed, Store.set, ownAfter, e1.symm, e3.symm]
    | branch2 t =>
      refine (ih (write (o, h) (.branch2 t)).1 (write (o, h) (.branch2 t)).2 e1 e2 e3 e4 rfl rfl).trans ?_
      simp [write, changed, Store.set, ownAfter, e2.symm, e4.symm]
    | loc x => refine (ih (write (o, h) (.loc x)).1 (write (o, h) (.loc x)).2 e1 e2 e3 e4 rfl rfl).trans ?_; rfl
    | slope x => refine (ih (write (o, h) (.slope x)).1 (write (o, h) (.slope x)).2 e1 e2 e3 e4 rfl rfl).trans ?_; rfl
    | width x => refine (ih (write (o, h) (.width x)).1 (write (o, h) (.width x)).2 e1 e2 e3 e4 rfl rfl).trans ?_; rfl

theorem K_writes_shared {θ : Type} (c : CC) (kern : ℕ → θ → Cov) (o : Obj) (h : Store θ)
    (e1 : o.link1 = o.first) (e2 : o.link2 = o.second) (e : o.first ≠ o.second)
    (es : o.sig = o.own) (er : o.sigR = o.own) (ws : List (Write θ)) :
    K c kern (ws.foldl write (o, h)) =
      changeK (kern 1 (last1 (h.get o.first) ws)) (kern 2 (last2 (h.get o.second) ws))
        (basis c false (ownAfter o.own ws)) (basis c true (ownAfter o.own ws)) := by
  induction ws generalizing o h with
  | nil => simp [K, ownAfter, es, er, last1, last2]
  | cons w ws ih =>
    rw [List.foldl_cons]
    cases w with
    | branch1 t =>
      refine (ih (write (o, h) (.branch1 t)).1 (write (o, h) (.branch1 t)).2 e1 e2 e rfl rfl).trans ?_
      simp [write, changed, Store.set, ownAfter, last1, last2, e1, e.symm]
    | branch2 t =>
      refine (ih (write (o, h) (.branch2 t)).1 (write (o, h) (.branch2 t)).2 e1 e2 e rfl rfl).trans ?_
      simp [write, changed, Store.set, ownAfter, last1, last2, e2, e]
    | loc x => refine (ih (write (o, h) (.loc x)).1 (write (o, h) (.loc x)).2 e1 e2 e rfl rfl).trans ?_; rfl
    | slope x => refine (ih (write (o, h) (.slope x)).1 (write (o, h) (.slope x)).2 e1 e2 e rfl rfl).trans ?_; rfl
    | width x => refine (ih (write (o, h) (.width x)).1 (write (o, h) (.width x)).2 e1 e2 e rfl rfl).trans ?_; rfl

end ChangeObj

open ChangeObj

/-- After any sequence of writes to the exposed parameters the covariance is the change between the branches
as they were *when the kernel was constructed*, at the location, slope and width last written. So the own
parameters of a change kernel are those optimised (the part of the claim that holds), and no write to an
exposed branch parameter has an effect (the part that fails). -/
theorem C55_own_parameters_partial {θ : Type} (c : CC) (kern : ℕ → θ → Cov) (h : Store θ) {a b : ℕ}
    (ha : a < h.next) (hb : b < h.next) (p : Sig) (ws : List (Write θ)) :
    K c kern (ws.foldl write (init true h a b p)) =
      changeK (kern 1 (h.get a)) (kern 2 (h.get b)) (basis c false (ownAfter p ws)) (basis c true (ownAfter p ws)) := by
  rw [init]
  simp only [Store.copy, if_true]
  rw [K_writes c kern _ _ (by simp; omega) (by simp; omega) (by simp; omega) (by simp; omega) rfl rfl]
  have h1 : a ≠ h.next := by omega
  have h2 : b ≠ h.next := by omega
  have h3 : a ≠ h.next + 1 := by omega
  have h4 : b ≠ h.next + 1 := by omega
  simp [h1, h2, h3, h4]

/-- The claim fails: the values of the exposed branch parameters do not matter at all. -/
theorem C55_branches_ignored {θ : Type} (c : CC) (kern : ℕ → θ → Cov) (h : Store θ) {a b : ℕ}
    (ha : a < h.next) (hb : b < h.next) (p : Sig) (t u : θ) :
    K c kern ([.branch1 t, .branch2 u].foldl write (init true h a b p)) = K c kern (init true h a b p) := by
  have h1 := C55_own_parameters_partial c kern h ha hb p [.branch1 t, .branch2 u]
  have h2 := C55_own_parameters_partial c kern h ha hb p []
  simp only [ownAfter] at h1 h2
  rw [h1, ← h2, List.foldl_nil]

/-- Concretely: a changepoint between two constants, whose first variance is set from 1 to 5. -/
theorem C55_witness : ∃ (h : Store ℝ) (p : Sig) (x : ℝ), 0 < p.slope ∧
    K .CP (fun _ v => bias v) (write (init true h 0 1 p) (.branch1 5)) x x ≠
      changeK (bias 5) (bias 1) (phiS p.loc p.slope false) (phiS p.loc p.slope true) x x := by
  refine ⟨⟨2, fun _ => 1⟩, ⟨0, 1, 1⟩, 0, one_pos, ?_⟩
  have := C55_own_parameters_partial .CP (fun _ v => bias v) ⟨2, fun _ => 1⟩ (a := 0) (b := 1) (by simp) (by simp) ⟨0, 1, 1⟩ [.branch1 5]
  simp only [List.foldl_cons, List.foldl_nil, ownAfter] at this
  rw [this]
  norm_num [changeK, basisK, bias, basis, phiS, sigmoid]

/-- Were the branches used in `K` the linked ones, the claim would hold. -/
theorem C55_repaired {θ : Type} (c : CC) (kern : ℕ → θ → Cov) (h : Store θ) {a b : ℕ} (hab : a ≠ b) (p : Sig)
    (ws : List (Write θ)) :
    K c kern (ws.foldl write (init false h a b p)) =
      changeK (kern 1 (last1 (h.get a) ws)) (kern 2 (last2 (h.get b) ws))
        (basis c false (ownAfter p ws)) (basis c true (ownAfter p ws)) := by
  rw [init]
  simp only [Store.copy, Bool.false_eq_true, if_false]
  rw [K_writes_shared c kern _ _ rfl rfl hab rfl rfl]

/-! ## C56: location gradient of change kernels -/

/-- The location gradient is the derivative of the part of the loss due to the *second* branch. Missing: the
part due to the first branch. -/
theorem C56_second_branch_partial {n : ℕ} (first second : Cov) (hsec : ∀ x y, second x y = second y x) {l s : ℝ}
    (fixed : Bool) {dL : Fin n → Fin n → ℝ} (hs : SymmArr dL) (X : Fin n → ℝ) (l0 : ℝ) :
    HasDerivAt (fun t => linLoss dL (changeK first second (phiS t s false) (phiS l0 s true)) X X)
      (changePointGrad l s fixed second dL X).1 l := by
  have hs' : SymmArr (fun i j => dL i j * second (X i) (X j)) := fun i j => by simp only [hs i j, hsec (X i) (X j)]
  have h := hasDerivAt_basis_symm hs' (X := X) (v := 1) (phi := fun t => phiS t s false)
    (d := fun x => 1 * (sigmoidD ((x - l) / s) / (-s))) (t := l) (fun x => by simpa using hasDerivAt_phiS_loc false l x)
  have e : (fun t => linLoss dL (changeK first second (phiS t s false) (phiS l0 s true)) X X) =
      fun t => linLoss (fun i j => dL i j * second (X i) (X j)) (basisK 1 (phiS t s false)) X X +
        linLoss dL (fun x y => first x y * basisK 1 (phiS l0 s true) x y) X X := by
    funext t
    simp only [linLoss, changeK, ← Finset.sum_add_distrib]
    exact Finset.sum_congr rfl fun i _ => Finset.sum_congr rfl fun j _ => by ring
  rw [e]
  refine (h.add_const _).congr_deriv ?_
  simp [changePointGrad, gradS, gradS1]

/-- With both halves it would be the derivative of the whole loss. -/
theorem C56_full {n : ℕ} (first second : Cov) (hfst : ∀ x y, first x y = first y x)
    (hsec : ∀ x y, second x y = second y x) {l s : ℝ} {dL : Fin n → Fin n → ℝ} (hs : SymmArr dL) (X : Fin n → ℝ) :
    HasDerivAt (fun t => linLoss dL (changeK first second (phiS t s false) (phiS t s true)) X X)
      (changePointGradFull l s first second dL X) l := by
  have hs1 : SymmArr (fun i j => dL i j * first (X i) (X j)) := fun i j => by simp only [hs i j, hfst (X i) (X j)]
  have hs2 : SymmArr (fun i j => dL i j * second (X i) (X j)) := fun i j => by simp only [hs i j, hsec (X i) (X j)]
  have h2 := hasDerivAt_basis_symm hs2 (X := X) (v := 1) (phi := fun t => phiS t s false)
    (d := fun x => sigmoidD ((x - l) / s) / (-s)) (t := l) (fun x => by simpa using hasDerivAt_phiS_loc false l x)
  have h1 := hasDerivAt_basis_symm hs1 (X := X) (v := 1) (phi := fun t => phiS t s true)
    (d := fun x => -(sigmoidD ((x - l) / s) / (-s))) (t := l) (fun x => by simpa using hasDerivAt_phiS_loc true l x)
  have e : (fun t => linLoss dL (changeK first second (phiS t s false) (phiS t s true)) X X) =
      fun t => linLoss (fun i j => dL i j * second (X i) (X j)) (basisK 1 (phiS t s false)) X X +
        linLoss (fun i j => dL i j * first (X i) (X j)) (basisK 1 (phiS t s true)) X X := by
    funext t
    simp only [linLoss, changeK, ← Finset.sum_add_distrib]
    exact Finset.sum_congr rfl fun i _ => Finset.sum_congr rfl fun j _ => by ring
  rw [e]
  refine (h2.add h1).congr_deriv ?_
  have : msum (fun i j => dL i j * first (X i) (X j)) (dotT (fun i => phiS l s true (X i)) (fun i => -(sigmoidD ((X i - l) / s) / (-s)))) =
      -msum (fun i j => dL i j * first (X i) (X j)) (dotT (fun i => phiS l s true (X i)) (fun i => sigmoidD ((X i - l) / s) / (-s))) := by
    rw [← msum_neg]; congr 1; funext i j; simp only [dotT]; ring
  rw [this]
  simp [changePointGradFull, gradS, gradS1]

/-- The claim fails: for a change from a constant to nothing, with one point at the location, the derivative
is 1/2 and the code computes 0. -/
theorem C56_wrong : ∃ (first second : Cov) (dL : Fin 1 → Fin 1 → ℝ) (X : Fin 1 → ℝ) (l s : ℝ),
    SymmArr dL ∧ 0 < s ∧ (∀ x y, first x y = first y x) ∧ (∀ x y, second x y = second y x) ∧
    ¬ HasDerivAt (fun t => linLoss dL (changeK first second (phiS t s false) (phiS t s true)) X X)
      (changePointGrad l s false second dL X).1 l := by
  refine ⟨bias 1, bias 0, fun _ _ => 1, fun _ => 0, 0, 1, fun _ _ => rfl, one_pos, fun _ _ => rfl, fun _ _ => rfl, fun h => ?_⟩
  have h2 := C56_full (n := 1) (bias 1) (bias 0) (fun _ _ => rfl) (fun _ _ => rfl) (l := 0) (s := 1)
    (dL := fun _ _ => 1) (fun _ _ => rfl) (fun _ => 0)
  have := h.unique h2
  norm_num [changePointGrad, changePointGradFull, gradS, gradS1, msum, dotT, bias, phiS, sigmoid, sigmoidD] at this

/-! ## C63: scores -/

theorem C63_bic_likelihood (n k : ℕ) : StrictAnti fun ll => Score.bic ll n k := by
  intro a b h
  simp only [Score.bic]
  linarith

theorem C63_aic_likelihood (n k : ℕ) : StrictAnti fun ll => Score.aic ll n k := by
  intro a b h
  simp only [Score.aic]
  linarith

/-- Where AICc has a value it strictly decreases in the log-likelihood. -/
theorem C63_aicc_likelihood {n k : ℕ} {a b x y : ℝ} (h : a < b) (hx : Score.aicc a n k = some x)
    (hy : Score.aicc b n k = some y) : y < x := by
  simp only [Score.aicc] at hx hy
  split at hx
  · simp at hx
  · rename_i h0
    rw [if_neg h0] at hy
    simp only [Option.some.injEq] at hx hy
    linarith

theorem C63_bic_parameters (ll : ℝ) {n : ℕ} (hn : 1 < n) : StrictMono fun k => Score.bic ll n k := by
  intro a b h
  have h1 : 0 < Real.log n := Real.log_pos (by exact_mod_cast hn)
  have h2 : (a : ℝ) < b := by exact_mod_cast h
  simp only [Score.bic]
  have := mul_lt_mul_of_pos_right h2 h1
  linarith

theorem C63_aic_parameters (ll : ℝ) (n : ℕ) : StrictMono fun k => Score.aic ll n k := by
  intro a b h
  have h2 : (a : ℝ) < b := by exact_mod_cast h
  simp only [Score.aic]
  linarith

/-- What BIC trades: one model is better than another exactly when twice its gain in log-likelihood exceeds the logarithm of the
number of points for every parameter more. -/
theorem C63_bic_tradeoff (ll ll' : ℝ) (n k k' : ℕ) :
    Score.bic ll' n k' < Score.bic ll n k ↔ ((k' : ℝ) - k) * Real.log n < 2 * (ll' - ll) := by
  simp only [Score.bic]
  constructor <;> intro h <;> linarith

/-- What AIC trades: one unit of log-likelihood for every parameter. -/
theorem C63_aic_tradeoff (ll ll' : ℝ) (n k k' : ℕ) : Score.aic ll' n k' < Score.aic ll n k ↔ (k' : ℝ) - k < ll' - ll := by
  simp only [Score.aic]
  constructor <;> intro h <;> linarith

/-- With more than seven points BIC asks for more than AIC does: whoever adds parameters and wins by BIC wins by AIC. -/
theorem C63_bic_stricter (ll ll' : ℝ) {n k k' : ℕ} (hn : 7 < n) (hk : k ≤ k') (h : Score.bic ll' n k' < Score.bic ll n k) :
    Score.aic ll' n k' < Score.aic ll n k := by
  rw [C63_bic_tradeoff] at h
  rw [C63_aic_tradeoff]
  have h8 : (8 : ℝ) ≤ n := by exact_mod_cast hn
  have hl : 2 ≤ Real.log n := by
    rw [Real.le_log_iff_exp_le (by linarith)]
    have h1 := Real.exp_one_lt_d9
    have h2 : Real.exp 2 = Real.exp 1 ^ 2 := by rw [← Real.exp_nat_mul]; norm_num
    have h3 := Real.exp_pos 1
    rw [h2]
    nlinarith
  have hk' : (0 : ℝ) ≤ (k' : ℝ) - k := by
    have : (k : ℝ) ≤ k' := by exact_mod_cast hk
    linarith
  nlinarith

example : Score.bic 10 8 2 < Score.bic 0 8 1 ∧ Score.aic 10 8 2 < Score.aic 0 8 1 := by
  have h : Score.bic 10 8 2 < Score.bic 0 8 1 := by
    rw [C63_bic_tradeoff]
    have := Real.log_le_sub_one_of_pos (show (0 : ℝ) < (8 : ℕ) by norm_num)
    norm_num at this ⊢
    linarith
  exact ⟨h, C63_bic_stricter _ _ (by norm_num) (by norm_num) h⟩

theorem aicc_some {ll : ℝ} {n k : ℕ} (h : k + 1 < n) :
    Score.aicc ll n k = some (2 * (-ll + k + ((k : ℝ) ^ 2 + k) / ((n : ℝ) - k - 1))) := by
  rw [Score.aicc, if_neg (by omega)]

theorem C63_aicc_parameters (ll : ℝ) {n a b : ℕ} (h : a < b) (hb : b + 1 < n) :
    ∃ x y, Score.aicc ll n a = some x ∧ Score.aicc ll n b = some y ∧ x < y := by
  refine ⟨_, _, aicc_some (by omega), aicc_some hb, ?_⟩
  have h2 : (a : ℝ) < b := by exact_mod_cast h
  have hb' : (b : ℝ) + 1 < n := by exact_mod_cast hb
  have ha0 : (0 : ℝ) ≤ a := by positivity
  have : ((a : ℝ) ^ 2 + a) / ((n : ℝ) - a - 1) ≤ ((b : ℝ) ^ 2 + b) / ((n : ℝ) - b - 1) :=
    div_le_div₀ (by positivity) (by nlinarith) (by linarith) (by linarith)
  linarith

/-- With enough data AICc is at least AIC. -/
theorem C63_aicc_ge_aic (ll : ℝ) {n k : ℕ} (h : k + 1 < n) :
    ∃ x, Score.aicc ll n k = some x ∧ Score.aic ll n k ≤ x := by
  refine ⟨_, aicc_some h, ?_⟩
  have h' : (k : ℝ) + 1 < n := by exact_mod_cast h
  have : 0 ≤ ((k : ℝ) ^ 2 + k) / ((n : ℝ) - k - 1) := div_nonneg (by positivity) (by linarith)
  simp only [Score.aic]
  linarith

/-- And it tends to AIC as the data grow. -/
theorem C63_aicc_limit (ll : ℝ) (k : ℕ) :
    Filter.Tendsto (fun n => (Score.aicc ll n k).getD 0) Filter.atTop (nhds (Score.aic ll 0 k)) := by
  have h1 : Filter.Tendsto (fun n : ℕ => ((n : ℝ) - k - 1)) Filter.atTop Filter.atTop := by
    have := Filter.tendsto_atTop_add_const_right Filter.atTop (-(k : ℝ) - 1) (tendsto_natCast_atTop_atTop (R := ℝ))
    refine this.congr fun n => by ring
  have h2 := (h1.const_div_atTop ((k : ℝ) ^ 2 + k)).const_add (-ll + k) |>.const_mul 2
  rw [add_zero] at h2
  refine (h2.congr' ?_)
  filter_upwards [Filter.eventually_gt_atTop (k + 1)] with n hn
  rw [aicc_some hn, Option.getD_some]

/-- With as many data points as parameters plus one, AICc divides by zero. -/
theorem C63_aicc_undefined (ll : ℝ) (k : ℕ) : Score.aicc ll (k + 1) k = none := by
  rw [Score.aicc, if_pos (by push_cast; ring)]

/-- With fewer, the ordering is reversed: a model with `k` parameters is beaten by one with as many
parameters as data points even if its log-likelihood is better by up to `n ^ 2 + k`. -/
theorem C63_aicc_reversed {ll ll' : ℝ} {n k : ℕ} (hk : k + 1 < n)
    (h : ll - ll' < (n : ℝ) ^ 2 + k) :
    ∃ x y, Score.aicc ll n k = some x ∧ Score.aicc ll' n n = some y ∧ y < x := by
  have h' : (k : ℝ) + 1 < n := by exact_mod_cast hk
  have : 0 ≤ ((k : ℝ) ^ 2 + k) / ((n : ℝ) - k - 1) := div_nonneg (by positivity) (by linarith)
  refine ⟨_, 2 * (-ll' + n - ((n : ℝ) ^ 2 + n)), aicc_some hk, ?_, ?_⟩
  · rw [Score.aicc, if_neg (by omega)]
    congr 2
    rw [show (n : ℝ) - n - 1 = -1 by ring]
    ring
  · linarith

example : ∃ x y, Score.aicc 0 10 2 = some x ∧ Score.aicc (-100) 10 10 = some y ∧ y < x :=
  C63_aicc_reversed (by norm_num) (by norm_num)

/-! ## C64: synthetic data -/

theorem C64_changepoint {f1 f2 : ℝ → ℝ} (h1 : Continuous f1) (h2 : Continuous f2) (cp : ℝ) :
    Continuous (Data.cpF f1 f2 cp true) := by
  have e : Data.cpF f1 f2 cp true = fun x => if cp ≤ x then (f1 cp - f2 cp) + f2 x else f1 x := by
    funext x
    simp only [Data.cpF, if_true]
    by_cases h : x < cp
    · simp [h, not_le.2 h]
    · simp [h, not_lt.1 h]
  rw [e]
  refine Continuous.if_le (by fun_prop) h1 continuous_const continuous_id fun x hx => ?_
  rw [← hx]; simp

theorem C64_changewindow {f1 f2 : ℝ → ℝ} (h1 : Continuous f1) (h2 : Continuous f2) {a b : ℝ} (hab : a ≤ b) :
    Continuous (Data.cwF f1 f2 a b true) := by
  have e : Data.cwF f1 f2 a b true = fun x => if x ≤ b then (if a ≤ x then (f1 a - f2 a) + f2 x else f1 x)
      else (Data.cwEnd f1 f2 a b - f1 b) + f1 x := by
    funext x
    simp only [Data.cwF, if_true]
    by_cases h : x < a
    · simp [h, not_le.2 h, h.le.trans hab]
    · by_cases h' : x > b
      · simp [h, h', not_le.2 h']
      · simp [h, h', not_lt.1 h, not_lt.1 h']
  rw [e]
  refine Continuous.if_le ?_ (by fun_prop) continuous_id continuous_const fun x hx => ?_
  · refine Continuous.if_le (by fun_prop) h1 continuous_const continuous_id fun x hx => ?_
    rw [← hx]; simp
  · have hx : x = b := hx
    subst hx
    simp [hab, Data.cwEnd, not_lt.2 hab]

/-- If the window ends before it starts, the generated function is the first piece throughout. -/
theorem C64_empty_window {f1 f2 : ℝ → ℝ} {a b : ℝ} (hab : b < a) : Data.cwF f1 f2 a b true = f1 := by
  funext x
  simp only [Data.cwF, if_true, Data.cwEnd, if_pos hab]
  split
  · rfl
  · rename_i h
    rw [if_pos (lt_of_lt_of_le hab (not_lt.1 h))]
    ring

/-- Lining up only shifts: every part is its piece up to a constant, and the first is not shifted. -/
theorem C64_pieces (f1 f2 : ℝ → ℝ) (cp a b : ℝ) :
    (∀ x, x < cp → Data.cpF f1 f2 cp true x = f1 x) ∧
    (∃ d, ∀ x, ¬ x < cp → Data.cpF f1 f2 cp true x = f2 x + d) ∧
    (∀ x, x < a → Data.cwF f1 f2 a b true x = f1 x) ∧
    (∃ d, ∀ x, ¬ x < a → ¬ x > b → Data.cwF f1 f2 a b true x = f2 x + d) ∧
    (∃ d, ∀ x, ¬ x < a → x > b → Data.cwF f1 f2 a b true x = f1 x + d) := by
  refine ⟨fun x h => by simp [Data.cpF, h], ⟨f1 cp - f2 cp, fun x h => by simp only [Data.cpF, if_true, if_neg h]; ring⟩,
    fun x h => by simp [Data.cwF, h], ⟨f1 a - f2 a, fun x h h' => by simp only [Data.cwF, if_true, if_neg h, if_neg h']; ring⟩,
    ⟨Data.cwEnd f1 f2 a b - f1 b, fun x h h' => by simp only [Data.cwF, if_true, if_neg h, if_pos h']; ring⟩⟩

theorem C64_not_lined_up (f1 f2 : ℝ → ℝ) (cp a b x : ℝ) :
    (x < cp → Data.cpF f1 f2 cp false x = f1 x) ∧ (cp ≤ x → Data.cpF f1 f2 cp false x = f2 x) ∧
    (x < a ∨ b < x → Data.cwF f1 f2 a b false x = f1 x) ∧ (a ≤ x → x ≤ b → Data.cwF f1 f2 a b false x = f2 x) := by
  refine ⟨fun h => by simp [Data.cpF, h], fun h => by simp [Data.cpF, not_lt.2 h], fun h => ?_, fun h h' => ?_⟩
  · simp only [Data.cwF, Bool.false_eq_true, if_false]
    rw [if_pos h]
  · simp [Data.cwF, not_lt.2 h, not_lt.2 h']

example : Continuous (Data.cwF (fun x => x ^ 2) (fun x => 3 - x) 1 4 true) :=
  C64_changewindow (by fun_prop) (by fun_prop) (by norm_num)

end GPyABCD
