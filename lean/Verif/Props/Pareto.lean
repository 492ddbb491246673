import Verif.Props.Search
import Verif.Props.Misc
import Verif.Model.Loo

/-!
# What the first model of a search is best at (C107)

The scores of `modelUtil.py` put into the search: `ll`, `k` and `dens` read the log-likelihood, the number of parameters and the predictive densities of the
left-out points off a fitted model; nothing is assumed about the expressions, the expansion and the fitting outcomes.
-/

namespace GPyABCD
open Search

/-- A model with log-likelihood `ll` and `k` parameters is dominated by one with `ll'` and `k'`: the other is no less likely and has no more parameters, and one of
the two is better. -/
def Dominated (ll : ℝ) (k : ℕ) (ll' : ℝ) (k' : ℕ) : Prop := ll ≤ ll' ∧ k' ≤ k ∧ (ll < ll' ∨ k' < k)

variable {K D ε : Type}

private theorem total_of_real {E : Env K D ℝ ε} (hle : ∀ a b, E.le a b = true ↔ a ≤ b) : TotalLe E.le := by
  refine ⟨fun a b c => ?_, fun a b => ?_⟩
  · simp only [hle]; exact le_trans
  · have := le_total a b; simp only [Bool.or_eq_true, hle]; exact this

private theorem scores_sorted {E : Env K D ℝ ε} (hle : ∀ a b, E.le a b = true ↔ a ≤ b) {v : Bool} {starts : List K} {rounds : Int} {beam : BeamArg}
    {s : St K D ℝ} (h : explore E v starts rounds beam = .ok s) : s.sorted.Pairwise (fun a b => E.score a.data ≤ E.score b.data) := by
  have hs := C27_sorted E (total_of_real hle) v starts rounds beam s h
  have hf := (C27_all_models E v starts rounds beam s h).2.2
  refine List.Pairwise.imp_of_mem ?_ hs
  intro a b ha hb hab
  have := (hle _ _).1 hab.1
  rwa [(hf a ha).2, (hf b hb).2] at this

/-- C107, BIC: with at least two data points no model comes before one that dominates it. -/
theorem C107_bic (E : Env K D ℝ ε) (hle : ∀ a b, E.le a b = true ↔ a ≤ b) (ll : D → ℝ) (k : D → ℕ) (n : ℕ) (hn : 1 < n)
    (hs : ∀ d, E.score d = Score.bic (ll d) n (k d)) (v : Bool) (starts : List K) (rounds : Int) (beam : BeamArg) (s : St K D ℝ)
    (h : explore E v starts rounds beam = .ok s) :
    s.sorted.Pairwise (fun a b => ¬ Dominated (ll a.data) (k a.data) (ll b.data) (k b.data)) := by
  refine (scores_sorted hle h).imp ?_
  intro a b hab ⟨h1, h2, h3⟩
  rw [hs, hs] at hab
  have e1 := (C63_bic_likelihood n (k b.data)).antitone h1
  have e2 := (C63_bic_parameters (ll a.data) hn).monotone h2
  rcases h3 with h3 | h3
  · have := C63_bic_likelihood n (k b.data) h3; dsimp only at this; linarith
  · have := C63_bic_parameters (ll a.data) hn h3; dsimp only at this; linarith

/-- C107, AIC: no model comes before one that dominates it. -/
theorem C107_aic (E : Env K D ℝ ε) (hle : ∀ a b, E.le a b = true ↔ a ≤ b) (ll : D → ℝ) (k : D → ℕ) (n : ℕ)
    (hs : ∀ d, E.score d = Score.aic (ll d) n (k d)) (v : Bool) (starts : List K) (rounds : Int) (beam : BeamArg) (s : St K D ℝ)
    (h : explore E v starts rounds beam = .ok s) :
    s.sorted.Pairwise (fun a b => ¬ Dominated (ll a.data) (k a.data) (ll b.data) (k b.data)) := by
  refine (scores_sorted hle h).imp ?_
  intro a b hab ⟨h1, h2, h3⟩
  rw [hs, hs] at hab
  have e1 := (C63_aic_likelihood n (k b.data)).antitone h1
  have e2 := (C63_aic_parameters (ll a.data) n).monotone h2
  rcases h3 with h3 | h3
  · have := C63_aic_likelihood n (k b.data) h3; dsimp only at this; linarith
  · have := C63_aic_parameters (ll a.data) n h3; dsimp only at this; linarith

/-- C107, AICc (partial: only where every tested model has at least two fewer parameters than there are data points, `C107_aicc_wrong`). -/
theorem C107_aicc_partial (E : Env K D ℝ ε) (hle : ∀ a b, E.le a b = true ↔ a ≤ b) (ll : D → ℝ) (k : D → ℕ) (n : ℕ)
    (hs : ∀ d, k d + 1 < n → Score.aicc (ll d) n (k d) = some (E.score d)) (v : Bool) (starts : List K) (rounds : Int) (beam : BeamArg) (s : St K D ℝ)
    (h : explore E v starts rounds beam = .ok s) (hk : ∀ m ∈ s.tested.flatten, k m.data + 1 < n) :
    s.sorted.Pairwise (fun a b => ¬ Dominated (ll a.data) (k a.data) (ll b.data) (k b.data)) := by
  have hp := (C27_all_models E v starts rounds beam s h).1
  refine List.Pairwise.imp_of_mem ?_ (scores_sorted hle h)
  intro a b ha hb hab ⟨h1, h2, h3⟩
  have ka := hk a (hp.subset ha)
  have kb := hk b (hp.subset hb)
  -- the model with the likelihood of the first and the parameters of the second
  obtain ⟨x, hx⟩ : ∃ x, Score.aicc (ll a.data) n (k b.data) = some x := ⟨_, aicc_some kb⟩
  have e1 : x ≤ E.score a.data ∧ (k b.data < k a.data → x < E.score a.data) := by
    rcases h2.lt_or_eq with h2 | h2
    · obtain ⟨y, z, hy, hz, hyz⟩ := C63_aicc_parameters (ll a.data) h2 ka
      rw [hx] at hy; rw [hs _ ka] at hz
      cases hy; cases hz
      exact ⟨hyz.le, fun _ => hyz⟩
    · have := hs a.data ka
      rw [← h2, hx] at this
      cases this
      exact ⟨le_rfl, fun h => absurd h (by omega)⟩
  have e2 : E.score b.data ≤ x ∧ (ll a.data < ll b.data → E.score b.data < x) := by
    rcases h1.lt_or_eq with h1 | h1
    · have := C63_aicc_likelihood h1 hx (hs b.data kb)
      exact ⟨this.le, fun _ => this⟩
    · have := hs b.data kb
      rw [← h1, hx] at this
      cases this
      exact ⟨le_rfl, fun h => absurd h (by rw [h1]; exact lt_irrefl _)⟩
  rcases h3 with h3 | h3
  · have := e2.2 h3; linarith [e1.1]
  · have := e1.2 h3; linarith [e2.1]

/-- Two models fitted to three points: log-likelihood 0 with one parameter, and -1 with three. -/
noncomputable def smallEnv : Env Bool (ℝ × ℕ) ℝ Unit where
  eqv a b := decide (a = b)
  expand _ := []
  le a b := @decide (a ≤ b) (Classical.dec _)
  score d := (Score.aicc d.1 3 d.2).getD 0
  fit _ b := .ok (if b then (0, 1) else (-1, 3))

/-- C107, AICc with few data: a search that puts a model first that is less likely than the other and has more parameters. -/
theorem C107_aicc_wrong : ∃ s a b, explore smallEnv false [true, false] 0 (.int 1) = .ok s ∧ s.sorted = [a, b] ∧
    (∀ m ∈ s.sorted, Score.aicc m.data.1 3 m.data.2 = some (smallEnv.score m.data)) ∧ Dominated a.data.1 a.data.2 b.data.1 b.data.2 := by
  have s1 : Score.aicc 0 3 1 = some 6 := by norm_num [Score.aicc]
  have s3 : Score.aicc (-1) 3 3 = some (-16) := by norm_num [Score.aicc]
  have l1 : smallEnv.le 6 (-16) = false := by simp only [smallEnv, decide_eq_false_iff_not]; norm_num
  have l2 : smallEnv.le (-16) 6 = true := by simp only [smallEnv, decide_eq_true_eq]; norm_num
  refine ⟨⟨[⟨1, false, (-1, 3), -16⟩, ⟨0, true, (0, 1), 6⟩], [[⟨1, false, (-1, 3), -16⟩, ⟨0, true, (0, 1), 6⟩] ], [true, false], [],
    [⟨1, false, (-1, 3), -16⟩, ⟨0, true, (0, 1), 6⟩], 2⟩, _, _, ?_, rfl, ?_, ?_⟩
  · have f : fitAll smallEnv 0 [true, false] = .ok [⟨0, true, (0, 1), 6⟩, ⟨1, false, (-1, 3), -16⟩] := by
      simp [fitAll, smallEnv, s1, s3]
    have e1 : sortMods smallEnv [⟨0, true, (0, 1), 6⟩, ⟨1, false, (-1, 3), -16⟩] = [⟨1, false, (-1, 3), -16⟩, ⟨0, true, (0, 1), 6⟩] := by
      simp [sortMods, List.insertionSort, List.orderedInsert, l1]
    have e2 : sortMods smallEnv [⟨1, false, (-1, 3), -16⟩, ⟨0, true, (0, 1), 6⟩] = [⟨1, false, (-1, 3), -16⟩, ⟨0, true, (0, 1), 6⟩] := by
      simp [sortMods, List.insertionSort, List.orderedInsert, l2]
    have st : startSt smallEnv [true, false] = .ok ⟨[⟨1, false, (-1, 3), -16⟩, ⟨0, true, (0, 1), 6⟩], [[⟨1, false, (-1, 3), -16⟩, ⟨0, true, (0, 1), 6⟩] ],
        [true, false], [], [⟨1, false, (-1, 3), -16⟩, ⟨0, true, (0, 1), 6⟩], 2⟩ := by
      simp only [startSt, f, e1, Search.flatten_eq, List.flatten_cons, List.flatten_nil, List.append_nil, e2]; rfl
    simp only [explore, st]
    rfl
  · intro m hm
    simp only [List.mem_cons, List.not_mem_nil, or_false] at hm
    rcases hm with rfl | rfl
    · simp only [smallEnv, s3]; rfl
    · simp only [smallEnv, s1]; rfl
  · exact ⟨by norm_num, by norm_num, Or.inl (by norm_num)⟩

/-! ## Leaving one out -/

private theorem sum_log {l : List ℝ} (h : ∀ x ∈ l, 0 < x) : (l.map Real.log).sum = Real.log l.prod := by
  induction l with
  | nil => simp
  | cons a l ih =>
    have hp : 0 < l.prod := List.prod_pos (fun x hx => h x (List.mem_cons_of_mem _ hx))
    rw [List.map_cons, List.sum_cons, List.prod_cons, Real.log_mul (h a List.mem_cons_self).ne' hp.ne',
      ih (fun x hx => h x (List.mem_cons_of_mem _ hx))]

/-- C107, LA_LOO orders by the product of the predictive densities of the left-out points: if `LOO` returns losses (minus the logarithms of the densities), a smaller
score means better predictions; if it returns the logarithms themselves, a smaller score means worse ones. -/
theorem C107_loo (d d' : List ℝ) (hd : ∀ x ∈ d, 0 < x) (hd' : ∀ x ∈ d', 0 < x) (hl : d.length = d'.length) (h0 : d ≠ []) :
    (Score.laLoo (d.map (fun x => -Real.log x)) < Score.laLoo (d'.map (fun x => -Real.log x)) ↔ d'.prod < d.prod) ∧
    (Score.laLoo (d.map Real.log) < Score.laLoo (d'.map Real.log) ↔ d.prod < d'.prod) := by
  have p : 0 < d.prod := List.prod_pos hd
  have p' : 0 < d'.prod := List.prod_pos hd'
  have hn : (0 : ℝ) < d'.length := by
    rw [← hl]; exact_mod_cast List.length_pos_of_ne_nil h0
  have neg : ∀ l : List ℝ, (l.map (fun x => -Real.log x)).sum = -(l.map Real.log).sum := by
    intro l
    induction l with
    | nil => simp
    | cons a l ih => simp only [List.map_cons, List.sum_cons, ih]; ring
  simp only [Score.laLoo, List.length_map, hl, neg, sum_log hd, sum_log hd', div_lt_div_iff_of_pos_right hn, neg_lt_neg_iff]
  exact ⟨Real.log_lt_log_iff p' p, Real.log_lt_log_iff p p'⟩

/-- C107, LA_LOO in the search, if `LOO` returns losses: models come in the order of their predictions of the left-out points, best first. -/
theorem C107_loo_losses (E : Env K D ℝ ε) (hle : ∀ a b, E.le a b = true ↔ a ≤ b) (dens : D → List ℝ) (n : ℕ) (hn : 0 < n)
    (hd : ∀ d, (dens d).length = n ∧ ∀ x ∈ dens d, 0 < x) (hs : ∀ d, E.score d = Score.laLoo ((dens d).map (fun x => -Real.log x)))
    (v : Bool) (starts : List K) (rounds : Int) (beam : BeamArg) (s : St K D ℝ) (h : explore E v starts rounds beam = .ok s) :
    s.sorted.Pairwise (fun a b => (dens b.data).prod ≤ (dens a.data).prod) := by
  refine (scores_sorted hle h).imp ?_
  intro a b hab
  by_contra hc
  have := (C107_loo (dens b.data) (dens a.data) (hd _).2 (hd _).2 ((hd _).1.trans (hd _).1.symm)
    (fun e => by have := (hd b.data).1; rw [e] at this; simp at this; omega)).1.2 (not_le.1 hc)
  rw [hs, hs] at hab
  linarith

/-- C107, LA_LOO in the search, if `LOO` returns the logarithms of the densities: models come in the order of their predictions of the left-out points, worst first,
so that the worst are expanded and the worst is returned as the best. -/
theorem C107_loo_logs (E : Env K D ℝ ε) (hle : ∀ a b, E.le a b = true ↔ a ≤ b) (dens : D → List ℝ) (n : ℕ) (hn : 0 < n)
    (hd : ∀ d, (dens d).length = n ∧ ∀ x ∈ dens d, 0 < x) (hs : ∀ d, E.score d = Score.laLoo ((dens d).map Real.log))
    (v : Bool) (starts : List K) (rounds : Int) (beam : BeamArg) (s : St K D ℝ) (h : explore E v starts rounds beam = .ok s) :
    s.sorted.Pairwise (fun a b => (dens a.data).prod ≤ (dens b.data).prod) := by
  refine (scores_sorted hle h).imp ?_
  intro a b hab
  by_contra hc
  have := (C107_loo (dens b.data) (dens a.data) (hd _).2 (hd _).2 ((hd _).1.trans (hd _).1.symm)
    (fun e => by have := (hd b.data).1; rw [e] at this; simp at this; omega)).2.2 (not_le.1 hc)
  rw [hs, hs] at hab
  linarith

/-- An environment for any score of fitted models: numbers are expressions, expanding to the next two; the model of `k` is `data k`. -/
noncomputable def scoredEnv (data : ℕ → D) (score : D → ℝ) : Env ℕ D ℝ Unit where
  eqv a b := decide (a = b)
  expand k := [k + 1, k + 2]
  le a b := @decide (a ≤ b) (Classical.dec _)
  score := score
  fit _ k := .ok (data k)

-- a search over more and more parameters by BIC and AIC, one by AICc with 20 points, and one by leaving one of two points out
example : ∃ s s' t t', explore (scoredEnv (fun k => ((k : ℝ), k)) (fun d => Score.bic d.1 10 d.2)) false [1, 2] (3 : ℕ) (.int 2) = .ok s ∧
    explore (scoredEnv (fun k => ((k : ℝ), k)) (fun d => Score.aic d.1 10 d.2)) false [1, 2] (3 : ℕ) (.int 2) = .ok s' ∧
    explore (scoredEnv (fun k => ((k : ℝ), k % 5)) (fun d => (Score.aicc d.1 20 d.2).getD 0)) false [1, 2] (3 : ℕ) (.int 2) = .ok t ∧
    explore (scoredEnv (fun k => [(k : ℝ) + 1, 1]) (fun d => Score.laLoo (d.map Real.log))) false [1, 2] (3 : ℕ) (.int 2) = .ok t' ∧
    ∀ (data : ℕ → D) (score : D → ℝ) a b, (scoredEnv data score).le a b = true ↔ a ≤ b := by
  have run : ∀ (D : Type) (data : ℕ → D) (score : D → ℝ), ∃ s, explore (scoredEnv data score) false [1, 2] (3 : ℕ) (.int 2) = .ok s :=
    fun D data score => C31_succeeds _ (fun _ k => ⟨data k, rfl⟩) _ 3 _ (by simp) (by simp)
  obtain ⟨s, h⟩ := run _ (fun k => ((k : ℝ), k)) (fun d => Score.bic d.1 10 d.2)
  obtain ⟨s', h'⟩ := run _ (fun k => ((k : ℝ), k)) (fun d => Score.aic d.1 10 d.2)
  obtain ⟨t, h2⟩ := run _ (fun k => ((k : ℝ), k % 5)) (fun d => (Score.aicc d.1 20 d.2).getD 0)
  obtain ⟨t', h3⟩ := run _ (fun k => [(k : ℝ) + 1, 1]) (fun d => Score.laLoo (d.map Real.log))
  exact ⟨s, s', t, t', h, h', h2, h3, fun data score a b => by simp only [scoredEnv, decide_eq_true_eq]⟩

end GPyABCD
