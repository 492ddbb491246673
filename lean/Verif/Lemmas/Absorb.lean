import Verif.Spec.Shape
import Verif.Lemmas.Counter

namespace GPyABCD
namespace KE

theorem wfL_iff {cs : List KE} : wfL cs = true ↔ ∀ k ∈ cs, k.isBase = false ∧ wf k = true := by
  induction cs with
  | nil => simp [wfL]
  | cons k ks ih => simp [wfL, ih, and_assoc]

theorem wf_comm {o : Op} {c : Counter} {cs : List KE} :
    wf (comm o c cs) = true ↔ c.WF ∧ c.Pos ∧ ∀ k ∈ cs, k.isBase = false ∧ wf k = true := by
  simp [wf, wfL_iff, Counter.Pos, and_assoc]

theorem wf_change {c : CC} {l r : KE} : wf (change c l r) = true ↔ wf l = true ∧ wf r = true := by
  simp [wf]

theorem allNodesL_iff {P : KE → Bool} {cs : List KE} :
    allNodesL P cs = true ↔ ∀ k ∈ cs, allNodes P k = true := by
  induction cs with
  | nil => simp [allNodesL]
  | cons k ks ih => simp [allNodesL, ih]

theorem simplifyL_eq (cfg : Cfg) (cs : List KE) : simplifyL cfg cs = cs.map (simplify cfg) := by
  induction cs with
  | nil => rfl
  | cons k ks ih => simp [simplifyL, ih]

theorem basesL_eq (cs : List KE) : basesL cs = cs.flatMap bases := by
  induction cs with
  | nil => rfl
  | cons k ks ih => simp [basesL, ih]

theorem changesL_eq (cs : List KE) : changesL cs = cs.flatMap changes := by
  induction cs with
  | nil => rfl
  | cons k ks ih => simp [changesL, ih]

theorem isComm_iff {op : Op} {k : KE} : isComm op k = true ↔ ∃ c cs, k = comm op c cs := by
  cases k <;> simp [isComm]

theorem keq_comm_isComm {op : Op} {k y : KE} (hk : isComm op k = true) (h : keq k y = true) :
    isComm op y = true := by
  obtain ⟨c, cs, rfl⟩ := isComm_iff.1 hk
  cases y <;> simp [keq] at h
  simp [isComm, h.1.1]

/-- One step of the loop removes exactly the processed term. -/
theorem removeFirst_self {op : Op} {hc : KE} (h : isComm op hc = true) {pre post : List KE}
    (hpre : ∀ k ∈ pre, isComm op k = false) :
    removeFirst (fun y => keq hc y) (pre ++ hc :: post) = some (pre ++ post) := by
  rw [removeFirst_eq_some]
  refine ⟨pre, hc, post, rfl, rfl, keq_refl hc, ?_⟩
  intro x hx
  by_contra hne
  have := keq_comm_isComm h (by simpa using hne)
  simp [hpre x hx] at this

/-- The counters threaded through the loop of `absorb_homogeneous_composites`: `n` is the length of
the composite list at the time, which only matters through being positive. -/
def absorbBts (cfg : Cfg) (op : Op) : Counter → List (Counter × Nat) → Counter
  | b, [] => b
  | b, (hb, n) :: r => absorbBts cfg op (simplifyBase cfg op (b.updateMap hb) (n + 1)) r

theorem absorb_loop (cfg : Cfg) (op : Op) (todo : List KE) :
    ∀ (b : Counter) (pre post : List KE), (∀ k ∈ pre, isComm op k = false) →
      ∃ ns : List (Counter × Nat), ns.map Prod.fst = (todo.filter (isComm op)).map btsOf ∧
        (todo.filter (isComm op)).foldl (absorbStep cfg op) (b, pre ++ todo ++ post) =
          (absorbBts cfg op b ns,
           pre ++ todo.filter (fun k => !isComm op k) ++ post ++ (todo.filter (isComm op)).flatMap ctsOf) := by
  induction todo with
  | nil => intro b pre post _; exact ⟨[], by simp, by simp [absorbBts]⟩
  | cons k ks ih =>
    intro b pre post hpre
    by_cases hk : isComm op k = true
    · obtain ⟨c, cs, rfl⟩ := isComm_iff.1 hk
      have hstep : absorbStep cfg op (b, pre ++ comm op c cs :: ks ++ post) (comm op c cs) =
          (simplifyBase cfg op (b.updateMap c) (pre ++ comm op c cs :: ks ++ post).length,
            pre ++ ks ++ (post ++ cs)) := by
        simp only [absorbStep]
        have : (pre ++ comm op c cs :: ks ++ post) ++ cs = pre ++ comm op c cs :: (ks ++ post ++ cs) := by simp
        rw [this, removeFirst_self hk hpre]; simp
      obtain ⟨ns, h1, h2⟩ := ih (simplifyBase cfg op (b.updateMap c) (pre ++ comm op c cs :: ks ++ post).length)
        pre (post ++ cs) hpre
      refine ⟨(c, pre.length + ks.length + post.length) :: ns, ?_, ?_⟩
      · simp [hk, h1, btsOf]
      · rw [List.filter_cons_of_pos hk, List.foldl_cons, hstep, h2]
        rw [List.filter_cons_of_neg (by simp [hk])]
        refine Prod.ext ?_ ?_
        · simp only [absorbBts]
          have : (pre ++ comm op c cs :: ks ++ post).length = pre.length + ks.length + post.length + 1 := by
            simp; omega
          rw [this]
        · simp [ctsOf]
    · have hk' : isComm op k = false := by simpa using hk
      obtain ⟨ns, h1, h2⟩ := ih b (pre ++ [k]) post (by
        intro x hx
        rcases List.mem_append.1 hx with h | h
        · exact hpre x h
        · simp at h; rw [h]; exact hk')
      refine ⟨ns, ?_, ?_⟩
      · rw [List.filter_cons_of_neg hk]; exact h1
      · rw [List.filter_cons_of_neg hk, List.filter_cons_of_pos (by simp [hk'])]
        simpa using h2

theorem absorbHomogeneous_eq (cfg : Cfg) (op : Op) (b : Counter) (cts : List KE) :
    ∃ ns : List (Counter × Nat), ns.map Prod.fst = (cts.filter (isComm op)).map btsOf ∧
      absorbHomogeneous cfg op b cts = (absorbBts cfg op b ns,
        cts.filter (fun k => !isComm op k) ++ (cts.filter (isComm op)).flatMap ctsOf) := by
  obtain ⟨ns, h1, h2⟩ := absorb_loop cfg op cts b [] [] (by simp)
  refine ⟨ns, h1, ?_⟩
  simpa [absorbHomogeneous] using h2

/-! ### Base-term simplification -/

theorem wf_simplifyBase {cfg : Cfg} {op : Op} {c : Counter} {n : Nat} (hc : c.WF) :
    (simplifyBase cfg op c n).WF := by
  have ite_wf : ∀ {p : Prop} [Decidable p] {a b : Counter}, a.WF → b.WF → (if p then a else b : Counter).WF := by
    intro p _ a b ha hb; split <;> assumption
  cases op with
  | sum =>
    unfold simplifyBase simplifyBaseSum
    apply Counter.wf_pos
    repeat first | apply ite_wf | apply Counter.wf_put | exact hc
  | prod =>
    unfold simplifyBase simplifyBaseProd
    apply Counter.wf_pos
    apply ite_wf
    · exact Counter.wf_filter (Counter.wf_put hc _ _) _
    · repeat first | apply ite_wf | apply Counter.wf_put | exact hc

theorem pos_simplifyBase {cfg : Cfg} {op : Op} {c : Counter} {n : Nat} : (simplifyBase cfg op c n).Pos := by
  cases op <;> exact Counter.pos_pos _

theorem get_simplifyBaseSum {cfg : Cfg} {c : Counter} (hc : c.WF) (b : Base) :
    (simplifyBaseSum cfg c).get b =
      match b with
      | .WN => max (min (c.get .WN) 1) 0
      | .C => if cfg.linOffset = true ∧ 0 < c.get .LIN then 0 else max (min (c.get .C) 1) 0
      | b => max (c.get b) 0 := by
  have hw := wf_simplifyBase (cfg := cfg) (op := .sum) (n := 0) hc
  unfold simplifyBaseSum
  extract_lets c1 c2 c3
  have h1 : c1.WF := by simp only [c1]; split; exact Counter.wf_put hc _ _; exact hc
  have h2 : c2.WF := by simp only [c2]; split; exact Counter.wf_put h1 _ _; exact h1
  have h3 : c3.WF := by simp only [c3]; split; exact Counter.wf_put h2 _ _; exact h2
  have g1 : ∀ x, c1.get x = if x = .WN then min (c.get .WN) 1 else c.get x := by
    intro x; simp only [c1]
    by_cases h : c.get .WN > 1
    · rw [if_pos h, Counter.get_put]; by_cases hx : x = .WN
      · subst hx; simp; omega
      · simp [hx, Ne.symm hx]
    · rw [if_neg h]; by_cases hx : x = .WN
      · subst hx; simp; omega
      · simp [hx]
  have g2 : ∀ x, c2.get x = if x = .C then min (c.get .C) 1 else c1.get x := by
    intro x; simp only [c2]
    have e : c1.get .C = c.get .C := by rw [g1]; simp
    by_cases h : c1.get .C > 1
    · rw [if_pos h, Counter.get_put]; by_cases hx : x = .C
      · subst hx; simp; omega
      · simp [hx, Ne.symm hx]
    · rw [if_neg h]; by_cases hx : x = .C
      · subst hx; simp; omega
      · simp [hx]
  have eL : c2.get .LIN = c.get .LIN := by rw [g2, g1]; simp
  have g3 : ∀ x, c3.get x = if x = .C ∧ cfg.linOffset = true ∧ 0 < c.get .LIN then 0 else c2.get x := by
    intro x; simp only [c3]
    by_cases h : cfg.linOffset = true ∧ 0 < c.get .LIN
    · rw [if_pos (by simp [eL, h]), Counter.get_put]
      by_cases hx : x = .C
      · subst hx; simp [h]
      · simp [hx, Ne.symm hx]
    · rw [if_neg (by simp only [eL, Bool.and_eq_true, decide_eq_true_eq, gt_iff_lt]; exact h)]
      simp [h]
  rw [Counter.get_pos' h3, g3, g2, g1]
  cases b <;> simp
  split <;> simp

theorem sigmoidCount_def (c : Counter) : sigmoidCount c = c.get .S + c.get .Sr + c.get .SI + c.get .SIr := rfl

/-- Counts after `ProductKE.simplify_base_terms`, without white noise. -/
theorem get_simplifyBaseProd_noWN {c : Counter} {n : Nat} (hc : c.WF) (hp : ∀ b, 0 ≤ c.get b)
    (hw : c.get .WN = 0) (b : Base) :
    (simplifyBaseProd c n).get b =
      match b with
      | .WN => 0
      | .C => if c.get .LIN = 0 ∧ c.get .SE = 0 ∧ c.get .PER = 0 ∧ n = 0 then min (c.get .C) 1 else 0
      | .SE => min (c.get .SE) 1
      | b => c.get b := by
  unfold simplifyBaseProd
  rw [if_neg (by omega)]
  extract_lets c1 c2
  have h1 : c1.WF := by simp only [c1]; split; exact Counter.wf_put hc _ _; exact hc
  have h2 : c2.WF := by simp only [c2]; split; exact Counter.wf_put h1 _ _; exact h1
  have ht := Counter.total_eq hc
  have g1 : ∀ x, c1.get x = if x = .C then
      (if c.get .LIN = 0 ∧ c.get .SE = 0 ∧ c.get .PER = 0 ∧ n = 0 then min (c.get .C) 1 else 0) else c.get x := by
    intro x; simp only [c1]
    have := hp .C; have := hp .LIN; have := hp .SE; have := hp .PER
    by_cases h : c.get .C > 0
    · rw [if_pos h, Counter.get_put]; by_cases hx : x = .C
      · subst hx
        have hs := sigmoidCount_def c
        simp only [if_true]
        by_cases hq : c.get .LIN = 0 ∧ c.get .SE = 0 ∧ c.get .PER = 0 ∧ n = 0
        · rw [if_pos hq, if_neg (by omega)]; omega
        · rw [if_neg hq, if_pos (by omega)]
      · simp [hx, Ne.symm hx]
    · rw [if_neg h]; by_cases hx : x = .C
      · subst hx
        simp only [if_true]
        split <;> omega
      · simp [hx]
  have g2 : ∀ x, c2.get x = if x = .SE then min (c.get .SE) 1 else c1.get x := by
    intro x; simp only [c2]
    have e : c1.get .SE = c.get .SE := by rw [g1]; simp
    by_cases h : c1.get .SE > 1
    · rw [if_pos h, Counter.get_put]; by_cases hx : x = .SE
      · subst hx; simp; omega
      · simp [hx, Ne.symm hx]
    · rw [if_neg h]; by_cases hx : x = .SE
      · subst hx; simp; omega
      · simp [hx]
  rw [Counter.get_pos' h2, g2, g1]
  have := hp b
  have := hp .SE
  cases b <;> simp [hw]
  all_goals first | assumption | (split <;> omega) | omega

/-- Counts after `ProductKE.simplify_base_terms`, with white noise. -/
theorem get_simplifyBaseProd_WN {c : Counter} {n : Nat} (hc : c.WF) (hp : ∀ b, 0 ≤ c.get b)
    (hw : 0 < c.get .WN) (b : Base) :
    (simplifyBaseProd c n).get b =
      if b = .WN then 1 else if b = .LIN ∨ b.isSigmoid = true then c.get b else 0 := by
  unfold simplifyBaseProd
  rw [if_pos (by omega)]
  have h1 := Counter.wf_put hc .WN 1
  have := hp b
  extract_lets c1
  have h2 : c1.WF := Counter.wf_filter h1 _
  rw [Counter.get_pos' h2, Counter.get_filter h1, Counter.get_put]
  cases b <;> simp [Base.isSigmoid] <;> omega

end KE
end GPyABCD
