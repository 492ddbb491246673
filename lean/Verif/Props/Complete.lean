import Verif.Lemmas.Complete
import Verif.Lemmas.CompleteMin
import Verif.Props.EndToEnd
import Verif.Spec.Complete
import Verif.Props.Written
import Verif.Model.Print

/-!
# Properties: the search space (C104)

The default, the original and the full rules reach every expression of the language from every expression; the minimal ones do from a
base kernel alone, and from nothing that has a change operator.
-/

namespace GPyABCD
open KE Search Params
open scoped Pointwise

variable {cfg : Cfg} {o : Orders} {rules : List RuleName}

theorem InLanguage.op1 {T : KE} (h : InLanguage cfg T) (hs : T.isSingleton = false) : Op1 cfg T := by
  have hn := h.normal
  simp only [KE.normal, Bool.and_eq_true] at hn
  obtain ⟨⟨⟨h1, h2⟩, h3⟩, h4⟩ := hn
  refine ⟨h1, h.noEmpty, h2, ?_, h4, h.bases⟩
  cases T with
  | base b => rfl
  | comm op b cs => simp only [allNodes, hs, Bool.and_eq_true]; exact ⟨rfl, h3⟩
  | change x l r =>
    simp only [allBelow, Bool.and_eq_true] at h3
    simp only [allNodes, Bool.and_eq_true, isSingleton]
    exact ⟨⟨rfl, h3.1⟩, h3.2⟩

theorem within_of_inLanguage (ho : o.OK cfg) (hr : Rich rules) {k T : KE} (hk : IsExpr k) (h : InLanguage cfg T) :
    Within cfg o rules (rounds T) k T := by
  by_cases hs : T.isSingleton = true
  · obtain ⟨b, rfl⟩ := h.single hs
    obtain ⟨r, h1, h2⟩ := toSingle ho hr.single hk (h.bases b (by simp [KE.bases, Counter.elements, basesL]))
    exact (Within.step (n := 0) h1 (.same h2)).mono (by simp [rounds, nodes, nodesL]; omega)
  · have h1 := h.op1 (by simpa using hs)
    have hat : At cfg .hole P0 := ⟨op1_P0, rfl⟩
    have g := (grows ho hr T h1 .hole P0 (Or.inr rfl) (by simp [place, Place.fits, h.notBase])) hat
    have hc := cost_le T h1.wf
    rw [h.notBase] at hc
    simp at hc
    exact (Within.trans ho hk hat.isExpr (toP0 ho hr hk) g.2).mono (by simp only [rounds]; omega)

theorem chain_of_within {n : Nat} {X Y : KE} (h : Within cfg o rules n X Y) : ∃ path : List KE, path.length ≤ n ∧
    List.IsChain (fun a b => b ∈ expandNamed cfg o rules a) (X :: path) ∧ keq ((X :: path).getLast (by simp)) Y = true := by
  induction h with
  | same h => exact ⟨[], by simp, by simp, (keq_iff _ _).2 h⟩
  | @step n X r Y h _ ih =>
    obtain ⟨path, h1, h2, h3⟩ := ih
    exact ⟨r :: path, by simpa using h1, List.isChain_cons_cons.2 ⟨h, h2⟩, by simpa using h3⟩

/-- C104: from any expression, some succession of expansions ends in an expression equal to any given one of the language, in no more
rounds than its size allows; `rules` are the rules of any of the three groups, or any others among which these are. -/
theorem C104_reach (cfg : Cfg) (o : Orders) (ho : o.OK cfg) (group : List RuleName) (hg : group ∈ [rulesDefault, rulesOriginal, rulesAll])
    (rules : List RuleName) (hr : group ⊆ rules) (k T : KE) (hk : IsExpr k) (hT : InLanguage cfg T) : ∃ path : List KE, path.length ≤ rounds T ∧
      List.IsChain (fun a b => b ∈ expandNamed cfg o rules a) (k :: path) ∧ keq ((k :: path).getLast (by simp)) T = true := by
  refine chain_of_within (within_of_inLanguage ho ?_ hk hT)
  simp only [List.mem_cons, List.not_mem_nil, or_false] at hg
  rcases hg with rfl | rfl | rfl
  · exact ⟨hr (by decide), hr (by decide), hr (by decide), hr (by decide), hr (by decide), hr (by decide), fun x => Or.inr (hr (by cases x <;> decide))⟩
  · exact ⟨hr (by decide), hr (by decide), hr (by decide), hr (by decide), hr (by decide), hr (by decide), fun x => Or.inl (hr (by decide))⟩
  · exact ⟨hr (by decide), hr (by decide), hr (by decide), hr (by decide), hr (by decide), hr (by decide), fun x => Or.inl (hr (by decide))⟩

-- LIN * (PER + CW(C, LIN * LIN)), which takes at most 24 + 4 + 5 rounds
example : InLanguage .default (comm .prod [(.LIN, 1)] [comm .sum [(.PER, 1)] [change .CW (base .C) (comm .prod [(.LIN, 2)] [])]]) ∧
    rounds (comm .prod [(.LIN, 1)] [comm .sum [(.PER, 1)] [change .CW (base .C) (comm .prod [(.LIN, 2)] [])]]) = 33 :=
  ⟨⟨rfl, by decide, by decide, by
    show ∀ b ∈ [Base.LIN, .PER, .C, .LIN, .LIN], _
    simp [Searched], fun h => absurd h (by decide)⟩, by decide⟩

theorem reachIn_chain {starts : List KE} (ho : o.OK cfg) : ∀ (path : List KE) {n : Nat} {k : KE}, ReachIn cfg starts rules n k →
    List.IsChain (fun a b => b ∈ expandNamed cfg o rules a) (k :: path) → ReachIn cfg starts rules (n + path.length) ((k :: path).getLast (by simp))
  | [], _, _, h, _ => h
  | r :: path, n, k, h, hc => by
    obtain ⟨h1, h2⟩ := List.isChain_cons_cons.1 hc
    have := reachIn_chain ho path (ReachIn.step ho h h1) h2
    rw [List.getLast_cons (by simp), List.length_cons]
    exact (show n + 1 + path.length = n + (path.length + 1) by omega) ▸ this

theorem reachIn_le {starts : List KE} {m n : Nat} (hmn : m ≤ n) {k : KE} (h : ReachIn cfg starts rules m k) : ReachIn cfg starts rules n k := by
  induction n, hmn using Nat.le_induction with
  | base => exact h
  | succ n _ ih => exact ih.mono

/-- C104: a search with one of the three groups of rules, with beams as wide as the models not yet expanded, tests an expression equal
to any given one of the language once it has gone on for as many rounds as its size allows. -/
theorem C104_search {D R ε : Type} (cfg : Cfg) (o : Orders) (ho : o.OK cfg) (group : List RuleName) (hg : group ∈ [rulesDefault, rulesOriginal, rulesAll])
    (le : R → R → Bool) (score : D → R) (fit : Nat → KE → Except ε D) (v : Bool) (starts : List KE) (hs : ∀ k ∈ starts, IsExpr k) (hne : starts ≠ [])
    (n : Nat) (beam : BeamArg) (s : St KE D R) (h : explore (keEnv cfg o group le score fit) v starts n beam = .ok s)
    (hwide : ∀ i < n, ∀ t, explore (keEnv cfg o group le score fit) false starts (i : Nat) beam = .ok t →
      ∀ b ∈ beamAt beam i, (t.notExpanded.length : Int) ≤ b)
    (T : KE) (hT : InLanguage cfg T) (hn : rounds T ≤ n) : ∃ m ∈ s.tested.flatten, keq T m.kex = true := by
  obtain ⟨k, hk⟩ := List.exists_mem_of_ne_nil _ hne
  obtain ⟨path, h1, h2, h3⟩ := C104_reach cfg o ho group hg group (List.Subset.refl _) k T (hs k hk) hT
  have hr := reachIn_le (show 0 + path.length ≤ n by omega) (reachIn_chain (starts := starts) ho path (.start hk) h2)
  obtain ⟨m, hm, e⟩ := (C89_exhaustive cfg o group le score fit ho v starts hs n beam s h hwide).2 _ hr
  exact ⟨m, hm, (keq_iff _ _).2 (((keq_iff _ _).1 h3).symm.trans ((keq_iff _ _).1 e))⟩

theorem explore_congr {K D R ε : Type} {E : Env K D R ε} {starts : List K} {b b' : BeamArg} (h0 : b ≠ .other) (h0' : b' ≠ .other) :
    ∀ {n : Nat}, (∀ r < n, beamAt b r = beamAt b' r) → ∀ {s : St K D R}, explore E false starts (n : Int) b = .ok s →
      explore E false starts (n : Int) b' = .ok s := by
  intro n
  induction n with
  | zero => intro _ s h; exact explore_zero.2 ⟨h0', (explore_zero.1 h).2⟩
  | succ n ih =>
    intro hb s h
    obtain ⟨s0, c, h1, h2, h3⟩ := explore_succ.1 h
    exact explore_succ.2 ⟨s0, c, ih (fun r hr => hb r (by omega)) h1, hb n (by omega) ▸ h2, h3⟩

theorem wide_beams {K D R ε : Type} (E : Env K D R ε) (hf : ∀ n k, ∃ d, E.fit n k = .ok d) (starts : List K) : ∀ n : Nat, ∃ bs : List Int,
    bs.length = n ∧ (∃ s, explore E false starts (n : Int) (.list bs) = .ok s) ∧
      ∀ i < n, ∀ t, explore E false starts (i : Nat) (.list bs) = .ok t → ∀ b ∈ beamAt (.list bs) i, (t.notExpanded.length : Int) ≤ b := by
  intro n
  induction n with
  | zero => exact ⟨[], rfl, explore_total hf starts _ (by simp) 0 (by simp), by simp⟩
  | succ n ih =>
    obtain ⟨bs, h1, ⟨s, h2⟩, h3⟩ := ih
    have hb : ∀ r < n, beamAt (.list (bs ++ [(s.notExpanded.length : Int)])) r = beamAt (.list bs) r := by
      intro r hr
      simp only [beamAt, List.length_append, h1, List.length_singleton]
      rw [if_pos (by omega), if_pos hr, List.getElem?_append_left (by omega)]
    refine ⟨bs ++ [(s.notExpanded.length : Int)], by simp [h1], explore_total hf starts _ (by simp) _ ?_, ?_⟩
    · intro r hr
      simp only [beamAt, List.length_append, h1, List.length_singleton]
      rw [if_pos hr]
      simp [h1]; omega
    · intro i hi t ht b hbi
      by_cases hin : i < n
      · have ht' := explore_congr (b' := .list bs) (by simp) (by simp) (fun r hr => hb r (by omega)) ht
        rw [hb i hin] at hbi
        exact h3 i hin t ht' b hbi
      · obtain rfl : i = n := by omega
        have ht' := explore_congr (b' := .list bs) (by simp) (by simp) hb ht
        rw [h2] at ht'
        simp only [Except.ok.injEq] at ht'
        subst ht'
        simp only [beamAt, List.length_append, h1, List.length_singleton] at hbi
        rw [if_pos (by omega), List.getElem?_append_right (by omega), h1] at hbi
        simp at hbi
        omega

/-- C104: when no fit gives up, there are a number of rounds and beams with which a search tests an expression equal to any given one of
the language, whichever the scores. -/
theorem C104_found {D R ε : Type} (cfg : Cfg) (o : Orders) (ho : o.OK cfg) (group : List RuleName) (hg : group ∈ [rulesDefault, rulesOriginal, rulesAll])
    (le : R → R → Bool) (score : D → R) (fit : Nat → KE → Except ε D) (hf : ∀ n k, ∃ d, fit n k = .ok d)
    (starts : List KE) (hs : ∀ k ∈ starts, IsExpr k) (hne : starts ≠ []) (T : KE) (hT : InLanguage cfg T) :
    ∃ (bs : List Int) (s : St KE D R), bs.length = rounds T ∧ explore (keEnv cfg o group le score fit) false starts (rounds T : Nat) (.list bs) = .ok s ∧
      ∃ m ∈ s.tested.flatten, keq T m.kex = true := by
  obtain ⟨bs, h1, ⟨s, h2⟩, h3⟩ := wide_beams (keEnv cfg o group le score fit) hf starts (rounds T)
  exact ⟨bs, s, h1, h2, C104_search cfg o ho group hg le score fit false starts hs hne _ _ s h2 h3 T hT (Nat.le_refl _)⟩

-- WN alone as a start, and the target above: the hypotheses of `C104_search` hold of the beams of `wide_beams`
example : ∃ (bs : List Int) (s : St KE Nat Nat), bs.length = 33 ∧
    explore (keEnv (ε := Unit) .default ⟨[.WN, .C, .LIN, .PER], [.WN, .LIN, .PER]⟩ rulesDefault (fun a b => decide (a ≤ b)) id (fun n _ => .ok n)) false
      [comm .sum [(.WN, 1)] []] ((33 : Nat) : Int) (.list bs) = .ok s ∧
    ∃ m ∈ s.tested.flatten, keq (comm .prod [(.LIN, 1)] [comm .sum [(.PER, 1)] [change .CW (base .C) (comm .prod [(.LIN, 2)] [])]]) m.kex = true :=
  C104_found .default ⟨[.WN, .C, .LIN, .PER], [.WN, .LIN, .PER]⟩ ⟨by decide, by decide⟩ rulesDefault (by simp) _ _ _ (by simp)
    [comm .sum [(.WN, 1)] []] (by simp; exact ⟨by decide, rfl⟩) (by simp) (comm .prod [(.LIN, 1)] [comm .sum [(.PER, 1)] [change .CW (base .C) (comm .prod [(.LIN, 2)] [])]])
    ⟨rfl, by decide, by decide, by
      show ∀ b ∈ [Base.LIN, .PER, .C, .LIN, .LIN], _
      simp [Searched], fun h => absurd h (by decide)⟩

/-- C104: base kernels that the search does not use are out of reach; SE is one unless the configuration includes it. -/
theorem C104_bases (cfg : Cfg) (rules : List RuleName) (starts : List KE) (hs : ∀ k ∈ starts, IsExpr k ∧ ∀ b ∈ bases k, Searched cfg b)
    (k : KE) (h : Reachable cfg starts rules k) : ∀ b ∈ bases k, Searched cfg b := by
  induction h with
  | start h => exact (hs _ h).2
  | @step k r o ho hk h ih =>
    intro b hb
    have hk' : IsExpr k := by
      obtain ⟨n, hn⟩ := reachable_iff.1 hk
      exact reachIn_isExpr cfg rules (fun k hk => (hs k hk).1) hn
    rcases C22_base_kernels cfg o ho rules k hk' r h b hb with h | h
    · exact ih b h
    · exact h

example : IsExpr (comm .sum [(.WN, 1)] []) ∧ (∀ b ∈ bases (comm .sum [(.WN, 1)] []), Searched .default b) ∧ ¬ Searched .default .SE :=
  ⟨⟨by decide, rfl⟩, by show ∀ b ∈ [Base.WN], _; simp [Searched], by simp [Searched, Cfg.default]⟩

/-! ## The Minimal rules -/

theorem within_minimal (ho : o.OK cfg) (hr : Basic rules) (b : Base) {T : KE} (h : InLanguage cfg T) :
    Within cfg o rules (roundsMinimal T) (comm .sum [(b, 1)] []) T := by
  by_cases hs : T.isSingleton = true
  · obtain ⟨f, rfl⟩ := h.single hs
    exact (swap_one ho hr.exchange (h.bases f (by simp [KE.bases, Counter.elements, basesL]))).mono (by simp [roundsMinimal, nodes, nodesL]; omega)
  · have h1 := h.op1 (by simpa using hs)
    have hat : At cfg .hole P0 := ⟨op1_P0, rfl⟩
    have g := (growsM ho hr T h1 .hole P0 (Or.inr rfl) (by simp [place, Place.fits]; rfl) (by simp [place, Place.fits, h.notBase])) hat
    have hc := costM_le T h1.wf
    rw [h.notBase] at hc
    simp at hc
    have hb : IsExpr (comm .sum [(b, 1)] []) := ⟨by cases b <;> decide, rfl⟩
    have hL : IsExpr (comm .sum [(.LIN, 1)] []) := ⟨by decide, rfl⟩
    exact (Within.trans ho hb hat.isExpr (Within.trans ho hb hL (swap_one ho hr.exchange searched_LIN) (one_P0 ho hr.times)) g.2).mono
      (by simp only [roundsMinimal]; omega)

/-- C104: with the Minimal rules too, from a base kernel alone, some succession of expansions ends in an expression equal to any given one
of the language. -/
theorem C104_minimal (cfg : Cfg) (o : Orders) (ho : o.OK cfg) (rules : List RuleName) (hr : rulesMinimal ⊆ rules) (b : Base) (T : KE)
    (hT : InLanguage cfg T) : ∃ path : List KE, path.length ≤ roundsMinimal T ∧
      List.IsChain (fun a b => b ∈ expandNamed cfg o rules a) (comm .sum [(b, 1)] [] :: path) ∧
      keq ((comm .sum [(b, 1)] [] :: path).getLast (by simp)) T = true :=
  chain_of_within (within_minimal ho ⟨hr (by decide), hr (by decide), hr (by decide), hr (by decide)⟩ b hT)

/-- C104: so a search with the Minimal rules that has a base kernel among its start kernels, with beams as wide as the models not yet
expanded, tests an expression equal to any given one of the language in the end. -/
theorem C104_minimal_search {D R ε : Type} (cfg : Cfg) (o : Orders) (ho : o.OK cfg) (le : R → R → Bool) (score : D → R)
    (fit : Nat → KE → Except ε D) (v : Bool) (starts : List KE) (hs : ∀ k ∈ starts, IsExpr k) (b : Base) (hb : comm .sum [(b, 1)] [] ∈ starts)
    (n : Nat) (beam : BeamArg) (s : St KE D R) (h : explore (keEnv cfg o rulesMinimal le score fit) v starts n beam = .ok s)
    (hwide : ∀ i < n, ∀ t, explore (keEnv cfg o rulesMinimal le score fit) false starts (i : Nat) beam = .ok t →
      ∀ b ∈ beamAt beam i, (t.notExpanded.length : Int) ≤ b)
    (T : KE) (hT : InLanguage cfg T) (hn : roundsMinimal T ≤ n) : ∃ m ∈ s.tested.flatten, keq T m.kex = true := by
  obtain ⟨path, h1, h2, h3⟩ := C104_minimal cfg o ho rulesMinimal (List.Subset.refl _) b T hT
  have hr := reachIn_le (show 0 + path.length ≤ n by omega) (reachIn_chain (starts := starts) ho path (.start hb) h2)
  obtain ⟨m, hm, e⟩ := (C89_exhaustive cfg o rulesMinimal le score fit ho v starts hs n beam s h hwide).2 _ hr
  exact ⟨m, hm, (keq_iff _ _).2 (((keq_iff _ _).1 h3).symm.trans ((keq_iff _ _).1 e))⟩

-- the target above from PER alone, within 5 * 3 + 3 * 1 + 3 * 5 rounds
example : ∃ (bs : List Int) (s : St KE Nat Nat), bs.length = 33 ∧
    explore (keEnv (ε := Unit) .default ⟨[.WN, .C, .LIN, .PER], [.WN, .LIN, .PER]⟩ rulesMinimal (fun a b => decide (a ≤ b)) id (fun n _ => .ok n)) false
      [comm .sum [(.PER, 1)] []] ((33 : Nat) : Int) (.list bs) = .ok s ∧
    ∃ m ∈ s.tested.flatten, keq (comm .prod [(.LIN, 1)] [comm .sum [(.PER, 1)] [change .CW (base .C) (comm .prod [(.LIN, 2)] [])]]) m.kex = true := by
  obtain ⟨bs, h1, ⟨s, h2⟩, h3⟩ := wide_beams (keEnv (ε := Unit) .default ⟨[.WN, .C, .LIN, .PER], [.WN, .LIN, .PER]⟩ rulesMinimal
    (fun a b : Nat => decide (a ≤ b)) id (fun n _ => .ok n)) (by simp [keEnv]) [comm .sum [(.PER, 1)] []] 33
  exact ⟨bs, s, h1, h2, C104_minimal_search .default _ ⟨by decide, by decide⟩ _ _ _ false _ (by simp; exact ⟨by decide, rfl⟩) .PER (by simp) 33 _ s h2 h3
    (comm .prod [(.LIN, 1)] [comm .sum [(.PER, 1)] [change .CW (base .C) (comm .prod [(.LIN, 2)] [])]])
    ⟨rfl, by decide, by decide, by
      show ∀ b ∈ [Base.LIN, .PER, .C, .LIN, .LIN], _
      simp [Searched], fun h => absurd h (by decide)⟩ (by decide)⟩

/-- C104: the start matters with the Minimal rules: what comes from expressions with change operators has change operators. -/
theorem C104_minimal_stays (cfg : Cfg) (starts : List KE) (hs : ∀ k ∈ starts, IsExpr k ∧ changes k ≠ []) (k : KE)
    (h : Reachable cfg starts rulesMinimal k) : changes k ≠ [] := by
  obtain ⟨n, hn⟩ := reachable_iff.1 h
  clear h
  induction hn with
  | start h => exact (hs _ h).2
  | step ho hk h ih => exact expand_keeps ho (reachIn_isExpr cfg rulesMinimal (fun k hk => (hs k hk).1) hk) h ih

-- the base kernel LIN is never tested when the start is a change point
example : IsExpr (change .CP (base .LIN) (base .PER)) ∧ changes (change .CP (base .LIN) (base .PER)) ≠ [] ∧ changes (comm .sum [(.LIN, 1)] []) = [] ∧
    InLanguage .default (comm .sum [(.LIN, 1)] []) :=
  ⟨⟨by decide, rfl⟩, by decide, rfl, rfl, by decide, by decide, by show ∀ b ∈ [Base.LIN], _; simp [Searched], fun _ => ⟨_, rfl⟩⟩

/-! ## Covariances -/

theorem nodes_build (cfg : Cfg) (k : KE) : wf k = true → nodes (build cfg k) ≤ nodes k := by
  induction k using KE.ind with
  | base b => intro _; exact Nat.le_refl _
  | comm o b cs ih =>
    intro h
    obtain ⟨h1, h2, h3⟩ := wf_comm.1 h
    have hl : ∀ ks : List KE, (∀ x ∈ ks, nodes (build cfg x) ≤ nodes x) → nodesL (buildL cfg ks) ≤ nodesL ks := by
      intro ks
      induction ks with
      | nil => intro _; exact Nat.le_refl _
      | cons k ks ih =>
        intro h
        have a1 := h k (by simp)
        have a2 := ih (fun x hx => h x (by simp [hx]))
        simp only [buildL, nodesL]
        omega
    have hwb : wf (comm o b (buildL cfg cs)) = true := by
      rw [buildL_eq]
      refine wf_comm.2 ⟨h1, h2, fun k hk => ?_⟩
      obtain ⟨x, hx, rfl⟩ := List.mem_map.1 hk
      exact ⟨by rw [isBase_build]; exact (h3 x hx).1, wf_build cfg x (h3 x hx).2⟩
    have a := nodes_simplify_le cfg _ hwb
    have b' := hl cs (fun x hx => ih x hx (h3 x hx).2)
    simp only [build, mkC]
    simp only [nodes] at a ⊢
    omega
  | change x l r hl hr =>
    intro h
    obtain ⟨h1, h2⟩ := wf_change.1 h
    have a := nodes_simplify_le cfg (KE.change x (build cfg l) (build cfg r)) (wf_change.2 ⟨wf_build cfg l h1, wf_build cfg r h2⟩)
    have a1 := hl h1
    have a2 := hr h2
    simp only [build, mkChange]
    simp only [nodes] at a ⊢
    omega

/-- A simplified expression with its root standardised is in the language. -/
theorem tidy {k : KE} (hn : normal cfg k = true) (he : noEmpty k = true) (hb : k.isBase = false) (hs : ∀ b ∈ bases k, Searched cfg b) (I : Interp) :
    ∃ T, InLanguage cfg T ∧ den I T = den I k ∧ rounds T ≤ rounds k := by
  by_cases h1 : k.isSingleton = true
  · cases k with
    | base b => simp [isBase] at hb
    | change x l r => simp [isSingleton] at h1
    | comm op b cs =>
      simp only [isSingleton, decide_eq_true_eq] at h1
      cases cs with
      | cons c cs =>
        obtain ⟨rfl, hbl⟩ : cs = [] ∧ b.elements = [] := by
          simp only [List.length_cons] at h1
          exact ⟨List.eq_nil_of_length_eq_zero (by omega), List.eq_nil_of_length_eq_zero (by omega)⟩
        have hc := (normal_child hn).2.2.2 c (by simp)
        refine ⟨c, ⟨hc.1, hc.2.1, ?_, fun x hx => hs x (bases_mem_comm.2 (Or.inr ⟨c, by simp, hx⟩)), fun h => by rw [hc.2.2.1] at h; simp at h⟩, ?_, ?_⟩
        · simp only [noEmpty, allNodes, allNodesL, Bool.and_eq_true] at he
          exact he.2.1
        · cases op <;> simp [den, denL, opFold, hbl]
        · simp only [rounds, nodes, nodesL, changes, changesL, KE.bases, basesL, hbl]
          simp
      | nil =>
        simp only [List.length_nil, Nat.add_zero] at h1
        obtain ⟨f, hf⟩ := List.length_eq_one_iff.1 h1
        refine ⟨comm .sum [(f, 1)] [], ⟨rfl, ?_, rfl, ?_, fun _ => ⟨f, rfl⟩⟩, ?_, ?_⟩
        · have := normal_simplify_iff cfg (comm .sum [(f, 1)] []) (by cases f <;> rfl)
          have e : simplify cfg (comm .sum [(f, 1)] []) = comm .sum [(f, 1)] [] := mkL_one cfg f
          rw [e] at this
          exact this.2 rfl
        · show ∀ x ∈ [f], _
          intro x hx
          exact hs x (bases_mem_comm.2 (Or.inl (by rw [hf]; exact hx)))
        · show opFold .sum (([f] : List Base).map I.F ++ []) = _
          cases op
          · simp [den, denL, opFold, hf]
          · simp only [den, denL, opFold, hf, List.map_cons, List.map_nil, List.nil_append, List.append_nil, List.sum_singleton, List.prod_singleton]
        · show 8 * 1 + 4 * 0 + 1 ≤ _
          simp only [rounds, nodes, nodesL, KE.bases, basesL, hf]
          simp
  · exact ⟨k, ⟨hb, hn, he, hs, fun h => absurd h h1⟩, rfl, Nat.le_refl _⟩

/-- C104 (partial: where LIN meets C while LIN absorbs constants, only with LIN standing for LIN plus a constant, `C02_lin_c_changes`; products of
constants directly inside products are lost, `C92_constant_lost`): whatever a user may write with the searched base kernels, from any
expression some succession of expansions, of no more rounds than its size allows, ends in one with the same covariances. -/
theorem C104_covariances_partial (cfg : Cfg) (o : Orders) (ho : o.OK cfg) (group : List RuleName) (hg : group ∈ [rulesDefault, rulesOriginal, rulesAll])
    (k t : KE) (hk : IsExpr k) (ht : IsExpr t) (he : noEmpty t = true) (hp : noConstProd t = true) (hs : ∀ b ∈ bases t, Searched cfg b)
    (I : Interp) (hI : Reading cfg (bases t) I) : ∃ path : List KE, path.length ≤ rounds t ∧
      List.IsChain (fun a b => b ∈ expandNamed cfg o group a) (k :: path) ∧ den I ((k :: path).getLast (by simp)) = den I t := by
  obtain ⟨c1, c2, c3⟩ := C92_contents cfg t ht.1
  have hn := normal_build cfg t ht.1
  obtain ⟨T, h1, h2, h3⟩ := tidy hn (c3 he hp) (by rw [isBase_simplify, isBase_build]; exact ht.2) (fun b hb => hs b (c1 b hb)) I
  have h4 : rounds (simplify cfg (build cfg t)) ≤ rounds t := by
    have a1 := nodes_simplify_le cfg _ (wf_build cfg t ht.1)
    have a2 := nodes_build cfg t ht.1
    have a3 := c2.length_eq
    have a4 := (bases_simplify cfg _ (wf_build cfg t ht.1)).length_le
    have a5 := (bases_build cfg t ht.1).length_le
    simp only [rounds]
    omega
  obtain ⟨path, p1, p2, p3⟩ := C104_reach cfg o ho group hg group (List.Subset.refl _) k T hk h1
  refine ⟨path, by omega, p2, ?_⟩
  have hw : IsExpr ((k :: path).getLast (by simp)) := by
    have := reachIn_chain (starts := [k]) ho path (n := 0) (.start (by simp)) p2
    exact reachIn_isExpr cfg group (by simpa using hk) this
  rw [den_same I _ _ hw.1 (normal_iff.1 h1.normal).1 ((keq_iff _ _).1 p3), h2]
  exact C92_meaning_partial cfg t ht.1 he hp I hI

-- (PER + (C + LIN) * PER) + WN as one might write it, with LIN standing for LIN plus a constant
example : let t := comm .sum [(.WN, 1)] [comm .sum [(.PER, 1)] [comm .prod [(.PER, 1)] [comm .sum [(.C, 1), (.LIN, 1)] []]]]
    IsExpr t ∧ noEmpty t = true ∧ noConstProd t = true ∧ (∀ b ∈ bases t, Searched .default b) ∧ Reading .default (bases t) (roomyI .default posV) :=
  ⟨⟨by decide, rfl⟩, by decide, by decide, by
    show ∀ b ∈ [Base.WN, .PER, .PER, .C, .LIN], _
    simp [Searched], Or.inl rfl⟩

/-- PER * (PER + LIN * LIN), of which PER * (LIN * LIN) is left when the second PER is removed. -/
theorem nested_step (cfg : Cfg) (o : Orders) (ho : o.OK cfg) (rules : List RuleName) (hr : RuleName.remove_some_term ∈ rules) :
    ∃ r ∈ expandNamed cfg o rules (comm .prod [(.PER, 1)] [comm .sum [(.PER, 1)] [comm .prod [(.LIN, 2)] []]]),
      Same r (comm .prod [(.PER, 1)] [comm .prod [(.LIN, 2)] []]) := by
  have hmem : RuleName.remove_some_term.rule cfg o ∈ rules.map (RuleName.rule cfg o) := List.mem_map.2 ⟨_, hr, rfl⟩
  have e0 : simplify cfg (comm .prod [(.LIN, 2)] []) = comm .prod [(.LIN, 2)] [] := rfl
  have e1 : simplify cfg (comm .sum [] [comm .prod [(.LIN, 2)] []]) = comm .sum [] [comm .prod [(.LIN, 2)] []] := by
    rw [KE.simplify, simplifyL_eq, List.map_cons, List.map_nil, e0]
    obtain ⟨a, b, c⟩ := cfg
    cases b <;> rfl
  obtain ⟨r, h1, h2⟩ := C21_complete_partial cfg _ (C20_builtin_rules cfg o ho rules) (.comm .prod [(.PER, 1)] [] .hole [])
    (comm .sum [(.PER, 1)] [comm .prod [(.LIN, 2)] []]) ⟨by decide, rfl⟩ (by simp [Ctx.endsLeft]) _ hmem (comm .sum [] [comm .prod [(.LIN, 2)] []])
    (by
      show comm .sum [] [comm .prod [(.LIN, 2)] []] ∈ removeATerm cfg (comm .sum [(.PER, 1)] [comm .prod [(.LIN, 2)] []])
      have : mkC cfg .sum ((Counter.pos [(Base.PER, 1)]).add [(.PER, -1)]) [comm .prod [(.LIN, 2)] []] = comm .sum [] [comm .prod [(.LIN, 2)] []] := e1
      exact this ▸ List.mem_cons_self)
  refine ⟨r, h1, ?_⟩
  have e2 : simplify cfg (comm .prod [(.PER, 1)] [comm .sum [] [comm .prod [(.LIN, 2)] []]]) = comm .prod [(.PER, 1)] [comm .prod [(.LIN, 2)] []] := by
    rw [KE.simplify, simplifyL_eq, List.map_cons, List.map_nil, e1]
    rfl
  have e3 : standardise cfg (comm .prod [(.PER, 1)] [comm .sum [] [comm .prod [(.LIN, 2)] []]]) = comm .prod [(.PER, 1)] [comm .prod [(.LIN, 2)] []] := by
    rw [KE.standardise, standardiseF]
    simp only [e2]
    rw [if_pos (by decide)]
    rfl
  exact e3 ▸ h2

theorem orderBase_perm {l l' : List Base} (h : l.Perm l') : orderBase l = orderBase l' := by
  have hinj : ∀ a b : Base, a.order ≤ b.order → b.order ≤ a.order → a = b := by intro a b; cases a <;> cases b <;> decide
  refine List.Perm.eq_of_pairwise (fun a b _ _ => hinj a b) ?_ ?_ ((List.perm_insertionSort _ l).trans (h.trans (List.perm_insertionSort _ l').symm))
  · exact List.pairwise_insertionSort _ _
  · exact List.pairwise_insertionSort _ _

theorem elements_order {c c' : Counter} (h : c.WF) (h' : c'.WF) (hc : ∀ x, c.get x = c'.get x) : orderBase c.elements = orderBase c'.elements :=
  orderBase_perm (List.perm_iff_count.2 (fun x => by rw [Counter.count_elements h, Counter.count_elements h', hc]))

theorem str_leaf {op : Op} {b : Counter} {k : KE} (hb : wf (comm op b []) = true) (hk : wf k = true) (h : Same (comm op b []) k) :
    Print.pyStr k = Print.pyStr (comm op b []) ∧ ∃ b', k = comm op b' [] := by
  cases h with
  | comm hc hf hp =>
    cases hf
    obtain rfl := hp.nil_eq
    have e := elements_order (wf_comm.1 hb).1 (wf_comm.1 hk).1 hc
    refine ⟨?_, _, rfl⟩
    cases op <;> simp only [Print.pyStr, e, Print.strs, Print.brackets]

theorem str_nested {k : KE} {b c : Counter} (hb : wf (comm .prod b [comm .prod c []]) = true) (hk : wf k = true) (h : Same (comm .prod b [comm .prod c []]) k) :
    Print.pyStr k = Print.pyStr (comm .prod b [comm .prod c []]) := by
  cases h with
  | comm hc hf hp =>
    cases hf with
    | cons h1 h2 =>
      cases h2
      obtain rfl := List.singleton_perm.1 hp
      have hw := ((wf_comm.1 hk).2.2 _ List.mem_cons_self).2
      obtain ⟨e, b', rfl⟩ := str_leaf ((wf_comm.1 hb).2.2 _ List.mem_cons_self).2 hw h1
      have e0 := elements_order (wf_comm.1 hb).1 (wf_comm.1 hk).1 hc
      simp only [Print.pyStr, Print.brackets, e0, isComm] at e ⊢
      rw [e]
      rfl

/-- C29: equality of expressions is what counts: with any of the three groups of rules, from any start kernels and whatever the scores, there are
rounds and beams with which two expressions are fitted that are not equal but print the same and have the same covariances. -/
theorem C29_alike {D R ε : Type} (cfg : Cfg) (o : Orders) (ho : o.OK cfg) (group : List RuleName) (hg : group ∈ [rulesDefault, rulesOriginal, rulesAll])
    (le : R → R → Bool) (score : D → R) (fit : Nat → KE → Except ε D) (hf : ∀ n k, ∃ d, fit n k = .ok d)
    (starts : List KE) (hs : ∀ k ∈ starts, IsExpr k) (hne : starts ≠ []) :
    ∃ (bs : List Int) (s : St KE D R), explore (keEnv cfg o group le score fit) false starts (bs.length : Nat) (.list bs) = .ok s ∧
      ∃ m ∈ s.tested.flatten, ∃ m' ∈ s.tested.flatten, ¬ Same m.kex m'.kex ∧ Print.pyStr m.kex = Print.pyStr m'.kex ∧ ∀ I, den I m.kex = den I m'.kex := by
  have hrm : RuleName.remove_some_term ∈ group := by
    simp only [List.mem_cons, List.not_mem_nil, or_false] at hg
    rcases hg with rfl | rfl | rfl <;> decide
  obtain ⟨k0, hk0⟩ := List.exists_mem_of_ne_nil _ hne
  have hK : ∀ T, InLanguage cfg T → ∃ r, ReachIn cfg starts group (rounds T) r ∧ Same r T := by
    intro T hT
    obtain ⟨path, h1, h2, h3⟩ := C104_reach cfg o ho group hg group (List.Subset.refl _) k0 T (hs _ hk0) hT
    exact ⟨_, reachIn_le (show 0 + path.length ≤ _ by omega) (reachIn_chain (starts := starts) ho path (.start hk0) h2), (keq_iff _ _).1 h3⟩
  have hn1 : normal cfg (comm .prod [(.PER, 1)] [comm .sum [(.PER, 1)] [comm .prod [(.LIN, 2)] []]]) = true := by
    obtain ⟨a, b, c⟩ := cfg; cases b <;> rfl
  obtain ⟨r1, g1, g2⟩ := hK (comm .prod [(.PER, 1)] [comm .sum [(.PER, 1)] [comm .prod [(.LIN, 2)] []]]) ⟨rfl, hn1, by decide, by
      show ∀ b ∈ [Base.PER, .PER, .LIN, .LIN], _
      simp [Searched], fun h => absurd h (by decide)⟩
  obtain ⟨r2, f1, f2⟩ := hK (comm .prod [(.PER, 1), (.LIN, 2)] []) ⟨rfl, rfl, by decide, by
      show ∀ b ∈ [Base.PER, .LIN, .LIN], _
      simp [Searched], fun h => absurd h (by decide)⟩
  obtain ⟨r, h1, h2⟩ := nested_step cfg o ho group hrm
  obtain ⟨r3, h3, h4⟩ := C67_expand cfg o ho group _ r1 ⟨by decide, rfl⟩ (reachIn_isExpr cfg group hs g1) ((keq_iff _ _).2 g2.symm) r h1
  generalize hN : rounds (comm .prod [(.PER, 1)] [comm .sum [(.PER, 1)] [comm .prod [(.LIN, 2)] []]]) = N at g1
  generalize hM : rounds (comm .prod [(.PER, 1), (.LIN, 2)] []) = M at f1
  obtain ⟨bs, hb, ⟨s, h5⟩, h6⟩ := wide_beams (keEnv cfg o group le score fit) hf starts (N + 1 + M)
  have hex := C89_exhaustive cfg o group le score fit ho false starts hs (N + 1 + M) (.list bs) s h5 h6
  obtain ⟨m, hm, e⟩ := hex.2 _ (reachIn_le (show N + 1 ≤ N + 1 + M by omega) (.step ho g1 h3))
  obtain ⟨m', hm', e'⟩ := hex.2 _ (reachIn_le (show M ≤ N + 1 + M by omega) f1)
  have e1 : Same (comm .prod [(.PER, 1)] [comm .prod [(.LIN, 2)] []]) m.kex := h2.symm.trans (((keq_iff _ _).1 h4).trans ((keq_iff _ _).1 e))
  have e2 : Same (comm .prod [(.PER, 1), (.LIN, 2)] []) m'.kex := f2.symm.trans ((keq_iff _ _).1 e')
  have w1 := (reachIn_isExpr cfg group hs (hex.1 m hm)).1
  have w2 := (reachIn_isExpr cfg group hs (hex.1 m' hm')).1
  refine ⟨bs, s, by rw [hb]; exact h5, m, hm, m', hm', fun h => absurd ((keq_iff _ _).2 (e1.trans (h.trans e2.symm))) (by decide), ?_, ?_⟩
  · rw [str_nested rfl w1 e1, (str_leaf rfl w2 e2).1]
    rfl
  · intro I
    rw [← den_same I _ _ rfl w1 e1, ← den_same I _ _ rfl w2 e2]
    show opFold .prod ([I.F .PER] ++ [opFold .prod ([I.F .LIN, I.F .LIN] ++ [])]) = opFold .prod ([I.F .PER, I.F .LIN, I.F .LIN] ++ [])
    simp [opFold]

example : ∃ (bs : List Int) (s : St KE Nat Nat),
    explore (keEnv (ε := Unit) .default ⟨[.WN, .C, .LIN, .PER], [.WN, .LIN, .PER]⟩ rulesDefault (fun a b => decide (a ≤ b)) id (fun n _ => .ok n)) false
      [comm .sum [(.WN, 1)] []] (bs.length : Nat) (.list bs) = .ok s ∧
    ∃ m ∈ s.tested.flatten, ∃ m' ∈ s.tested.flatten, ¬ Same m.kex m'.kex ∧ Print.pyStr m.kex = Print.pyStr m'.kex ∧ ∀ I, den I m.kex = den I m'.kex :=
  C29_alike .default _ ⟨by decide, by decide⟩ rulesDefault (by simp) _ _ _ (by simp)
    _ (fun k hk => by rw [List.mem_singleton.1 hk]; exact ⟨by decide, rfl⟩) (by simp)

end GPyABCD
