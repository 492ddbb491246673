import Verif.Lemmas.Complete
import Verif.Lemmas.Additive

/-!
# The search space without removals

How the Minimal rules grow every expression: base terms are exchanged for others, and what is too much is exchanged for white noise, which the
simplification merges. Used by `Props/Complete` (C104).
-/

namespace GPyABCD
open KE

variable {cfg : Cfg} {o : Orders} {rules : List RuleName}

/-- The rules used. -/
structure Basic (rules : List RuleName) : Prop where
  plus : RuleName.plus_base ∈ rules
  times : RuleName.times_base ∈ rules
  exchange : RuleName.replace_base ∈ rules
  change : RuleName.change_same ∈ rules

theorem Basic.op (h : Basic rules) (op : Op) : opRule op ∈ rules := by
  cases op
  · exact h.plus
  · exact h.times

theorem searched_WN : Searched cfg .WN := Or.inl (by decide)

/-- One base kernel for another. -/
theorem Go.swap (ho : o.OK cfg) {C : Ctx} {op : Op} {a b : Base} {l : List Base} {cs : List KE} (hr : RuleName.replace_base ∈ rules)
    (hy : Op1 cfg (N op (b :: l) cs)) : Go cfg o rules 1 C (N op (a :: l) cs) (N op (b :: l) cs) := by
  by_cases hab : a = b
  · subst hab; exact (Go.same (Same.refl _) hy).mono (by omega)
  intro hx
  have hw := hx.op1.wf
  have hb : Searched cfg b := (op1_N.1 hy).2.2.1 b (by simp)
  have w1 := Counter.wf_ofList (a :: l)
  have hn : (swapDict a b).WF := by cases a <;> cases b <;> decide
  have hg : ∀ x, (swapDict a b).get x = if x = b then 1 else if x = a then -1 else 0 := by
    intro x; revert hab; cases a <;> cases b <;> cases x <;> decide
  have hWF : ((Counter.ofList (a :: l)).pos.add (swapDict a b)).WF := Counter.wf_add (Counter.wf_pos w1) hn
  refine moveW (W := comm op ((Counter.ofList (a :: l)).pos.add (swapDict a b)) cs) ho hx hy ((fits_comm _ _ _ _ _ _).trans hx.fits) rfl hr
    (wf_comm.2 ⟨hWF, Counter.pos_add _ _, (wf_comm.1 hw).2.2⟩) ?_ ?_
  · refine List.mem_flatMap.2 ⟨b, mem_all ho hb, List.mem_map.2 ⟨(a, (Counter.ofList (a :: l)).get a), ?_, rfl⟩⟩
    rw [Counter.pos_eq_self (Counter.pos_ofList _)]
    exact Counter.mem_of_get_ne w1 (by rw [Counter.get_ofList, List.count_cons_self]; omega)
  · refine same_N (fun x => ?_)
    rw [Counter.get_add (Counter.wf_pos w1) hn, Counter.get_pos' w1, Counter.get_ofList, hg]
    simp only [List.count_cons]
    by_cases h1 : x = b
    · subst h1; simp [hab]; omega
    · by_cases h2 : x = a
      · subst h2; simp [h1, Ne.symm hab, fun e => hab (Eq.symm e)]; omega
      · have e1 : ¬ a = x := fun e => h2 e.symm
        have e2 : ¬ b = x := fun e => h1 e.symm
        simp [h1, h2, e1, e2]

/-! ## What simplification merges -/

theorem simplify_plug (C : Ctx) {A B : KE} (h : simplify cfg A = simplify cfg B) : simplify cfg (C.plug A) = simplify cfg (C.plug B) := by
  induction C with
  | hole => exact h
  | comm op b l1 C l2 ih => simp only [Ctx.plug, KE.simplify, simplifyL_eq, List.map_append, List.map_cons, ih]
  | left c C r ih => simp only [Ctx.plug, KE.simplify, ih]
  | right c l C ih => simp only [Ctx.plug, KE.simplify, ih]

/-- One rule at one node inside another, where simplification merges the result with the outer node. -/
theorem merge (ho : o.OK cfg) {C D : Ctx} {x y new : KE} (hx : At cfg C (D.plug x)) (hb : x.isBase = false) (hy : At cfg C y) {n : RuleName} (hr : n ∈ rules)
    (h : new ∈ n.rule cfg o x) (hs : simplify cfg (D.plug new) = simplify cfg y) : Within cfg o rules 1 (C.plug (D.plug x)) (C.plug y) := by
  have hmem : n.rule cfg o ∈ rules.map (RuleName.rule cfg o) := List.mem_map.2 ⟨n, hr, rfl⟩
  have hn : nodeOf x = x := by cases x <;> simp_all [nodeOf, isBase]
  obtain ⟨r, h1, h2⟩ := C21_complete_partial cfg _ (C20_builtin_rules cfg o ho rules) (C.comp D) x (by rw [plug_comp]; exact hx.isExpr) (by rw [hb]; simp) _ hmem new
    (by rw [hn]; exact h)
  rw [plug_comp] at h1 h2
  have e : simplify cfg (C.plug (D.plug new)) = C.plug y := by rw [simplify_plug C hs, hy.1.simplify]
  rw [standardise_of_simplify e hy.1] at h2
  exact .step h1 (.same h2)

/-- WN * LIN, WN + PER -/
def PW : KE := N .prod [.LIN, .WN] []
def SW : KE := N .sum [.PER, .WN] []

theorem op1_PW : Op1 cfg PW := op1_N.2 ⟨⟨by decide, by decide, by decide, by decide⟩, by decide, by
  intro x hx; simp at hx; rcases hx with rfl | rfl
  · exact searched_LIN
  · exact searched_WN, by simp⟩

theorem op1_SW : Op1 cfg SW := op1_N.2 ⟨⟨by decide, by decide, fun _ h => absurd h (by decide)⟩, by decide, by
  intro x hx; simp at hx; rcases hx with rfl | rfl
  · exact searched_PER
  · exact searched_WN, by simp⟩

/-- White noise swallows the other base kernel. -/
theorem new_PW (ho : o.OK cfg) : comm .prod [(.WN, 1)] [] ∈ RuleName.replace_base.rule cfg o PW :=
  List.mem_flatMap.2 ⟨.PER, mem_all ho searched_PER, List.mem_map.2 ⟨(.LIN, 1), by decide, rfl⟩⟩

theorem new_SW (ho : o.OK cfg) : comm .sum [(.WN, 1)] [] ∈ RuleName.replace_base.rule cfg o SW := by
  refine List.mem_flatMap.2 ⟨.WN, mem_all ho searched_WN, List.mem_map.2 ⟨(.PER, 1), by decide, ?_⟩⟩
  obtain ⟨a, b, c⟩ := cfg
  cases b <;> rfl

theorem Go.P0_PW (ho : o.OK cfg) (hr : Basic rules) {C : Ctx} : Go cfg o rules 1 C P0 PW :=
  Go.trans ho (Go.swap ho hr.exchange (a := .LIN) (b := .WN) (l := [.LIN]) (op1_perm (List.Perm.swap _ _ _) op1_PW)) (Go.perm (List.Perm.swap _ _ _))

theorem Go.S0_SW (ho : o.OK cfg) (hr : Basic rules) {C : Ctx} : Go cfg o rules 1 C S0 SW :=
  Go.trans ho (Go.swap ho hr.exchange (a := .LIN) (b := .WN) (l := [.PER]) (op1_perm (List.Perm.swap _ _ _) op1_SW)) (Go.perm (List.Perm.swap _ _ _))

/-! ## The kind of a seed -/

theorem Go.toSumM (ho : o.OK cfg) (hr : Basic rules) {C : Ctx} (hf : (place .root C).fits S0 = true) : Go cfg o rules 4 C P0 S0 := by
  have g1 : Go cfg o rules 1 C P0 (N .sum [.PER] [P0]) := by
    intro hx
    have hy : Op1 cfg (N .sum [.PER] [P0]) := op1_N.2 ⟨okS_seed _ (by decide) (by decide), by decide, by
      intro x hx; simp at hx; subst hx; exact searched_PER, by
      intro k hk; simp at hk; subst hk; exact ⟨rfl, rfl, op1_P0⟩⟩
    exact moveW (W := comm .sum (Counter.ofList [.PER]) [P0]) ho hx hy ((fits_comm _ _ _ _ _ _).trans hf) rfl hr.plus hy.wf
      (List.mem_flatMap.2 ⟨.PER, mem_all ho searched_PER, List.mem_cons_self⟩) (Same.refl _)
  have g2 : Go cfg o rules 1 C (N .sum [.PER] [P0]) (N .sum [.PER] [PW]) :=
    Go.inside (D := .comm .sum (Counter.ofList [.PER]) [] .hole []) (Go.P0_PW ho hr)
  have g3 : Go cfg o rules 1 C (N .sum [.PER] [PW]) SW := by
    intro hx
    have hy : At cfg C SW := hx.set op1_SW ((fits_comm _ _ _ _ _ _).trans hf)
    refine ⟨hy, merge ho (D := .comm .sum (Counter.ofList [.PER]) [] .hole []) (x := PW) hx rfl hy hr.exchange (new_PW ho) ?_⟩
    rw [op1_SW.simplify]
    have e : simplify cfg (comm .prod [(.WN, 1)] []) = comm .prod [(.WN, 1)] [] := rfl
    rw [Ctx.plug, KE.simplify, simplifyL_eq]
    simp only [Ctx.plug, List.map_nil, List.map_cons, List.nil_append, e]
    obtain ⟨a, b, c⟩ := cfg
    cases b <;> rfl
  have g4 : Go cfg o rules 1 C (N .sum [.WN, .PER] []) S0 := Go.swap ho hr.exchange op1_S0
  exact Go.trans ho (Go.trans ho (Go.trans ho (Go.trans ho g1 g2) g3) (Go.perm (List.Perm.swap _ _ _))) g4

theorem Go.toProdM (ho : o.OK cfg) (hr : Basic rules) {C : Ctx} (hf : (place .root C).fits P0 = true) : Go cfg o rules 4 C S0 P0 := by
  have g1 : Go cfg o rules 1 C S0 (N .prod [.LIN] [S0]) := by
    intro hx
    have hy : Op1 cfg (N .prod [.LIN] [S0]) := op1_N.2 ⟨⟨by decide, by decide, by decide, by decide⟩, by decide, by
      intro x hx; simp at hx; subst hx; exact searched_LIN, by
      intro k hk; simp at hk; subst hk; exact ⟨rfl, rfl, op1_S0⟩⟩
    exact moveW (W := comm .prod (Counter.ofList [.LIN]) [S0]) ho hx hy ((fits_comm _ _ _ _ _ _).trans hf) rfl hr.times hy.wf
      (List.mem_flatMap.2 ⟨.LIN, mem_noC ho searched_LIN (by decide), List.mem_cons_self⟩) (Same.refl _)
  have g2 : Go cfg o rules 1 C (N .prod [.LIN] [S0]) (N .prod [.LIN] [SW]) :=
    Go.inside (D := .comm .prod (Counter.ofList [.LIN]) [] .hole []) (Go.S0_SW ho hr)
  have g3 : Go cfg o rules 1 C (N .prod [.LIN] [SW]) PW := by
    intro hx
    have hy : At cfg C PW := hx.set op1_PW ((fits_comm _ _ _ _ _ _).trans hf)
    refine ⟨hy, merge ho (D := .comm .prod (Counter.ofList [.LIN]) [] .hole []) (x := SW) hx rfl hy hr.exchange (new_SW ho) ?_⟩
    rw [op1_PW.simplify]
    have e : simplify cfg (comm .sum [(.WN, 1)] []) = comm .sum [(.WN, 1)] [] := mkL_one cfg .WN
    rw [Ctx.plug, KE.simplify, simplifyL_eq]
    simp only [Ctx.plug, List.map_nil, List.map_cons, List.nil_append, e]
    rfl
  have g4 : Go cfg o rules 1 C (N .prod [.WN, .LIN] []) P0 := Go.swap ho hr.exchange op1_P0
  exact Go.trans ho (Go.trans ho (Go.trans ho (Go.trans ho g1 g2) g3) (Go.perm (List.Perm.swap _ _ _))) g4

/-! ## Bare base kernels -/

theorem branch_cases (C : Ctx) : ∀ p : Place, place p C = .branch → (p = .branch ∧ C = .hole) ∨
    ∃ D x k, C = Ctx.comp D (.left x .hole k) ∨ C = Ctx.comp D (.right x k .hole) := by
  induction C with
  | hole => intro p h; exact Or.inl ⟨h, rfl⟩
  | comm op b l1 C l2 ih =>
    intro p h
    rcases ih _ h with ⟨h1, _⟩ | ⟨D, x, k, rfl | rfl⟩
    · cases h1
    · exact Or.inr ⟨.comm op b l1 D l2, x, k, Or.inl rfl⟩
    · exact Or.inr ⟨.comm op b l1 D l2, x, k, Or.inr rfl⟩
  | left c C r ih =>
    intro p h
    rcases ih _ h with ⟨_, rfl⟩ | ⟨D, x, k, rfl | rfl⟩
    · exact Or.inr ⟨.hole, c, r, Or.inl rfl⟩
    · exact Or.inr ⟨.left c D r, x, k, Or.inl rfl⟩
    · exact Or.inr ⟨.left c D r, x, k, Or.inr rfl⟩
  | right c l C ih =>
    intro p h
    rcases ih _ h with ⟨_, rfl⟩ | ⟨D, x, k, rfl | rfl⟩
    · exact Or.inr ⟨.hole, c, l, Or.inr rfl⟩
    · exact Or.inr ⟨.right c l D, x, k, Or.inl rfl⟩
    · exact Or.inr ⟨.right c l D, x, k, Or.inr rfl⟩

theorem Go.outside {n : Nat} {C D : Ctx} {x y : KE} (h : Go cfg o rules n C (D.plug x) (D.plug y)) : Go cfg o rules n (C.comp D) x y := by
  intro hx
  obtain ⟨h1, h2⟩ := h hx.uncomp
  rw [plug_comp, plug_comp]
  exact ⟨h1.comp, h2⟩

/-- Another base kernel as the branch of a change operator. -/
theorem Go.leafSwap (ho : o.OK cfg) (hr : Basic rules) {C : Ctx} (hC : place .root C = .branch) {f : Base} (hf : Searched cfg f) :
    Go cfg o rules 1 C (base .WN) (base f) := by
  by_cases hw : f = .WN
  · subst hw; exact (Go.same (Same.refl _) (op1_base hf)).mono (by omega)
  have hk : keq (base .WN) (base f) = false := by
    revert hw; cases f <;> simp [keq]
  rcases branch_cases C .root hC with ⟨h, _⟩ | ⟨D, x, k, rfl | rfl⟩
  · cases h
  · refine Go.outside fun hx => ?_
    have h2 := (op1_change.1 hx.op1).2
    have hy : Op1 cfg (KE.change x (base f) k) := op1_change.2 ⟨op1_base hf, h2⟩
    refine moveW (W := KE.change x (base f) k) ho hx hy ?_ rfl hr.exchange hy.wf ?_ (Same.refl _)
    · show (place .root D).fits (KE.change _ _ _) = true
      cases place .root D <;> rfl
    · refine List.mem_flatMap.2 ⟨f, mem_all ho hf, ?_⟩
      simp only [Ctx.plug, swapBase, isBase, hk, Bool.not_false, Bool.and_self, if_true]
      exact List.mem_append_left _ List.mem_cons_self
  · refine Go.outside fun hx => ?_
    have h2 := (op1_change.1 hx.op1).1
    have hy : Op1 cfg (KE.change x k (base f)) := op1_change.2 ⟨h2, op1_base hf⟩
    refine moveW (W := KE.change x k (base f)) ho hx hy ?_ rfl hr.exchange hy.wf ?_ (Same.refl _)
    · show (place .root D).fits (KE.change _ _ _) = true
      cases place .root D <;> rfl
    · refine List.mem_flatMap.2 ⟨f, mem_all ho hf, ?_⟩
      simp only [Ctx.plug, swapBase, isBase, hk, Bool.not_false, Bool.and_self, if_true]
      exact List.mem_append_right _ List.mem_cons_self

/-- A node of which white noise is left becomes the bare base kernel. -/
theorem Go.toWN (ho : o.OK cfg) (hr : Basic rules) {C : Ctx} (hC : place .root C = .branch) {s n : KE} (hsb : s.isBase = false)
    (hn : n ∈ RuleName.replace_base.rule cfg o s) (he : extract (simplify cfg n) = base .WN) : Go cfg o rules 1 C s (base .WN) := by
  intro hx
  have hy := hx.set (op1_base searched_WN) (by rw [hC]; rfl)
  refine ⟨hy, ?_⟩
  rcases branch_cases C .root hC with ⟨h, _⟩ | ⟨D, x, k, rfl | rfl⟩
  · cases h
  · have hk := (op1_change.1 hx.uncomp.op1).2
    have := merge ho (D := .left x .hole k) hx.uncomp hsb hy.uncomp hr.exchange hn (by simp only [Ctx.plug, KE.simplify, he]; rfl)
    rw [plug_comp, plug_comp]; exact this
  · have := merge ho (D := .right x k .hole) hx.uncomp hsb hy.uncomp hr.exchange hn (by simp only [Ctx.plug, KE.simplify, he]; rfl)
    rw [plug_comp, plug_comp]; exact this

/-- A branch becomes a bare base kernel. -/
theorem Go.singleM (ho : o.OK cfg) (hr : Basic rules) {C : Ctx} (hC : place .root C = .branch) {s : KE} (hs : Seed s) {f : Base}
    (hf : Searched cfg f) : Go cfg o rules 3 C s (base f) := by
  rcases hs with rfl | rfl
  · refine Go.trans ho (Go.trans ho (Go.S0_SW ho hr) (Go.toWN ho hr hC rfl (new_SW ho) ?_)) (Go.leafSwap ho hr hC hf)
    have e : simplify cfg (comm .sum [(.WN, 1)] []) = comm .sum [(.WN, 1)] [] := mkL_one cfg .WN
    rw [e]; rfl
  · exact Go.trans ho (Go.trans ho (Go.P0_PW ho hr) (Go.toWN ho hr hC rfl (new_PW ho) rfl)) (Go.leafSwap ho hr hC hf)

/-! ## Growing any node -/

/-- A base kernel LIN of a node becomes a seed. -/
theorem Go.newNode (ho : o.OK cfg) (hr : Basic rules) {C : Ctx} {op : Op} {l : List Base} {cs : List KE} :
    ∃ s, Seed s ∧ isComm op s = false ∧ Go cfg o rules 1 C (N op (.LIN :: l) cs) (N op l (cs ++ [s])) := by
  have key : ∀ s : KE, isComm op s = false → s.isBase = false → Op1 cfg s → Op1 cfg (N op (.LIN :: l) cs) → Op1 cfg (N op l (cs ++ [s])) := by
    intro s h1 h2 h3 h
    obtain ⟨a1, a2, a3, a4⟩ := op1_N.1 h
    refine op1_N.2 ⟨okL_tail a1, by simp at a2 ⊢; omega, fun x hx => a3 x (by simp [hx]), fun k hk => ?_⟩
    rcases List.mem_append.1 hk with hk | hk
    · exact a4 k hk
    · simp at hk; subst hk; exact ⟨h2, h1, h3⟩
  have hcnt : ∀ x, ((Counter.ofList (.LIN :: l)).pos.sub (Counter.ofList [.LIN])).get x = (l.count x : Int) := by
    intro x
    rw [Counter.get_sub (Counter.wf_pos (Counter.wf_ofList _)) (Counter.wf_ofList _), Counter.get_pos' (Counter.wf_ofList _), Counter.get_ofList, Counter.get_ofList]
    simp only [List.count_cons, List.count_nil]
    omega
  have hW : ((Counter.ofList (.LIN :: l)).pos.sub (Counter.ofList [.LIN])).WF := Counter.wf_sub (Counter.wf_pos (Counter.wf_ofList _)) (Counter.wf_ofList _)
  have hmem : Base.LIN ∈ (Counter.ofList (.LIN :: l)).elements := (elements_ofList _).symm.subset (by simp)
  cases op with
  | sum =>
    refine ⟨P0, Or.inr rfl, rfl, fun hx => ?_⟩
    have hy := key P0 rfl rfl op1_P0 hx.op1
    refine moveW (W := comm .sum ((Counter.ofList (.LIN :: l)).pos.sub (Counter.ofList [.LIN])) (cs ++ [P0])) ho hx hy
      ((fits_comm _ _ _ _ _ _).trans hx.fits) rfl hr.times (wf_comm.2 ⟨hW, Counter.pos_sub _ _, (wf_comm.1 hy.wf).2.2⟩) ?_ (same_N hcnt)
    refine List.mem_flatMap.2 ⟨.LIN, mem_noC ho searched_LIN (by decide), List.mem_cons_of_mem _ (List.mem_map.2 ⟨.LIN, hmem, ?_⟩)⟩
    have e : mkL cfg .prod [.LIN, .LIN] [] = P0 := by
      obtain ⟨a, b, c⟩ := cfg
      cases b <;> rfl
    rw [e]; rfl
  | prod =>
    refine ⟨S0, Or.inl rfl, rfl, fun hx => ?_⟩
    have hy := key S0 rfl rfl op1_S0 hx.op1
    have e : mkL cfg .sum [.PER, .LIN] [] = N .sum [.PER, .LIN] [] := by
      obtain ⟨a, b, c⟩ := cfg
      cases b <;> rfl
    have hwl : ∀ k ∈ cs ++ [N .sum [.PER, .LIN] []], k.isBase = false ∧ wf k = true := by
      intro k hk
      rcases List.mem_append.1 hk with hk | hk
      · exact (wf_comm.1 hy.wf).2.2 k (List.mem_append_left _ hk)
      · simp at hk; subst hk; exact ⟨rfl, rfl⟩
    refine moveW (W := comm .prod ((Counter.ofList (.LIN :: l)).pos.sub (Counter.ofList [.LIN])) (cs ++ [N .sum [.PER, .LIN] []])) ho hx hy
      ((fits_comm _ _ _ _ _ _).trans hx.fits) rfl hr.plus (wf_comm.2 ⟨hW, Counter.pos_sub _ _, hwl⟩) ?_ ?_
    · refine List.mem_flatMap.2 ⟨.PER, mem_all ho searched_PER, List.mem_cons_of_mem _ (List.mem_map.2 ⟨.LIN, hmem, ?_⟩)⟩
      rw [e]; rfl
    · refine SameL.same (fun x => by rw [hcnt, Counter.get_ofList]) ?_
      exact SameL.append (SameL.refl _) (SameL.cons (same_perm (List.Perm.swap _ _ _)) (SameL.refl []))

/-- Base kernels LIN become others one by one. -/
theorem Go.fill (ho : o.OK cfg) (hr : Basic rules) {C : Ctx} {op : Op} {cs : List KE} : ∀ (todo done : List Base),
    (∀ p f q, todo = p ++ f :: q → Op1 cfg (N op (done ++ p ++ f :: List.replicate q.length .LIN) cs)) →
    Go cfg o rules todo.length C (N op (done ++ List.replicate todo.length .LIN) cs) (N op (done ++ todo) cs)
  | [], done, _ => fun hx => ⟨hx, .same (Same.refl _)⟩
  | f :: todo, done, h => by
    have h0 := h [] f todo rfl
    rw [List.append_nil] at h0
    have g1 : Go cfg o rules 0 C (N op (done ++ List.replicate (f :: todo).length .LIN) cs) (N op (.LIN :: (done ++ List.replicate todo.length .LIN)) cs) :=
      Go.perm (by rw [List.length_cons, List.replicate_succ]; exact List.perm_middle)
    have g2 : Go cfg o rules 1 C (N op (.LIN :: (done ++ List.replicate todo.length .LIN)) cs) (N op (f :: (done ++ List.replicate todo.length .LIN)) cs) :=
      Go.swap ho hr.exchange (op1_perm List.perm_middle h0)
    have g3 : Go cfg o rules 0 C (N op (f :: (done ++ List.replicate todo.length .LIN)) cs) (N op (done ++ [f] ++ List.replicate todo.length .LIN) cs) :=
      Go.perm (by rw [List.append_assoc]; exact List.perm_middle.symm)
    have g4 := Go.fill ho hr (C := C) todo (done ++ [f]) (fun p g q e => by
      have := h (f :: p) g q (by rw [e]; rfl)
      simpa [List.append_assoc] using this)
    have g := Go.trans ho (Go.trans ho (Go.trans ho g1 g2) g3) g4
    rw [List.append_assoc, List.singleton_append] at g
    exact g.mono (by simp only [List.length_cons]; omega)

theorem op1_fill {op : Op} {p q : List Base} {f : Base} {cs : List KE} (h : Op1 cfg (N op (p ++ f :: q) cs))
    (hC : .C ∈ p ++ [f] → q = []) : Op1 cfg (N op (p ++ f :: List.replicate q.length .LIN) cs) := by
  by_cases hq : q = []
  · subst hq; exact h
  have hn : (p ++ [f]).count .C = 0 := List.count_eq_zero.2 (fun hm => hq (hC hm))
  obtain ⟨a1, a2, a3, a4⟩ := op1_N.1 h
  have hc : ∀ b : Base, b ≠ .LIN → (p ++ f :: List.replicate q.length Base.LIN).count b ≤ (p ++ f :: q).count b := by
    intro b hb
    have : (List.replicate q.length Base.LIN).count b = 0 := by
      rw [List.count_eq_zero]; intro hm; exact hb (List.eq_of_mem_replicate hm)
    simp only [List.count_append, List.count_cons]; omega
  have hC0 : (p ++ f :: List.replicate q.length Base.LIN).count .C = 0 := by
    have : (List.replicate q.length Base.LIN).count .C = 0 := by
      rw [List.count_eq_zero]; intro hm; cases List.eq_of_mem_replicate hm
    simp only [List.count_append, List.count_cons, List.count_nil] at hn ⊢
    omega
  have hW := hc .WN (by decide)
  have hS := hc .SE (by decide)
  have hP := hc .PER (by decide)
  refine op1_N.2 ⟨?_, by simpa using a2, fun x hx => ?_, a4⟩
  · cases op with
    | sum => exact okS_seed _ hC0 (by have := a1.1; omega)
    | prod =>
      simp only [okL, okP] at a1 ⊢
      omega
  · rw [List.mem_append, List.mem_cons] at hx
    rcases hx with hx | hx | hx
    · exact a3 x (by simp [hx])
    · exact a3 x (by simp [hx])
    · rw [List.eq_of_mem_replicate hx]; exact searched_LIN

theorem okL_C {op : Op} {l : List Base} (h : okL cfg op l) : l.count .C ≤ 1 := by
  cases op
  · exact h.2.1
  · have := h.1; omega

/-- The base terms of a node, from as many base kernels LIN. -/
theorem fill_bases (ho : o.OK cfg) (hr : Basic rules) {C : Ctx} {op : Op} {l : List Base} {cs : List KE} (h : Op1 cfg (N op l cs)) :
    Go cfg o rules l.length C (N op (List.replicate l.length .LIN) cs) (N op l cs) := by
  obtain ⟨l', hp, hl⟩ : ∃ l' : List Base, l'.Perm l ∧ ∀ p f q, l' = p ++ f :: q → .C ∈ p ++ [f] → q = [] := by
    by_cases hC : Base.C ∈ l
    · have hc := okL_C (op1_N.1 h).1
      have he : .C ∉ l.erase .C := by
        rw [← List.count_eq_zero, List.count_erase_self]; omega
      refine ⟨l.erase .C ++ [.C], (List.perm_append_singleton _ _).trans (List.perm_cons_erase hC).symm, fun p f q e hm => ?_⟩
      rcases List.eq_nil_or_concat q with rfl | ⟨q', x, rfl⟩
      · rfl
      · have e' : l.erase .C ++ [.C] = (p ++ f :: q') ++ [x] := by rw [e]; simp
        have := (List.append_inj' e' rfl).1
        rw [this] at he
        refine absurd ?_ he
        simp only [List.mem_append, List.mem_cons, List.not_mem_nil, or_false] at hm ⊢
        tauto
    · refine ⟨l, List.Perm.refl _, fun p f q e hm => absurd ?_ hC⟩
      rw [e]
      simp only [List.mem_append, List.mem_cons, List.not_mem_nil, or_false] at hm ⊢
      tauto
  have h' := op1_perm hp.symm h
  have g := Go.fill ho hr (C := C) (op := op) (cs := cs) l' [] (fun p f q e => by
    rw [List.nil_append]
    exact op1_fill (e ▸ h') (hl p f q e))
  rw [List.nil_append, List.nil_append] at g
  rw [← hp.length_eq]
  exact Go.trans ho g (Go.perm hp)

mutual
/-- A number of expansions that grows a node from a seed. -/
def costM : KE → Nat
  | KE.base _ => 3
  | KE.comm _ b cs => costML cs + 2 * b.elements.length + 3
  | KE.change _ l r => costM l + costM r + 1
/-- The same for the composite terms, with the making of the seeds. -/
def costML : List KE → Nat
  | [] => 0
  | k :: ks => costM k + 2 + costML ks
end

/-- What is to be shown of every node. -/
def GrowsM (cfg : Cfg) (o : Orders) (rules : List RuleName) (T : KE) : Prop :=
  ∀ (C : Ctx) (s : KE), Seed s → (place .root C).fits s = true → (place .root C).fits T = true → Go cfg o rules (costM T) C s T

theorem grow_termsM (ho : o.OK cfg) (hr : Basic rules) {C : Ctx} {op : Op} (n : Nat) : ∀ (rest done : List KE),
    (∀ k ∈ rest, k.isBase = false ∧ isComm op k = false ∧ Op1 cfg k ∧ GrowsM cfg o rules k) → ∃ m, m + rest.length = costML rest ∧
    Go cfg o rules m C (N op (List.replicate (rest.length + n) .LIN) done) (N op (List.replicate n .LIN) (done ++ rest))
  | [], done, _ => by
    refine ⟨0, rfl, fun hx => ?_⟩
    simp only [List.length_nil, Nat.zero_add, List.append_nil] at hx ⊢
    exact ⟨hx, .same (Same.refl _)⟩
  | k :: rest, done, h => by
    obtain ⟨k1, k2, k3, k4⟩ := h k (by simp)
    obtain ⟨s, hs, hc, g1⟩ := Go.newNode (cfg := cfg) (o := o) (rules := rules) ho hr (C := C) (op := op) (l := List.replicate (rest.length + n) .LIN) (cs := done)
    have g2 : Go cfg o rules (costM k) C (N op (List.replicate (rest.length + n) .LIN) (done ++ [s])) (N op (List.replicate (rest.length + n) .LIN) (done ++ [k])) :=
      Go.inside (D := .comm op (Counter.ofList (List.replicate (rest.length + n) .LIN)) done .hole [])
        (k4 _ s hs (by rw [place_comp]; simp [place, Place.fits, hs.notBase, hc]) (by rw [place_comp]; simp [place, Place.fits, k1, k2]))
    obtain ⟨m, hm, g3⟩ := grow_termsM ho hr (C := C) n rest (done ++ [k]) (fun x hx => h x (by simp [hx]))
    have g := Go.trans ho (Go.trans ho g1 g2) g3
    rw [List.append_assoc, List.singleton_append] at g
    refine ⟨_, ?_, by rw [show (k :: rest).length + n = rest.length + n + 1 by simp only [List.length_cons]; omega, List.replicate_succ]; exact g⟩
    simp only [costML, List.length_cons]; omega

/-- A node of two base kernels LIN. -/
theorem Go.twoLIN (ho : o.OK cfg) (hr : Basic rules) {C : Ctx} {s : KE} (hs : Seed s) (op : Op) (hf : (place .root C).fits s = true)
    (hf' : (place .root C).fits (N op [] []) = true) : Go cfg o rules 5 C s (N op [.LIN, .LIN] []) := by
  cases op with
  | sum =>
    have h0 : Go cfg o rules 4 C s S0 := by
      rcases hs with rfl | rfl
      · exact (Go.same (Same.refl _) op1_S0).mono (by omega)
      · exact Go.toSumM ho hr ((fits_comm _ _ _ _ _ _).trans hf')
    have h1 : Go cfg o rules 0 C S0 (N .sum [.PER, .LIN] []) := Go.perm (List.Perm.swap _ _ _)
    have h2 : Go cfg o rules 1 C (N .sum [.PER, .LIN] []) (N .sum [.LIN, .LIN] []) :=
      Go.swap ho hr.exchange (op1_N.2 ⟨okS_seed _ (by decide) (by decide), by decide, by
        intro x hx; simp at hx; subst hx; exact searched_LIN, by simp⟩)
    exact Go.trans ho (Go.trans ho h0 h1) h2
  | prod =>
    rcases hs with rfl | rfl
    · exact (Go.toProdM ho hr ((fits_comm _ _ _ _ _ _).trans hf')).mono (by omega)
    · exact (Go.same (Same.refl _) op1_P0).mono (by omega)

theorem Go.manyLIN (ho : o.OK cfg) (hr : Basic rules) {C : Ctx} (op : Op) {m : Nat} (hm : 2 ≤ m) :
    Go cfg o rules (m - 2) C (N op [.LIN, .LIN] []) (N op (List.replicate m .LIN) []) := by
  have e : List.replicate m Base.LIN = List.replicate (m - 2) .LIN ++ [.LIN, .LIN] := by
    rw [show [Base.LIN, .LIN] = List.replicate 2 .LIN from rfl, List.replicate_append_replicate]
    congr 1; omega
  have hop : Op1 cfg (N op (List.replicate m .LIN) []) := by
    refine op1_N.2 ⟨?_, by simpa using hm, fun x hx => by rw [List.eq_of_mem_replicate hx]; exact searched_LIN, by simp⟩
    have hz : ∀ b : Base, b ≠ .LIN → (List.replicate m Base.LIN).count b = 0 := fun b hb =>
      List.count_eq_zero.2 (fun hm => hb (List.eq_of_mem_replicate hm))
    cases op with
    | sum => exact okS_seed _ (hz _ (by decide)) (by rw [hz _ (by decide)]; omega)
    | prod =>
      have h1 := hz .C (by decide)
      have h2 := hz .WN (by decide)
      have h3 := hz .SE (by decide)
      simp only [okL, okP]; omega
  rw [e] at hop ⊢
  have := Go.addMany (C := C) ho (hr.op op) (by simp) (List.replicate (m - 2) Base.LIN) hop
  rwa [List.length_replicate] at this

/-- Every node grows from a seed. -/
theorem growsM (ho : o.OK cfg) (hr : Basic rules) (T : KE) : Op1 cfg T → GrowsM cfg o rules T := by
  induction T using KE.ind with
  | base f =>
    intro h C s hs _ hf
    have e : costM (base f) = 3 := by simp only [costM]
    rw [e]
    refine Go.singleM ho hr ?_ hs (h.bases f (by simp [KE.bases]))
    cases hp : place .root C with
    | root => rw [hp] at hf; simp [Place.fits, isBase] at hf
    | term _ => rw [hp] at hf; simp [Place.fits, isBase] at hf
    | branch => rfl
  | change x l r hl hrr =>
    intro h C s hs _ hf
    obtain ⟨h1, h2⟩ := op1_change.1 h
    have g : Go cfg o rules 1 C s (KE.change x s s) := by
      intro hx
      have hy : Op1 cfg (KE.change x s s) := op1_change.2 ⟨hs.op1, hs.op1⟩
      refine moveW (W := KE.change x s s) ho hx hy ?_ hs.notBase hr.change hy.wf ?_ (Same.refl _)
      · cases place .root C <;> simp [Place.fits, isBase, isComm]
      · show mkChange cfg x s s ∈ bothChanges cfg s none
        cases x <;> simp [bothChanges]
    have g1 : Go cfg o rules (costM r) C (KE.change x s s) (KE.change x s r) :=
      Go.inside (D := .right x s .hole) (hrr h2 _ s hs (by rw [place_comp]; rfl) (by rw [place_comp]; rfl))
    have g2 : Go cfg o rules (costM l) C (KE.change x s r) (KE.change x l r) :=
      Go.inside (D := .left x .hole r) (hl h1 _ s hs (by rw [place_comp]; rfl) (by rw [place_comp]; rfl))
    exact (Go.trans ho (Go.trans ho g g1) g2).mono (by simp only [costM]; omega)
  | comm op b cs ih =>
    intro h C s hs hfs hf
    obtain ⟨e1, e2⟩ := op1_elements h
    have hcs := (op1_comm.1 h).2.2.2.2.2
    have hm := (op1_comm.1 h).2.2.2.1
    have hih : ∀ k ∈ cs, k.isBase = false ∧ isComm op k = false ∧ Op1 cfg k ∧ GrowsM cfg o rules k :=
      fun k hk => ⟨(hcs k hk).1, (hcs k hk).2.1, (hcs k hk).2.2, ih k hk (hcs k hk).2.2⟩
    have g0 := Go.twoLIN ho hr hs op hfs ((fits_comm _ _ _ _ _ _).trans hf)
    have g1 := Go.manyLIN (cfg := cfg) (o := o) (rules := rules) ho hr (C := C) op (m := cs.length + b.elements.length) (by omega)
    obtain ⟨m, hm', g2⟩ := grow_termsM ho hr (C := C) b.elements.length cs [] hih
    have g3 := fill_bases ho hr (C := C) e1
    refine (Go.trans ho (Go.trans ho (Go.trans ho (Go.trans ho g0 g1) g2) g3) (Go.same e2 h)).mono ?_
    simp only [costM]; omega

/-! ## From one base kernel -/

theorem swap_one (ho : o.OK cfg) (hr : RuleName.replace_base ∈ rules) {a b : Base} (hb : Searched cfg b) :
    Within cfg o rules 1 (comm .sum [(a, 1)] []) (comm .sum [(b, 1)] []) := by
  by_cases hab : a = b
  · subst hab; exact (Within.same (Same.refl _) : Within cfg o rules 0 _ _).mono (by omega)
  have hmem : RuleName.replace_base.rule cfg o ∈ rules.map (RuleName.rule cfg o) := List.mem_map.2 ⟨_, hr, rfl⟩
  obtain ⟨r, h1, h2⟩ := C21_complete_partial cfg _ (C20_builtin_rules cfg o ho rules) .hole (comm .sum [(a, 1)] []) ⟨by cases a <;> decide, rfl⟩ (by simp [Ctx.endsLeft]) _ hmem
    (comm .sum [(b, 1)] []) (List.mem_flatMap.2 ⟨b, mem_all ho hb, List.mem_map.2 ⟨(a, 1), by cases a <;> exact List.mem_cons_self, by
      have e : (Counter.pos [(a, 1)]).add (swapDict a b) = [(b, 1)] := by revert hab; cases a <;> cases b <;> decide
      show mkC cfg .sum ((Counter.pos [(a, 1)]).add (swapDict a b)) [] = _
      rw [e, ← mkL_one cfg b]; rfl⟩⟩)
  rw [Ctx.plug, standardise_one] at h2
  exact .step h1 (.same h2)

theorem one_P0 (ho : o.OK cfg) (hr : RuleName.times_base ∈ rules) : Within cfg o rules 1 (comm .sum [(.LIN, 1)] []) P0 := by
  have hmem : RuleName.times_base.rule cfg o ∈ rules.map (RuleName.rule cfg o) := List.mem_map.2 ⟨_, hr, rfl⟩
  obtain ⟨r', h3, h4⟩ := C21_complete_partial cfg _ (C20_builtin_rules cfg o ho rules) .hole (comm .sum [(.LIN, 1)] []) ⟨by decide, rfl⟩ (by decide) _ hmem
    (mulRes cfg (nodeOf (base .LIN)) (base .LIN)) (List.mem_flatMap.2 ⟨.LIN, mem_noC ho searched_LIN (by decide), List.mem_cons_self⟩)
  have e : mulRes cfg (nodeOf (base .LIN)) (base .LIN) = P0 := by
    show simplify cfg (comm .prod (Counter.ofList [.LIN]) [comm .sum [(.LIN, 1)] []]) = _
    have e : simplify cfg (comm .sum [(.LIN, 1)] []) = comm .sum [(.LIN, 1)] [] := mkL_one cfg .LIN
    rw [KE.simplify, simplifyL, simplifyL, e]
    rfl
  rw [Ctx.plug, e, op1_P0.standardise] at h4
  exact .step h3 (.same h4)

theorem costM_le (k : KE) : wf k = true → costM k + (if k.isBase then 0 else 2) ≤ 5 * KE.nodes k + 3 * (changes k).length + 3 * (bases k).length := by
  induction k using KE.ind with
  | base b => intro _; simp [costM, isBase, KE.nodes, changes, bases]
  | change x l r hl hr =>
    intro h
    obtain ⟨h1, h2⟩ := wf_change.1 h
    have := hl h1
    have := hr h2
    simp only [costM, isBase, KE.nodes, changes, bases, List.length_append, List.length_cons]
    simp
    omega
  | comm o b cs ih =>
    intro h
    have h3 := (wf_comm.1 h).2.2
    have : costML cs ≤ 5 * nodesL cs + 3 * (changesL cs).length + 3 * (basesL cs).length := by
      clear h
      induction cs with
      | nil => simp [costML]
      | cons k ks ih2 =>
        have h1 := ih k (by simp) (h3 k (by simp)).2
        have h2 := ih2 (fun x hx => ih x (by simp [hx])) (fun x hx => h3 x (by simp [hx]))
        rw [(h3 k (by simp)).1] at h1
        simp only [costML, nodesL, changesL, basesL, List.length_append]
        simp at h1
        omega
    simp only [costM, isBase, KE.nodes, changes, bases, List.length_append]
    simp
    omega

/-! ## Change operators that stay -/

theorem changes_extract_eq (k : KE) : changes (extract k) = changes k := by
  cases k with
  | base b => rfl
  | change _ _ _ => rfl
  | comm o c cs =>
    simp only [extract]
    split
    · split <;> simp [changes, changesL]
    · split <;> simp [changes, changesL]
    · rfl

theorem changes_simplify_sup (cfg : Cfg) (k : KE) : ∀ x ∈ changes k, x ∈ changes (simplify cfg k) := by
  induction k using KE.ind with
  | base b => exact fun x h => h
  | comm o c cs ih =>
    intro x hx
    obtain ⟨ns, _, e⟩ := absorb_eq cfg o c (cs.map (simplify cfg))
    rw [simplify, simplifyL_eq, e]
    obtain ⟨u, hu, h⟩ := changes_mem_comm.1 hx
    have h := ih u hu x h
    have key : ∀ z ∈ flat o (cs.map (simplify cfg)), x ∈ changes z → ∃ y ∈ restOf (flat o (cs.map (simplify cfg))), x ∈ changes y := by
      intro z hz hxz
      rw [← changes_extract_eq] at hxz
      refine ⟨extract z, mem_restOf.2 ⟨⟨z, hz, rfl⟩, ?_⟩, hxz⟩
      cases he : extract z with
      | base b => rw [he] at hxz; simp [changes] at hxz
      | comm _ _ _ => rfl
      | change _ _ _ => rfl
    refine changes_mem_comm.2 ?_
    by_cases hc : isComm o (simplify cfg u) = true
    · obtain ⟨c', xs, e'⟩ := isComm_iff.1 hc
      have h' := h
      rw [e'] at h'
      obtain ⟨z, hz, hxz⟩ := changes_mem_comm.1 h'
      exact key z (mem_flat.2 (Or.inr ⟨simplify cfg u, List.mem_map_of_mem hu, hc, by rw [e']; exact hz⟩)) hxz
    · exact key _ (mem_flat.2 (Or.inl ⟨List.mem_map_of_mem hu, by simpa using hc⟩)) h
  | change c l r hl hr =>
    intro x hx
    simp only [simplify, changes, List.mem_cons, List.mem_append, changes_extract_eq] at hx ⊢
    rcases hx with h | h | h
    · exact Or.inl h
    · exact Or.inr (Or.inl (hl x h))
    · exact Or.inr (Or.inr (hr x h))

theorem sup_mkC {cfg : Cfg} {op : Op} {b : Counter} {cs : List KE} {x : CC} (h : ∃ k ∈ cs, x ∈ changes k) : x ∈ changes (mkC cfg op b cs) :=
  changes_simplify_sup cfg _ x (changes_mem_comm.2 h)

theorem basic_keeps {n : RuleName} (hn : n ∈ rulesMinimal) {S new : KE} (h : new ∈ n.rule cfg o S) : ∀ x ∈ changes S, x ∈ changes new := by
  intro x hx
  simp only [rulesMinimal, List.mem_cons, List.not_mem_nil, or_false] at hn
  rcases hn with rfl | rfl | rfl | rfl
  · obtain ⟨B, _, h⟩ := List.mem_flatMap.1 h
    simp only [add, List.mem_cons] at h
    cases S with
    | base b => simp [changes] at hx
    | comm op b cs =>
      cases op with
      | sum =>
        simp only [addRes, addNested, List.not_mem_nil, or_false] at h
        subst h; exact sup_mkC (changes_mem_comm.1 hx)
      | prod =>
        simp only [addRes, addNested, addNestedAt, mkL, List.mem_map] at h
        rcases h with rfl | ⟨bt, _, rfl⟩
        · exact sup_mkC ⟨_, by simp, hx⟩
        · obtain ⟨k, hk, hxk⟩ := changes_mem_comm.1 hx
          exact sup_mkC ⟨k, by simp [hk], hxk⟩
    | change c l r =>
      simp only [addRes, addNested, mkL, List.not_mem_nil, or_false] at h
      subst h; exact sup_mkC ⟨_, by simp, hx⟩
  · obtain ⟨B, _, h⟩ := List.mem_flatMap.1 h
    simp only [multiply, List.mem_cons] at h
    cases S with
    | base b => simp [changes] at hx
    | comm op b cs =>
      cases op with
      | sum =>
        simp only [mulRes, mulNested, mulNestedAt, mkL, List.mem_map] at h
        rcases h with rfl | ⟨bt, _, rfl⟩
        · exact sup_mkC ⟨_, by simp, hx⟩
        · obtain ⟨k, hk, hxk⟩ := changes_mem_comm.1 hx
          exact sup_mkC ⟨k, by simp [hk], hxk⟩
      | prod =>
        simp only [mulRes, mulNested, List.not_mem_nil, or_false] at h
        subst h; exact sup_mkC (changes_mem_comm.1 hx)
    | change c l r =>
      simp only [mulRes, mulNested, mkL, List.not_mem_nil, or_false] at h
      subst h; exact sup_mkC ⟨_, by simp, hx⟩
  · obtain ⟨B, _, h⟩ := List.mem_flatMap.1 h
    cases S with
    | base b => simp [changes] at hx
    | comm op b cs =>
      simp only [swapBase, List.mem_map] at h
      obtain ⟨p, _, rfl⟩ := h
      exact sup_mkC (changes_mem_comm.1 hx)
    | change c l r =>
      simp only [swapBase, List.mem_append] at h
      simp only [changes, List.mem_cons, List.mem_append] at hx
      have hb : ∀ k : KE, k.isBase = true → x ∉ changes k := by
        intro k hk; cases k <;> simp_all [isBase, changes]
      rcases h with h | h
      · split at h
        · rename_i hl
          rw [List.mem_singleton] at h; subst h
          refine changes_simplify_sup cfg _ x ?_
          simp only [changes, List.mem_cons, List.mem_append]
          simp only [Bool.and_eq_true] at hl
          rcases hx with h | h | h
          · exact Or.inl h
          · exact absurd h (hb _ hl.1)
          · exact Or.inr (Or.inr h)
        · simp at h
      · split at h
        · rename_i hl
          rw [List.mem_singleton] at h; subst h
          refine changes_simplify_sup cfg _ x ?_
          simp only [changes, List.mem_cons, List.mem_append]
          simp only [Bool.and_eq_true] at hl
          rcases hx with h | h | h
          · exact Or.inl h
          · exact Or.inr (Or.inl h)
          · exact absurd h (hb _ hl.1)
        · simp at h
  · simp only [RuleName.rule, bothChanges, List.mem_flatMap, List.mem_singleton] at h
    obtain ⟨c, _, rfl⟩ := h
    exact changes_simplify_sup cfg _ x (by simp [changes, hx])

theorem same_changes (k : KE) : ∀ {k' : KE}, Same k k' → ∀ x ∈ changes k, x ∈ changes k' := by
  induction k using KE.ind with
  | base b => intro k' h x hx; simp [changes] at hx
  | comm o c cs ih =>
    intro k' h x hx
    cases h with
    | comm hc hf hp =>
      obtain ⟨u, hu, h⟩ := changes_mem_comm.1 hx
      obtain ⟨v, hv, hs⟩ := SameL.mem ⟨_, hf, hp⟩ hu
      exact changes_mem_comm.2 ⟨v, hv, ih u hu hs x h⟩
  | change c l r hl hr =>
    intro k' h x hx
    cases h with
    | change h1 h2 =>
      simp only [changes, List.mem_cons, List.mem_append] at hx ⊢
      rcases hx with h | h | h
      · exact Or.inl h
      · exact Or.inr (Or.inl (hl h1 x h))
      · exact Or.inr (Or.inr (hr h2 x h))

theorem repl_keeps {S new k k' : KE} (h : Repl S new k k') (hS : changes S ≠ [] → changes new ≠ []) : changes k ≠ [] → changes k' ≠ [] := by
  have ne : ∀ {l : List CC}, l ≠ [] ↔ ∃ x, x ∈ l := fun {l} => ⟨List.exists_mem_of_ne_nil l, fun ⟨x, hx⟩ => List.ne_nil_of_mem hx⟩
  induction h with
  | here => exact hS
  | term hs =>
    intro hk
    obtain ⟨x, hx⟩ := ne.1 hk
    obtain ⟨y, hy, h⟩ := changes_mem_comm.1 hx
    simp only [List.mem_append, List.mem_cons] at hy
    rcases hy with hy | rfl | hy
    · exact ne.2 ⟨x, changes_mem_comm.2 ⟨y, by simp [hy], h⟩⟩
    · obtain ⟨z, hz⟩ := ne.1 (hS (ne.2 ⟨x, same_changes _ hs.symm x h⟩))
      exact ne.2 ⟨z, changes_mem_comm.2 ⟨new, by simp, hz⟩⟩
    · exact ne.2 ⟨x, changes_mem_comm.2 ⟨y, by simp [hy], h⟩⟩
  | sub _ ih =>
    intro hk
    obtain ⟨x, hx⟩ := ne.1 hk
    obtain ⟨y, hy, h⟩ := changes_mem_comm.1 hx
    simp only [List.mem_append, List.mem_cons] at hy
    rcases hy with hy | rfl | hy
    · exact ne.2 ⟨x, changes_mem_comm.2 ⟨y, by simp [hy], h⟩⟩
    · obtain ⟨z, hz⟩ := ne.1 (ih (ne.2 ⟨x, h⟩))
      exact ne.2 ⟨z, changes_mem_comm.2 ⟨_, by simp, hz⟩⟩
    · exact ne.2 ⟨x, changes_mem_comm.2 ⟨y, by simp [hy], h⟩⟩
  | left _ _ => intro _; simp [changes]
  | right _ _ => intro _; simp [changes]
  | leafL _ => intro _; simp [changes]
  | leafR _ => intro _; simp [changes]

theorem expand_keeps (ho : o.OK cfg) {k r : KE} (hk : IsExpr k) (h : r ∈ expandNamed cfg o rulesMinimal k) (hc : changes k ≠ []) : changes r ≠ [] := by
  obtain ⟨p, S, hp, rule, hrule, new, hnew, rfl⟩ := mem_expand h
  obtain ⟨n, hn, rfl⟩ := List.mem_map.1 hrule
  have hS := traverse_node hk.1 hp
  have hrr := rr_rule (orders_noC ho) n hS.1 (traverse_not_base hp) new hnew
  have hwk := repl_wf (repl_of_traverse (new := new) hp) hk.1 hrr.wf hrr.notBase
  have h1 := repl_keeps (repl_of_traverse (new := new) hp) (fun h => by
    obtain ⟨x, hx⟩ := List.exists_mem_of_ne_nil _ h
    exact List.ne_nil_of_mem (basic_keeps hn hnew x hx)) hc
  refine (standardise_ind (cfg := cfg) (fun r => changes r ≠ []) (fun r _ hq => ?_) (fun o b hq => ?_) (fun o ct hq => ?_) hwk.1 hwk.2 h1).1
  · obtain ⟨x, hx⟩ := List.exists_mem_of_ne_nil _ hq
    exact List.ne_nil_of_mem (changes_simplify_sup cfg r x hx)
  · simp [changes, changesL] at hq
  · simpa [changes, changesL] using hq

end GPyABCD
