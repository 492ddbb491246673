import Verif.Lemmas.AttainDeep
import Verif.Spec.Attain

/-!
# Property C121: growing an expression loses no likelihood

`Reaches cfg X y k r`: whatever the log-likelihood of a model fitted with `k` to the data, models fitted with `r`, with the same noise, come as close to it as wanted.
-/

namespace GPyABCD
open scoped Pointwise
open KE Kern Params Sops

theorem sig_append {k1 k2 : KE} (s1 : ∀ b ∈ bases k1, b.isSigmoid = false) (s2 : ∀ b ∈ bases k2, b.isSigmoid = false) :
    ∀ b ∈ bases k1 ++ bases k2, b.isSigmoid = false := fun b hb => (List.mem_append.1 hb).elim (s1 b) (s2 b)

theorem join_clean (cfg : Cfg) {op : Op} {k1 k2 R : KE} (h : RawJoin op k1 k2 R) (h1 : operand k1 = true) (h2 : operand k2 = true)
    (hs : ∀ b ∈ bases k1 ++ bases k2, b.isSigmoid = false) : (∀ b ∈ bases (simplify cfg R), b.isSigmoid = false) ∧ noEmpty (simplify cfg R) = true := by
  refine ⟨fun b hb => hs b ((bases_joins h.joins).subset ((bases_simplify cfg R h.wf).subset hb)), ?_⟩
  exact (operand_iff.1 (operand_simplify cfg (operand_joins h h1 h2))).2.1

/-- C121 (partial: not where LIN meets C while it absorbs constants): adding any expression loses no likelihood. -/
theorem C121_add_partial (cfg : Cfg) (k1 k2 : KE) (h1 : operand k1 = true) (h2 : operand k2 = true) (s1 : ∀ b ∈ bases k1, b.isSigmoid = false)
    (s2 : ∀ b ∈ bases k2, b.isSigmoid = false) (hl : LinCOK cfg (bases k1 ++ bases k2)) {n : ℕ} (X y : Fin n → ℝ) (hX : Function.Injective X) :
    ∃ r rest, add cfg k1 k2 = r :: rest ∧ Reaches cfg X y k1 r ∧ Reaches cfg X y k2 r := by
  obtain ⟨R, e, h⟩ := addRes_raw cfg k1 k2 (operand_iff.1 h1).1 (operand_iff.1 h2).1
  obtain ⟨r, rest, e', hd⟩ := C13_add_sum_partial cfg k1 k2 h1 h2 (realI cfg posV) (.inr ⟨rfl, hl⟩)
  have er : r = simplify cfg R := by
    rw [← e]
    simp only [add, List.cons.injEq] at e'
    exact e'.1.symm
  obtain ⟨c1, c2⟩ := join_clean cfg h h1 h2 (sig_append s1 s2)
  rw [← er] at c1 c2
  refine ⟨r, rest, e', ?_, ?_⟩
  · exact attain_of_tends cfg s1 (operand_iff.1 h1).2.1 c1 c2 (fun f hf => by rw [hd]; exact tends_add cfg s2 (operand_iff.1 h2).2.1 hf) hX y
  · refine attain_of_tends cfg s2 (operand_iff.1 h2).2.1 c1 c2 (fun f hf => ?_) hX y
    obtain ⟨F, q1, q2⟩ := tends_add cfg s1 (operand_iff.1 h1).2.1 hf
    refine ⟨F, fun m => ?_, q2⟩
    obtain ⟨f1, hf1, f2, hf2, e3⟩ := q1 m
    rw [hd]
    exact ⟨f2, hf2, f1, hf1, by rw [e3]; funext x y; exact add_comm _ _⟩

/-- `LIN + PER`, to which `SE * WN` is added. -/
example : operand (comm .sum [(.LIN, 1), (.PER, 1)] []) = true ∧ operand (comm .prod [(.SE, 1), (.WN, 1)] []) = true ∧
    (∀ b ∈ bases (comm .sum [(.LIN, 1), (.PER, 1)] []) ++ bases (comm .prod [(.SE, 1), (.WN, 1)] []), b.isSigmoid = false) ∧
    LinCOK .default (bases (comm .sum [(.LIN, 1), (.PER, 1)] []) ++ bases (comm .prod [(.SE, 1), (.WN, 1)] [])) :=
  ⟨by decide, by decide, by decide, Or.inr (Or.inl (by decide))⟩

/-- C121 (partial as for sums): multiplying by a base kernel other than noise loses no likelihood; LIN only if it has an offset. -/
theorem C121_multiply_partial (cfg : Cfg) (k : KE) (b : Base) (h1 : operand k = true) (s1 : ∀ x ∈ bases k, x.isSigmoid = false) (hb : b.isSigmoid = false) (hw : b ≠ .WN)
    (ho : b = .LIN → cfg.linOffset = true) (hl : LinCOK cfg (bases k ++ [b])) {n : ℕ} (X y : Fin n → ℝ) (hX : Function.Injective X) :
    ∃ r rest, multiply cfg k (base b) = r :: rest ∧ Reaches cfg X y k r := by
  have h2 : operand (base b) = true := by cases b <;> decide
  obtain ⟨R, e, h⟩ := mulRes_raw cfg k (base b) (operand_iff.1 h1).1 (operand_iff.1 h2).1
  obtain ⟨r, rest, e', hd⟩ := C14_multiply_product_partial cfg k (base b) h1 h2 (realI cfg posV) (.inr ⟨rfl, by simpa [bases] using hl⟩)
  have er : r = simplify cfg R := by
    rw [← e]
    simp only [multiply, List.cons.injEq] at e'
    exact e'.1.symm
  obtain ⟨c1, c2⟩ := join_clean cfg h h1 h2 (sig_append s1 (by simp [bases, hb]))
  rw [← er] at c1 c2
  exact ⟨r, rest, e', attain_of_tends cfg s1 (operand_iff.1 h1).2.1 c1 c2 (fun f hf => by rw [hd]; exact tends_mul hf (tends_one cfg hb hw ho)) hX y⟩

/-- `SE + PER` times `LIN`. -/
example : operand (comm .sum [(.SE, 1), (.PER, 1)] []) = true ∧ (∀ x ∈ bases (comm .sum [(.SE, 1), (.PER, 1)] []), x.isSigmoid = false) ∧
    Base.LIN.isSigmoid = false ∧ Base.LIN ≠ .WN ∧ Cfg.default.linOffset = true ∧ LinCOK .default (bases (comm .sum [(.SE, 1), (.PER, 1)] []) ++ [.LIN]) :=
  ⟨by decide, by decide, rfl, by decide, rfl, Or.inr (Or.inl (by decide))⟩

theorem change_reaches (cfg : Cfg) {c : CC} {l r : KE} (h1 : operand l = true) (h2 : operand r = true) (s1 : ∀ b ∈ bases l, b.isSigmoid = false)
    (s2 : ∀ b ∈ bases r, b.isSigmoid = false) (hl : LinCOK cfg (bases l ++ bases r)) {n : ℕ} (X y : Fin n → ℝ) (hX : Function.Injective X) :
    Reaches cfg X y l (mkChange cfg c l r) ∧ Reaches cfg X y r (mkChange cfg c l r) := by
  have hR : Reading cfg (bases l ++ bases r) (realI cfg posV) := .inr ⟨rfl, hl⟩
  have ho : operand (change c l r) = true := operand_change.2 ⟨h1, h2⟩
  have hd : den (realI cfg posV) (mkChange cfg c l r) = chgFam cfg c (den (realI cfg posV) l) (den (realI cfg posV) r) := by
    rw [mkChange, den_simplify_operand hR.laws cfg ho (hR.safe.sub (by simp [bases]))]
    simp only [den, hR.chg]
  have c1 : ∀ b ∈ bases (mkChange cfg c l r), b.isSigmoid = false := fun b hb => by
    have := (bases_simplify cfg _ (operand_iff.1 ho).1).subset hb
    exact sig_append s1 s2 b (by simpa [bases] using this)
  have c2 : noEmpty (mkChange cfg c l r) = true := (operand_iff.1 (operand_simplify cfg ho)).2.1
  obtain ⟨u, hu⟩ := den_nonempty cfg s1 (operand_iff.1 h1).2.1
  obtain ⟨v, hv⟩ := den_nonempty cfg s2 (operand_iff.1 h2).2.1
  constructor
  · obtain ⟨P, p1, p2, p3⟩ := change_away cfg c true
    exact attain_of_tends cfg s1 (operand_iff.1 h1).2.1 c1 c2 (fun f hf => by rw [hd]; exact tends_change true P p1 p2 p3 hf hv) hX y
  · obtain ⟨P, p1, p2, p3⟩ := change_away cfg c false
    exact attain_of_tends cfg s2 (operand_iff.1 h2).2.1 c1 c2 (fun f hf => by rw [hd]; exact tends_change false P p1 p2 p3 hf hu) hX y

/-- C121 (partial as for sums): every changepoint and changewindow made of two expressions loses none of the likelihood of either. -/
theorem C121_changes_partial (cfg : Cfg) (S k : KE) (h1 : operand S = true) (h2 : operand k = true) (s1 : ∀ b ∈ bases S, b.isSigmoid = false)
    (s2 : ∀ b ∈ bases k, b.isSigmoid = false) (hl : LinCOK cfg (bases S ++ bases k)) {n : ℕ} (X y : Fin n → ℝ) (hX : Function.Injective X) :
    ∀ r ∈ bothChanges cfg S (some k), Reaches cfg X y S r ∧ (¬ Same k S → Reaches cfg X y k r) := by
  have hl' : LinCOK cfg (bases k ++ bases S) := by
    unfold LinCOK at hl ⊢
    simpa [and_comm] using hl
  have hS : LinCOK cfg (bases S ++ bases S) := by
    unfold LinCOK at hl ⊢
    rcases hl with h | h | h
    · exact Or.inl h
    · exact Or.inr (Or.inl (by simp at h ⊢; exact h.1))
    · exact Or.inr (Or.inr (by simp at h ⊢; exact h.1))
  intro r hr
  simp only [bothChanges, List.flatMap_cons, List.flatMap_nil, List.append_nil, List.mem_append] at hr
  by_cases hk : keq k S = true
  · have hs : Same k S := (keq_iff _ _).1 hk
    simp only [hk, if_true, List.mem_singleton] at hr
    rcases hr with rfl | rfl <;> exact ⟨(change_reaches cfg h1 h1 s1 s1 hS X y hX).1, fun h => absurd hs h⟩
  · simp only [hk, Bool.false_eq_true, if_false, List.mem_cons, List.not_mem_nil, or_false] at hr
    rcases hr with (rfl | rfl) | (rfl | rfl)
    · exact ⟨(change_reaches cfg h1 h2 s1 s2 hl X y hX).1, fun _ => (change_reaches cfg h1 h2 s1 s2 hl X y hX).2⟩
    · exact ⟨(change_reaches cfg h2 h1 s2 s1 hl' X y hX).2, fun _ => (change_reaches cfg h2 h1 s2 s1 hl' X y hX).1⟩
    · exact ⟨(change_reaches cfg h1 h2 s1 s2 hl X y hX).1, fun _ => (change_reaches cfg h1 h2 s1 s2 hl X y hX).2⟩
    · exact ⟨(change_reaches cfg h2 h1 s2 s1 hl' X y hX).2, fun _ => (change_reaches cfg h2 h1 s2 s1 hl' X y hX).1⟩

/-- `PER + WN` and `LIN`: four expressions. -/
example : operand (comm .sum [(.PER, 1), (.WN, 1)] []) = true ∧ operand (base .LIN) = true ∧ LinCOK .default (bases (comm .sum [(.PER, 1), (.WN, 1)] []) ++ bases (base .LIN)) ∧
    (bothChanges .default (comm .sum [(.PER, 1), (.WN, 1)] []) (some (base .LIN))).length = 4 :=
  ⟨by decide, by decide, Or.inr (Or.inl (by decide)), by decide⟩

/-- C121 (partial as for sums): the same for changes between an expression and itself. -/
theorem C121_same_changes_partial (cfg : Cfg) (S : KE) (h1 : operand S = true) (s1 : ∀ b ∈ bases S, b.isSigmoid = false) (hl : LinCOK cfg (bases S)) {n : ℕ}
    (X y : Fin n → ℝ) (hX : Function.Injective X) : ∀ r ∈ bothChanges cfg S none, Reaches cfg X y S r := by
  have hS : LinCOK cfg (bases S ++ bases S) := by
    unfold LinCOK at hl ⊢
    simpa using hl
  intro r hr
  simp only [bothChanges, List.flatMap_cons, List.flatMap_nil, List.append_nil, List.mem_append, List.mem_singleton] at hr
  rcases hr with rfl | rfl <;> exact (change_reaches cfg h1 h1 s1 s1 hS X y hX).1

/-- `LIN * PER`. -/
example : operand (comm .prod [(.LIN, 1), (.PER, 1)] []) = true ∧ (∀ b ∈ bases (comm .prod [(.LIN, 1), (.PER, 1)] []), b.isSigmoid = false) ∧
    LinCOK .default (bases (comm .prod [(.LIN, 1), (.PER, 1)] [])) ∧ (bothChanges .default (comm .prod [(.LIN, 1), (.PER, 1)] []) none).length = 2 :=
  ⟨by decide, by decide, Or.inr (Or.inl (by decide)), by decide⟩

theorem bases_plug_hole (C : Ctx) {x : KE} : ∀ b ∈ bases (nodeOf x), b ∈ bases (C.plug x) := by
  intro b hb
  have h : b ∈ bases x := by
    cases x with
    | base a => simpa [nodeOf, bases, basesL, Counter.elements] using hb
    | comm _ _ _ => exact hb
    | change _ _ _ => exact hb
  induction C with
  | hole => exact h
  | comm o c l1 C l2 ih => exact bases_mem_comm.2 (Or.inr ⟨C.plug x, by simp, ih⟩)
  | left c C r ih => simp [Ctx.plug, bases, ih]
  | right c l C ih => simp [Ctx.plug, bases, ih]

/-- C121 (partial: not where LIN meets C while it absorbs constants; `k` being simplified, as all expressions of the search are, C25): the same anywhere within an
expression, in the search itself. Of what expanding `k` gives, that which grows a part `x` of it with the help of the base kernel `b` loses no likelihood. Left out is a
base kernel as the first branch of a change operator, which the code does not expand (`C20_left_leaf_slips`). -/
theorem C121_search_partial (cfg : Cfg) (o : Orders) (ho : o.OK cfg) (rules : List RuleName) (C : Ctx) (x : KE) (b : Base) (hk : settled cfg (C.plug x) = true)
    (hb : (C.plug x).isBase = false) (hn : ∀ a ∈ bases (C.plug x), a.isSigmoid = false) (hx : (C.endsLeft && x.isBase) = false) (sb : b.isSigmoid = false)
    (hlo : b = .LIN → cfg.linOffset = true) (hl : LinCOK cfg (bases (C.plug x) ++ [b])) (new : KE) (hg : new ∈ grown cfg (nodeOf x) b)
    (n : RuleName) (hr : n ∈ rules) (hnew : new ∈ n.rule cfg o (nodeOf x)) {m : ℕ} (X y : Fin m → ℝ) (hX : Function.Injective X) :
    ∃ r ∈ expandNamed cfg o rules (C.plug x), Same r (standardise cfg (C.plug new)) ∧ Reaches cfg X y (C.plug x) r := by
  have hw := (settled_iff.1 hk).1
  obtain ⟨p, hp, _, _⟩ := occ_traverse (cfg := cfg) C hw hb
  have hS := traverse_node hw hp
  have hnS : NoSig (nodeOf x) := fun a ha => hn a (hS.2.1 a ha)
  have hSb := traverse_not_base hp
  have hSo := operand_of_settled (hS.2.2 hk)
  have hlS : LinCOK cfg (bases (nodeOf x) ++ [b]) := linCOK_perm (by
    intro a ha
    rcases List.mem_append.1 ha with h | h
    · exact List.mem_append_left _ (bases_plug_hole C a h)
    · exact List.mem_append_right _ h) hl
  have eb : bases (base b) ⊆ [b] := by intro a ha; simpa [bases] using ha
  have hRR : RR cfg (nodeOf x) [b] new := by
    simp only [grown, List.mem_append] at hg
    rcases hg with ((h | h) | h) | h
    · exact rr_add hS.1 hSb (by simp) new h
    · split at h
      · cases h
      · rename_i hbb
        exact rr_multiply hS.1 hSb (operand_base b) eb ⟨b, by simp [bases], fun e => hbb (Or.inr e)⟩ new h
    · rw [bothChanges_some, List.mem_append] at h
      rcases h with h | h <;> exact rr_oneChange hS.1 (operand_base b) eb new h
    · simp only [bothChanges, List.flatMap_cons, List.flatMap_nil, List.append_nil, List.mem_append, List.mem_singleton] at h
      rcases h with rfl | rfl <;> exact rr_sameChange hS.1
  obtain ⟨o1, o2⟩ := hRR.op (hS.2.2 hk) hnS
  have hrep := repl_plug C (new := new) hw hb hx
  obtain ⟨h1, h2, _⟩ := repl_operand hrep hk hn hS.1 hRR.notBase o1 o2
  have hbs : bases (C.plug new) ⊆ bases (C.plug x) ++ [b] := by
    intro a ha
    rcases repl_bases hrep a ha with h | h
    · exact List.mem_append_left _ h
    · rcases hRR.bases a h with h | h
      · exact List.mem_append_left _ (bases_plug_hole C a h)
      · exact List.mem_append_right _ h
  have hT : TendsAll (den (realI cfg posV) (nodeOf x)) (den (realI cfg posV) new) := by
    simp only [grown, List.mem_append] at hg
    rcases hg with ((h | h) | h) | h
    · exact add_tends cfg hSo sb hSb hlS h
    · split at h
      · cases h
      · rename_i hbb
        exact multiply_tends cfg hSo sb (fun e => hbb (Or.inl e)) hlo hSb hlS h
    · exact changes_tends cfg hSo hnS sb hlS (Or.inl h)
    · exact changes_tends cfg hSo hnS sb hlS (Or.inr h)
  have hxd : den (realI cfg posV) (nodeOf x) = den (realI cfg posV) x := by
    cases x with
    | base a => simp [nodeOf, den, denL, opFold, Counter.elements]
    | comm _ _ _ => rfl
    | change _ _ _ => rfl
  rw [hxd] at hT
  obtain ⟨r, hre, hrs⟩ := C21_complete_partial cfg (rules.map (RuleName.rule cfg o)) (C20_builtin_rules cfg o ho rules) C x ⟨hw, hb⟩ hx _ (List.mem_map.2 ⟨n, hr, rfl⟩) new hnew
  obtain ⟨t1, t2, t3⟩ := C25_step_partial cfg o ho rules (C.plug x) hk hb hn r hre
  refine ⟨r, hre, hrs, ?_⟩
  have hd : den (realI cfg posV) r = den (realI cfg posV) (C.plug new) := by
    rw [den_same _ _ _ (settled_iff.1 t1).1 (standardise_wf (operand_iff.1 h1).1 h2).1 hrs]
    exact C24_meaning cfg _ h1 h2 _ (.inr ⟨rfl, linCOK_perm hbs hl⟩)
  refine attain_of_tends cfg hn (settled_iff.1 hk).2.1 t3 (settled_iff.1 t1).2.1 (fun f hf => ?_) hX y
  rw [hd]
  exact plug_tends cfg C hT f hf

/-- A base kernel added two levels down, in `LIN * (PER + CP(WN + SE, LIN))`. -/
example :
    let C := Ctx.comm .prod [(.LIN, 1)] [] (.comm .sum [(.PER, 1)] [] (.left .CP .hole (base .LIN)) []) []
    let x := comm .sum [(.SE, 1), (.WN, 1)] []
    let o : Orders := ⟨[.WN, .C, .LIN, .PER], [.WN, .LIN, .PER]⟩
    settled .default (C.plug x) = true ∧ (C.endsLeft && x.isBase) = false ∧ LinCOK .default (bases (C.plug x) ++ [.PER]) ∧
      ∃ new ∈ grown .default (nodeOf x) .PER, new ∈ RuleName.plus_base.rule .default o (nodeOf x) := by
  refine ⟨by decide, by decide, Or.inr (Or.inl (by decide)), addRes .default (comm .sum [(.SE, 1), (.WN, 1)] []) (base .PER), ?_, ?_⟩
  · simp [grown, add, nodeOf]
  · exact List.mem_flatMap.2 ⟨.PER, by simp, by simp [add, nodeOf]⟩

/-- C121 (partial as above): with `plus_base` among the rules, as in all four sets of rules that come with the package, every expression has an expansion that loses none
of its likelihood: a round of the search can always do at least as well as the last. -/
theorem C121_round_partial (cfg : Cfg) (o : Orders) (ho : o.OK cfg) (rules : List RuleName) (hr : RuleName.plus_base ∈ rules) (k : KE) (hk : settled cfg k = true)
    (hb : k.isBase = false) (hn : ∀ a ∈ bases k, a.isSigmoid = false) (hl : LinCOK cfg (bases k)) {m : ℕ} (X y : Fin m → ℝ) (hX : Function.Injective X) :
    ∃ r ∈ expandNamed cfg o rules k, Reaches cfg X y k r := by
  have e : nodeOf k = k := by cases k <;> first | rfl | cases hb
  have hW : Base.WN ∈ o.all := ho.1.symm.subset (by cases h : cfg.includeSE <;> simp [baseKernsForProd, baseKerns, h])
  obtain ⟨r, h1, _, h2⟩ := C121_search_partial cfg o ho rules .hole k .WN hk hb hn rfl rfl (by simp)
    (by unfold LinCOK at hl ⊢; simpa [Ctx.plug] using hl) (addRes cfg k (base .WN))
    (by simp [grown, add, e]) .plus_base hr (List.mem_flatMap.2 ⟨.WN, hW, by simp [add, e]⟩) X y hX
  exact ⟨r, h1, h2⟩

example : settled .default (comm .sum [(.PER, 1)] [comm .prod [(.LIN, 1), (.PER, 1)] []]) = true ∧
    LinCOK .default (bases (comm .sum [(.PER, 1)] [comm .prod [(.LIN, 1), (.PER, 1)] []])) ∧
    ∀ rules ∈ [rulesAll, rulesOriginal, rulesMinimal, rulesDefault], RuleName.plus_base ∈ rules :=
  ⟨by decide, Or.inr (Or.inl (by decide)), by decide⟩

/-- There are fits to reach. -/
example : ∃ g, FittedTo .default (KE.base .C) g ∧ (covY .default (fun i : Fin 2 => (i : ℝ)) g 1).det ≠ 0 := by
  refine ⟨.base .C { variance := some 1 }, ⟨rfl, by simp [Adm, AdmPD]⟩, ?_⟩
  norm_num [covY, Matrix.det_fin_two, kerK, baseK, matK, varOf, bias]

/-- The log-likelihood of two outputs 1 and 1. -/
theorem two_ones {cfg : Cfg} {X : Fin 2 → ℝ} {g : GK ℝ} {noise a b : ℝ} (h00 : kerK cfg X g 0 0 = a) (h11 : kerK cfg X g 1 1 = a) (h01 : kerK cfg X g 0 1 = b)
    (h10 : kerK cfg X g 1 0 = b) (hd : (a + noise) * (a + noise) - b * b ≠ 0) : (covY cfg X g noise).det = (a + noise) * (a + noise) - b * b ∧
      logLik cfg X (fun _ => 1) g noise = 0.5 * (-2 * Real.log (2 * Real.pi) - Real.log ((a + noise) * (a + noise) - b * b) - 2 / (a + noise + b)) := by
  have hdet : (covY cfg X g noise).det = (a + noise) * (a + noise) - b * b := by simp [covY, Matrix.det_fin_two, h00, h11, h01, h10]
  refine ⟨hdet, ?_⟩
  have hs : (a + noise + b) ≠ 0 := fun h => hd (by linear_combination (a + noise - b) * h)
  have hm : (a + noise - b) ≠ 0 := fun h => hd (by linear_combination (a + noise + b) * h)
  rw [logLik, hdet]
  congr 2
  rw [Matrix.inv_def, hdet, Ring.inverse_eq_inv']
  simp [Matrix.mulVec, dotProduct, Fin.sum_univ_two, Matrix.adjugate_fin_two, covY, h00, h11, h01, h10]
  rw [show (a + noise) * (a + noise) - b * b = (a + noise + b) * (a + noise - b) by ring]
  field_simp
  ring

/-- C121, where it stops: multiplying by noise does lose likelihood, for what is left (`C * WN`, simplified to `WN`) cannot tell that two outputs are alike. -/
theorem C121_noise_loses : ∃ r, multiply .default (base .C) (base .WN) = [r] ∧ ∃ L ∈ attainable .default (base .C) (fun i : Fin 2 => (i : ℝ)) (fun _ => 1),
    ∀ L' ∈ attainable .default r (fun i : Fin 2 => (i : ℝ)) (fun _ => 1), L' + 0.05 < L := by
  have hX : Function.Injective (fun i : Fin 2 => (i : ℝ)) := fun i j h => by simpa [Fin.ext_iff] using h
  refine ⟨comm .prod [(.WN, 1)] [], by rfl, _, ⟨.base .C { variance := some 0.5 }, 0.1, ⟨rfl, ?_⟩, by norm_num, ?_, rfl⟩, ?_⟩
  · simp [Adm, AdmPD]
    norm_num
  · norm_num [covY, Matrix.det_fin_two, kerK, baseK, matK, varOf, bias]
  · rintro _ ⟨g, noise, ⟨q1, q2⟩, hn, hd, rfl⟩
    obtain ⟨s, e1, e2⟩ := C84_covariances .default (comm .prod [(.WN, 1)] []) (by decide) (by decide)
    rw [q1] at e1
    injection e1 with e1
    have hg : CovOf .default g (gcov .default g) := covOf_iff.2 rfl
    have hw := (e2 _).2 ⟨g, e1, q2, hg⟩
    simp only [den, denL, opFold, Counter.elements, List.flatMap_cons, List.flatMap_nil, Int.toNat_one, List.replicate_one, List.append_nil, List.map_cons, List.map_nil,
      List.prod_cons, List.prod_nil, mul_one] at hw
    obtain ⟨v, hv, hw⟩ := hw
    have hv : 0 < v := hv
    rw [hw] at hg
    have h2 := hg 2 _ hX
    have k00 : kerK .default (fun i : Fin 2 => (i : ℝ)) g 0 0 = v := by rw [h2]; simp [white]
    have k11 : kerK .default (fun i : Fin 2 => (i : ℝ)) g 1 1 = v := by rw [h2]; simp [white]
    have k01 : kerK .default (fun i : Fin 2 => (i : ℝ)) g 0 1 = 0 := by rw [h2]; simp [white]
    have k10 : kerK .default (fun i : Fin 2 => (i : ℝ)) g 1 0 = 0 := by rw [h2]; simp [white]
    have hp : 0 < v + noise := by positivity
    rw [(two_ones k00 k11 k01 k10 (by simp; positivity)).2]
    have hc := (two_ones (cfg := .default) (X := fun i : Fin 2 => (i : ℝ)) (g := .base .C { variance := some 0.5 }) (noise := 0.1) (a := 0.5) (b := 0.5)
      (by norm_num [kerK, baseK, matK, varOf, bias]) (by norm_num [kerK, baseK, matK, varOf, bias]) (by norm_num [kerK, baseK, matK, varOf, bias]) (by norm_num [kerK, baseK, matK, varOf, bias]) (by norm_num)).2
    rw [hc]
    have l1 : Real.log ((0.5 + 0.1) * (0.5 + 0.1) - 0.5 * 0.5 : ℝ) ≤ 0 := Real.log_nonpos (by norm_num) (by norm_num)
    have l2 : 1 - (v + noise)⁻¹ ≤ Real.log (v + noise) := Real.one_sub_inv_le_log_of_pos hp
    have l3 : Real.log ((v + noise) * (v + noise) - 0 * 0) = 2 * Real.log (v + noise) := by
      rw [mul_zero, sub_zero, Real.log_mul hp.ne' hp.ne']; ring
    have l4 : 2 / (v + noise + 0) = 2 * (v + noise)⁻¹ := by rw [add_zero, div_eq_mul_inv]
    rw [l3, l4]
    norm_num
    norm_num at l1
    linarith

end GPyABCD
