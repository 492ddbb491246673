import Verif.Props.Rounds

/-!
# What an expansion returns is what the rules may do to one node (C82)

`Move` (`Verif.Spec.Moves`) says rule by rule what may become of a node.
-/

namespace GPyABCD
open scoped Pointwise
open KE Kern

/-- `r` is a form of `t`: it has no base kernels of its own, and it represents the same covariances in every reading: with LIN as it is unless it
meets C in `t`, and always with LIN standing for LIN plus a constant. -/
def FormOf (cfg : Cfg) (r t : KE) : Prop :=
  (∀ y ∈ bases r, y ∈ bases t) ∧ (∀ I, Reading cfg (bases t) I → den I r = den I t)

private theorem bases_plug_mono (C : Ctx) {a b : KE} (h : ∀ y ∈ bases a, y ∈ bases b) : ∀ y ∈ bases (C.plug a), y ∈ bases (C.plug b) := by
  induction C with
  | hole => exact h
  | comm o c l1 C l2 ih =>
    intro y hy
    simp only [Ctx.plug] at hy ⊢
    rcases bases_mem_comm.1 hy with h | ⟨k, hk, h⟩
    · exact bases_mem_comm.2 (Or.inl h)
    · simp only [List.mem_append, List.mem_cons] at hk
      rcases hk with hk | rfl | hk
      · exact bases_mem_comm.2 (Or.inr ⟨k, by simp [hk], h⟩)
      · exact bases_mem_comm.2 (Or.inr ⟨_, by simp, ih y h⟩)
      · exact bases_mem_comm.2 (Or.inr ⟨k, by simp [hk], h⟩)
  | left c C r ih =>
    intro y hy
    simp only [Ctx.plug, bases, List.mem_append] at hy ⊢
    exact hy.imp_left (ih y)
  | right c l C ih =>
    intro y hy
    simp only [Ctx.plug, bases, List.mem_append] at hy ⊢
    exact hy.imp_right (ih y)

private theorem bases_same (a : KE) : ∀ b, wf a = true → wf b = true → Same a b → ∀ y ∈ bases a, y ∈ bases b := by
  induction a using KE.ind with
  | base x => intro b _ _ h; cases h; exact fun _ h => h
  | change c l r hl hr =>
    intro b ha hb h
    cases h with
    | change h1 h2 =>
      have wa := wf_change.1 ha
      have wb := wf_change.1 hb
      intro y hy
      simp only [bases, List.mem_append] at hy ⊢
      exact hy.imp (hl _ wa.1 wb.1 h1 y) (hr _ wa.2 wb.2 h2 y)
  | comm o c cs ih =>
    intro b ha hb h
    cases h with
    | @comm _ _ c' _ ds cs' hc hf hp =>
      have wa := wf_comm.1 ha
      have wb := wf_comm.1 hb
      intro y hy
      rcases bases_mem_comm.1 hy with h | ⟨k, hk, h⟩
      · exact bases_mem_comm.2 (Or.inl ((Counter.elements_perm wa.1 wb.1 hc).subset h))
      · have key : ∀ (l m : List KE), List.Forall₂ Same l m → k ∈ l → ∃ k' ∈ m, Same k k' := by
          intro l m h
          induction h with
          | nil => simp
          | cons h1 _ ih' =>
            intro hk
            rcases List.mem_cons.1 hk with rfl | hk
            · exact ⟨_, by simp, h1⟩
            · obtain ⟨k', h2, h3⟩ := ih' hk
              exact ⟨k', by simp [h2], h3⟩
        obtain ⟨k', h2, h3⟩ := key cs ds hf hk
        have h2' := hp.subset h2
        exact bases_mem_comm.2 (Or.inr ⟨k', h2', ih k hk k' (wa.2.2 k hk).2 (wb.2.2 k' h2').2 h3 y h⟩)

/-- Standardising a tree with one replaced node. -/
private theorem form_replaced {cfg : Cfg} {o : Orders} (ho : o.OK cfg) {k : KE} (hk : settled cfg k = true) (hn : NoSig k) {p : List Step} {S : KE}
    (hp : (p, S) ∈ traverse cfg k) {n : RuleName} {new : KE} (h : new ∈ n.rule cfg o S) :
    wf (replaceAt k p new) = true ∧ FormOf cfg (standardise cfg (replaceAt k p new)) (replaceAt k p new) := by
  have hw := (settled_iff.1 hk).1
  have hS := traverse_node hw hp
  have hrr := rr_rule (orders_noC ho) n hS.1 (traverse_not_base hp) new h
  obtain ⟨o1, o2⟩ := hrr.op (hS.2.2 hk) (fun x hx => hn x (hS.2.1 x hx))
  obtain ⟨q1, q2, _⟩ := repl_operand (repl_of_traverse hp) hk hn hS.1 hrr.notBase o1 o2
  have wR := (operand_iff.1 q1).1
  exact ⟨wR, standardise_bases wR q2, fun I hl => C24_meaning cfg _ q1 q2 I hl⟩

private theorem FormOf.same {cfg : Cfg} {r t t' : KE} (h : FormOf cfg r t) (w : wf t = true) (w' : wf t' = true) (hs : Same t t') : FormOf cfg r t' :=
  ⟨fun y hy => bases_same t t' w w' hs y (h.1 y hy), fun I hl =>
    (h.2 I (hl.sub (fun y hy => bases_same t t' w w' hs y hy))).trans (den_same _ t t' w w' hs)⟩

private theorem FormOf.plug {cfg : Cfg} {r new e : KE} (C : Ctx) (h : FormOf cfg r (C.plug new)) (hs : Stands cfg new e) : FormOf cfg r (C.plug e) :=
  ⟨fun y hy => bases_plug_mono C hs.bases y (h.1 y hy), fun I hl => (h.2 I (hl.sub (fun y hy => bases_plug_mono C hs.bases y hy))).trans
    (den_plug _ C (hs.den (hl.sub (fun y hy => bases_plug C e y hy))))⟩

private theorem comp_plug (D E : Ctx) (x : KE) : (Ctx.comp D E).plug x = D.plug (E.plug x) := by
  induction D with
  | hole => rfl
  | comm o b l1 D l2 ih => simp only [Ctx.comp, Ctx.plug, ih]
  | left c D r ih => simp only [Ctx.comp, Ctx.plug, ih]
  | right c l D ih => simp only [Ctx.comp, Ctx.plug, ih]

private theorem wf_plug_of {C : Ctx} {x y : KE} (h : wf (C.plug x) = true) (hy : wf y = true) (hb : y.isBase = false) : wf (C.plug y) = true :=
  (wf_plug h hy hb).1

private theorem allNodes_plug (f : KE → Bool) (C : Ctx) {x : KE} (h : allNodes f (C.plug x) = true) : allNodes f x = true := by
  induction C with
  | hole => exact h
  | comm o b l1 C l2 ih =>
    simp only [Ctx.plug, allNodes, Bool.and_eq_true] at h
    exact ih (allNodesL_iff.1 h.2 _ (by simp))
  | left c C r ih =>
    simp only [Ctx.plug, allNodes, Bool.and_eq_true] at h
    exact ih h.1.2
  | right c l C ih =>
    simp only [Ctx.plug, allNodes, Bool.and_eq_true] at h
    exact ih h.2

private theorem curvesOK_node (C : Ctx) {x : KE} (h : curvesOK (C.plug x) = true) : curvesOK (nodeOf x) = true := by
  cases x with
  | base a => cases a <;> decide
  | comm _ _ _ => exact allNodes_plug _ C h
  | change _ _ _ => exact allNodes_plug _ C h

/-- C82, nothing else (partial: the full statement is the first alternative alone, and has neither condition; it fails for bare left branches,
`C20_left_leaf_slips`, and where LIN meets C, `C13_lin_c_differs`; `try_higher_curves` takes SE away
again after simplifying, which is as if before when sums and products alternate below SE, `curvesOK`): every expression an
expansion of a simplified expression returns is a form of that expression with one sub-expression changed by one move of one of the rules; when the
sub-expression is a bare left branch of a change operator, the changed one takes the place of the right branch. -/
theorem C82_sound_partial (cfg : Cfg) (o : Orders) (ho : o.OK cfg) (rules : List RuleName) (k : KE) (hk : settled cfg k = true)
    (hn : NoSig k) (hSE : .try_higher_curves ∈ rules → curvesOK k = true) (r : KE) (hr : r ∈ expandNamed cfg o rules k) :
    ∃ n ∈ rules,
      (∃ (C : Ctx) (x e : KE), k = C.plug x ∧ (C.endsLeft && x.isBase) = false ∧ Move cfg n (nodeOf x) e ∧ FormOf cfg r (C.plug e)) ∨
      (∃ (D : Ctx) (c : CC) (a : Base) (y e : KE), k = D.plug (change c (base a) y) ∧ Move cfg n (nodeOf (base a)) e ∧
        FormOf cfg r (D.plug (change c (base a) e))) := by
  have hw := (settled_iff.1 hk).1
  obtain ⟨p, S, hp, rule, hrule, new, hnew, rfl⟩ := mem_expand hr
  obtain ⟨n, hn1, rfl⟩ := List.mem_map.1 hrule
  obtain ⟨C, x, rfl, h2, h3, hO⟩ := traverse_occ hp
  have hS := traverse_node hw hp
  obtain ⟨e, hm, hst⟩ := move_rule ho n (hS.2.2 hk) (traverse_not_base hp) (fun h => curvesOK_node C (hO.eq ▸ hSE (h ▸ hn1))) hnew
  obtain ⟨wR, hf⟩ := form_replaced ho hk hn hp hnew
  have hrr := rr_rule (orders_noC ho) n hS.1 (traverse_not_base hp) new hnew
  refine ⟨n, hn1, ?_⟩
  cases hc : (C.endsLeft && x.isBase) with
  | false =>
    have hw' := hw
    rw [hO.eq] at hw'
    exact Or.inl ⟨C, x, e, hO.eq, hc, hm, (hf.same wR (wf_plug_of hw' hrr.wf hrr.notBase) (hO.repl hc new)).plug C hst⟩
  | true =>
    obtain ⟨D, c, y, e', h4⟩ := hO.slip hc
    have hxb : x.isBase = true := (Bool.and_eq_true_iff.1 hc).2
    cases x with
    | comm _ _ _ => simp [isBase] at hxb
    | change _ _ _ => simp [isBase] at hxb
    | base a =>
      refine Or.inr ⟨D, c, a, y, e, by rw [hO.eq, e', comp_plug]; rfl, hm, ?_⟩
      have := hf
      rw [h4] at this
      have e2 : ∀ z, D.plug (change c (base a) z) = (Ctx.comp D (.right c (base a) .hole)).plug z := fun z => by rw [comp_plug]; rfl
      rw [e2] at this ⊢
      exact FormOf.plug _ (by rw [h4, e2]; exact this) hst

/-- C82, nothing missing (partial: not at bare left branches of change operators): every move of every rule at every node is made, and the expression
returned for it is a form of the changed expression. -/
theorem C82_complete_partial (cfg : Cfg) (o : Orders) (ho : o.OK cfg) (rules : List RuleName) (C : Ctx) (x : KE)
    (hk : settled cfg (C.plug x) = true) (hb : (C.plug x).isBase = false) (hn : NoSig (C.plug x)) (hl : (C.endsLeft && x.isBase) = false)
    (hSE : .try_higher_curves ∈ rules → curvesOK (C.plug x) = true) (n : RuleName) (hr : n ∈ rules) (e : KE) (hm : Move cfg n (nodeOf x) e) :
    ∃ r ∈ expandNamed cfg o rules (C.plug x), FormOf cfg r (C.plug e) := by
  have hw := (settled_iff.1 hk).1
  obtain ⟨p, hp, _, hO⟩ := occ_traverse (cfg := cfg) C hw hb
  have hS := traverse_node hw hp
  obtain ⟨new, hnew, hst⟩ := rule_move ho (hS.2.2 hk) (traverse_not_base hp) (fun h => curvesOK_node C (hSE (h ▸ hr))) hm
  have hmem : n.rule cfg o ∈ rules.map (RuleName.rule cfg o) := List.mem_map.2 ⟨n, hr, rfl⟩
  obtain ⟨r, h1, h2⟩ := C21_complete_partial cfg _ (C20_builtin_rules cfg o ho rules) C x ⟨hw, hb⟩ hl _ hmem new hnew
  have hrr := rr_rule (orders_noC ho) n hS.1 (traverse_not_base hp) new hnew
  obtain ⟨wR, hf⟩ := form_replaced ho hk hn hp hnew
  have wP := wf_plug hw hrr.wf hrr.notBase
  have hf2 : FormOf cfg (standardise cfg (replaceAt (C.plug x) p new)) (C.plug new) := hf.same wR wP.1 (hO.repl hl new)
  have wr := (C24_shape cfg _ (C20_builtin_rules cfg o ho rules) _ ⟨hw, hb⟩ r h1).1.1
  have hRb : (replaceAt (C.plug x) p new).isBase = false := (repl_wf (repl_of_traverse hp) hw hrr.wf hrr.notBase).2
  have ws := (standardise_wf (cfg := cfg) wR hRb).1
  have wsP := (standardise_wf (cfg := cfg) wP.1 wP.2).1
  have hsame : Same (standardise cfg (replaceAt (C.plug x) p new)) r :=
    (standardise_same wR wP.1 (hO.repl hl new)).trans h2.symm
  refine ⟨r, h1, FormOf.plug C ⟨fun y hy => hf2.1 y (bases_same _ _ wr ws hsame.symm y hy), fun h => ?_⟩ hst⟩
  rw [den_same _ _ _ wr ws hsame.symm]
  exact hf2.2 h

/-- C82 (partial: no bare left branches; with LIN as it is only if it does not absorb constants, and always with LIN standing for LIN plus a constant):
the families an expansion returns are exactly those of the expression with one sub-expression changed by one move. -/
theorem C82_exact_partial (cfg : Cfg) (o : Orders) (ho : o.OK cfg) (rules : List RuleName) (k : KE) (hk : settled cfg k = true)
    (hb : k.isBase = false) (hn : NoSig k) (hSE : .try_higher_curves ∈ rules → curvesOK k = true) (hl : noLeftLeaf k = true)
    (I : Interp) (hI : ∀ l, Reading cfg l I) (F : Fam) :
    (∃ r ∈ expandNamed cfg o rules k, den I r = F) ↔
      ∃ n ∈ rules, ∃ (C : Ctx) (x e : KE), k = C.plug x ∧ Move cfg n (nodeOf x) e ∧ den I (C.plug e) = F := by
  constructor
  · rintro ⟨r, hr, rfl⟩
    obtain ⟨n, hn1, h | ⟨D, c, a, y, e, h1, h2, h3⟩⟩ := C82_sound_partial cfg o ho rules k hk hn hSE r hr
    · obtain ⟨C, x, e, h1, _, h2, h3⟩ := h
      exact ⟨n, hn1, C, x, e, h1, h2, (h3.2 I (hI _)).symm⟩
    · exfalso
      have e2 : k = (Ctx.comp D (.left c .hole y)).plug (base a) := by rw [h1, comp_plug]; rfl
      rw [e2] at hl
      have := noLeftLeaf_ctx hl
      clear h3 h1 e2 hl
      induction D with
      | hole => simp [Ctx.comp, Ctx.endsLeft, isBase] at this
      | comm o b l1 D l2 ih => exact ih this
      | left c' D r ih =>
        rw [Ctx.comp, endsLeft_left] at this
        · exact ih this
        · cases D <;> simp [Ctx.comp]
      | right c l D ih => exact ih this
  · rintro ⟨n, hn1, C, x, e, rfl, h2, rfl⟩
    obtain ⟨r, hr, h⟩ := C82_complete_partial cfg o ho rules C x hk hb hn (noLeftLeaf_ctx hl) hSE n hn1 e h2
    exact ⟨r, hr, h.2 I (hI _)⟩

/-- Why `curvesOK`: in SE + (SE + WN), which is settled but has a sum in a sum, the rule takes away both SE at once (the inner sum is merged into the
outer one before SE is deleted), though one move takes away those of one sum. -/
theorem C82_nested_curves : let k := comm .sum [(.SE, 1)] [comm .sum [(.SE, 1), (.WN, 1)] []]
    settled .default k = true ∧ curvesOK k = false ∧ higherCurves .default k =
      [comm .sum [(.WN, 1)] [comm .prod [(.LIN, 2)] []], comm .sum [(.WN, 1)] [comm .prod [(.LIN, 3)] []]] :=
  ⟨by decide, by decide, by rfl⟩

/-- Expressions as `simplify` leaves them are covered. -/
theorem curvesOK_of_alternating (k : KE) (h : alternating k = true) : curvesOK k = true := by
  induction k using KE.ind with
  | base a => rfl
  | change c l r hl hr =>
    simp only [alternating, curvesOK, allNodes, Bool.and_eq_true] at h hl hr ⊢
    exact ⟨⟨trivial, hl h.1.2⟩, hr h.2⟩
  | comm o b c ih =>
    have h' := h
    simp only [alternating, allNodes, Bool.and_eq_true] at h'
    simp only [curvesOK, allNodes, Bool.and_eq_true]
    exact ⟨by rw [h, Bool.or_true], allNodesL_iff.2 fun k hk => ih k hk (allNodesL_iff.1 h'.2 k hk)⟩

-- the hypotheses hold of PER * (WN + SE + CP(LIN * SE, PER + C)), with all rules, LIN standing for LIN plus a constant
example : let cfg := Cfg.default
    let k := comm .prod [(.PER, 1)] [comm .sum [(.WN, 1), (.SE, 1)] [change .CP (comm .prod [(.LIN, 1), (.SE, 1)] []) (comm .sum [(.PER, 1), (.C, 1)] [])]]
    settled cfg k = true ∧ k.isBase = false ∧ NoSig k ∧ curvesOK k = true ∧ noLeftLeaf k = true ∧ ∀ l, Reading cfg l (roomyI cfg posV) := by
  refine ⟨by decide, rfl, ?_, by decide, by decide, fun _ => Or.inl rfl⟩
  show ∀ x ∈ [Base.PER, .WN, .SE, .LIN, .SE, .PER, .C], _
  decide

-- moves four levels down: one factor of LIN * PER becomes a sum, another goes
example : Move .default .plus_base (comm .prod [(.LIN, 1), (.PER, 1)] []) (comm .prod [(.LIN, 1)] [comm .sum [(.WN, 1), (.PER, 1)] []]) :=
  .plusInside (B := .WN) (bt := .PER) (c := []) (Or.inl (by simp)) (by decide) (by decide)
example : Move .default .remove_some_term (comm .prod [(.LIN, 1), (.PER, 1)] []) (comm .prod [(.PER, 1)] []) :=
  .dropBase (bt := .LIN) (by decide) (by decide)
-- raising a curve: LIN * SE becomes LIN * PER * PER
example : Move .default .try_higher_curves (comm .prod [(.LIN, 1), (.SE, 1)] []) (comm .prod [(.LIN, 1), (.PER, 2)] []) :=
  .curveProd [.PER, .PER] (Or.inr (Or.inr (Or.inr ⟨rfl, by decide⟩))) (by decide)

end GPyABCD
