import Verif.Lemmas.ExpandSame
import Verif.Lemmas.RealSem

/-!
# Expansion (C19 – C26), start kernels (C65) and respect of equality (C66, C67)

An occurrence of a node in `k` is a context `C` and an expression `x` with `k = C.plug x`; the node the rules see
there is `nodeOf x` (a bare base kernel stands for the sum of that one kernel). `wf` holds of everything that can
exist as a Python object. A list of rules is usable when each returns well-formed nodes (`GoodRules`), which the
built-in ones do (`C20_builtin_rules`).
-/

namespace GPyABCD
open KE Kern
open scoped Pointwise

/-- The rules return well-formed nodes on well-formed nodes. -/
def GoodRules (rules : List Rule) : Prop :=
  ∀ rule ∈ rules, ∀ S, wf S = true → S.isBase = false → ∀ new ∈ rule S, wf new = true ∧ new.isBase = false

/-- An expression that is a kernel expression object rather than a string. -/
def IsExpr (k : KE) : Prop := wf k = true ∧ k.isBase = false

theorem orders_noC {cfg : Cfg} {o : Orders} (ho : o.OK cfg) : ∀ B ∈ o.noC, B ≠ Base.C := by
  intro B hB
  have := ho.2.subset hB
  simpa using (List.mem_filter.1 this).2

/-- The built-in rules are usable. -/
theorem C20_builtin_rules (cfg : Cfg) (o : Orders) (ho : o.OK cfg) (rules : List RuleName) :
    GoodRules (rules.map (RuleName.rule cfg o)) := by
  intro rule hr S hw hb new hnew
  obtain ⟨n, _, rfl⟩ := List.mem_map.1 hr
  have := rr_rule (orders_noC ho) n hw hb new hnew
  exact ⟨this.wf, this.notBase⟩

/-! ## C19 -/

/-- C19: no two expressions returned by an expansion are equal. -/
theorem C19_pairwise_different (cfg : Cfg) (rules : List Rule) (k : KE) :
    (expand cfg rules k).Pairwise (fun a b => ¬ Same a b) := by
  have h := Util.uniqueGo_pairwise (eqv := keq) (fun _ _ => keq_symm) []
    ((traverse cfg k).flatMap (fun pS => (expandNode rules pS.2).map (fun new => standardise cfg (replaceAt k pS.1 new))))
  refine List.Pairwise.imp ?_ h
  intro a b hab hs
  rw [(keq_iff _ _).2 hs] at hab
  simp at hab

-- an expansion with many coinciding candidates
example : (expandNamed .default ⟨baseKerns, [.WN, .LIN, .SE, .PER]⟩ rulesMinimal (comm .sum [(.PER, 1)] [])).length = 14 ∧
    ((traverse .default (comm .sum [(.PER, 1)] [])).flatMap (fun pS =>
      (rulesMinimal.map (RuleName.rule .default ⟨baseKerns, [.WN, .LIN, .SE, .PER]⟩)).flatMap (fun r => r pS.2))).length = 20 := by
  decide

/-! ## C20, C21 -/

theorem noLeftLeaf_ctx {C : Ctx} {x : KE} (h : noLeftLeaf (C.plug x) = true) : (C.endsLeft && x.isBase) = false := by
  induction C with
  | hole => rfl
  | comm o b l1 C l2 ih =>
    simp only [Ctx.plug, noLeftLeaf, allNodes, Bool.and_eq_true, allNodesL_iff] at h
    exact ih (h.2 _ (by simp))
  | left c C r ih =>
    by_cases hC : C = .hole
    · subst hC
      cases x with
      | base b => simp [Ctx.plug, noLeftLeaf, allNodes] at h
      | comm _ _ _ => simp [isBase]
      | change _ _ _ => simp [isBase]
    · rw [endsLeft_left hC]
      simp only [Ctx.plug, noLeftLeaf, allNodes, Bool.and_eq_true] at h
      exact ih h.1.2
  | right c l C ih =>
    simp only [Ctx.plug, noLeftLeaf, allNodes, Bool.and_eq_true] at h
    exact ih h.2

theorem expand_occ {cfg : Cfg} {rules : List Rule} (hr : GoodRules rules) {k : KE} (hk : IsExpr k) {r : KE} (h : r ∈ expand cfg rules k) :
    ∃ rule ∈ rules, ∃ (C : Ctx) (x new : KE), k = C.plug x ∧ new ∈ rule (nodeOf x) ∧
      (((C.endsLeft && x.isBase) = false ∧ Same r (standardise cfg (C.plug new))) ∨
        ∃ (D : Ctx) (c : CC) (b : Base) (y : KE), x = base b ∧ C = Ctx.comp D (.left c .hole y) ∧ r = standardise cfg (D.plug (change c (base b) new))) := by
  obtain ⟨p, S, hp, rule, hrule, new, hnew, rfl⟩ := mem_expand h
  obtain ⟨C, x, rfl, h2, h3, hO⟩ := traverse_occ hp
  have hS := (traverse_node hk.1 hp).1
  have hSb := traverse_not_base hp
  have hn := hr rule hrule _ hS hSb new hnew
  refine ⟨rule, hrule, C, x, new, hO.eq, hnew, ?_⟩
  cases hc : (C.endsLeft && x.isBase) with
  | false =>
    left
    refine ⟨rfl, standardise_same (repl_wf (repl_of_traverse hp) hk.1 hn.1 hn.2).1 ?_ (hO.repl hc new)⟩
    have := hk.1
    rw [hO.eq] at this
    exact (wf_plug this hn.1 hn.2).1
  | true =>
    right
    obtain ⟨D, c, y, e, h4⟩ := hO.slip hc
    have hxb : x.isBase = true := (Bool.and_eq_true_iff.1 hc).2
    cases x with
    | base b => exact ⟨D, c, b, y, rfl, e, by rw [h4]⟩
    | comm _ _ _ => simp [isBase] at hxb
    | change _ _ _ => simp [isBase] at hxb

/-- C20 (partial: the full statement is the left alternative alone, which fails when the changed node is a bare base
kernel that is the *left* branch of a change operator, `C20_left_leaf_slips`; there the result replaces the right
branch): every expression returned by expansion is the original with one node occurrence replaced by a result of a
rule on that node, standardised. -/
theorem C20_one_node_partial (cfg : Cfg) (rules : List Rule) (hr : GoodRules rules) (k : KE) (hk : IsExpr k)
    (r : KE) (h : r ∈ expand cfg rules k) :
    (∃ rule ∈ rules, ∃ (C : Ctx) (x new : KE), k = C.plug x ∧ new ∈ rule (nodeOf x) ∧ Same r (standardise cfg (C.plug new))) ∨
    (∃ rule ∈ rules, ∃ (D : Ctx) (c : CC) (b : Base) (y new : KE), k = D.plug (change c (base b) y) ∧ new ∈ rule (nodeOf (base b)) ∧
      r = standardise cfg (D.plug (change c (base b) new))) := by
  obtain ⟨rule, h1, C, x, new, h2, h3, h4 | ⟨D, c, b, y, rfl, rfl, h4⟩⟩ := expand_occ hr hk h
  · exact Or.inl ⟨rule, h1, C, x, new, h2, h3, h4.2⟩
  · refine Or.inr ⟨rule, h1, D, c, b, y, new, ?_, h3, h4⟩
    rw [h2]
    clear h2 h4 h3 h hk
    induction D with
    | hole => rfl
    | comm o b l1 D l2 ih => simp only [Ctx.comp, Ctx.plug, ih]
    | left c D r ih => simp only [Ctx.comp, Ctx.plug, ih]
    | right c l D ih => simp only [Ctx.comp, Ctx.plug, ih]

/-- C20 (partial: only for expressions in which no change operator has a bare base kernel as its left branch): every
expression returned by expansion is the original with exactly one node replaced by a result of a rule on that node,
standardised. -/
theorem C20_one_node_no_left_leaf_partial (cfg : Cfg) (rules : List Rule) (hr : GoodRules rules) (k : KE) (hk : IsExpr k)
    (hl : noLeftLeaf k = true) (r : KE) (h : r ∈ expand cfg rules k) :
    ∃ rule ∈ rules, ∃ (C : Ctx) (x new : KE), k = C.plug x ∧ new ∈ rule (nodeOf x) ∧ Same r (standardise cfg (C.plug new)) := by
  obtain ⟨rule, h1, C, x, new, h2, h3, h4 | ⟨D, c, b, y, rfl, rfl, h4⟩⟩ := expand_occ hr hk h
  · exact ⟨rule, h1, C, x, new, h2, h3, h4.2⟩
  · exfalso
    rw [h2] at hl
    have := noLeftLeaf_ctx hl
    clear h2 h4 h3 h hk hl
    induction D with
    | hole => simp [Ctx.comp, Ctx.endsLeft, isBase] at this
    | comm o b l1 D l2 ih => exact ih this
    | left c' D r ih =>
      rw [Ctx.comp, endsLeft_left] at this
      · exact ih this
      · cases D <;> simp [Ctx.comp]
    | right c l D ih => exact ih this

/-- C20, the exception: expanding CP(PER, WN) with `plus_base` returns CP(PER, PER + C), in which the branch WN,
on which no rule was applied, is gone. -/
theorem C20_left_leaf_slips :
    ∃ r ∈ expandNamed .default ⟨baseKerns, [.WN, .LIN, .SE, .PER]⟩ [.plus_base] (change .CP (base .PER) (base .WN)),
      Same r (change .CP (base .PER) (comm .sum [(.PER, 1), (.C, 1)] [])) := by
  have h : (expandNamed .default ⟨baseKerns, [.WN, .LIN, .SE, .PER]⟩ [.plus_base] (change .CP (base .PER) (base .WN))).any
    (fun r => keq r (change .CP (base .PER) (comm .sum [(.PER, 1), (.C, 1)] []))) = true := by decide
  obtain ⟨r, hr, e⟩ := List.any_eq_true.1 h
  exact ⟨r, hr, (keq_iff _ _).1 e⟩

/-- C20, the exception continued: adding C to the left branch is not among the results. -/
theorem C21_left_leaf_missing :
    ∀ r ∈ expandNamed .default ⟨baseKerns, [.WN, .LIN, .SE, .PER]⟩ [.plus_base] (change .CP (base .PER) (base .WN)),
      ¬ Same r (change .CP (comm .sum [(.PER, 1), (.C, 1)] []) (base .WN)) := by
  have h : (expandNamed .default ⟨baseKerns, [.WN, .LIN, .SE, .PER]⟩ [.plus_base] (change .CP (base .PER) (base .WN))).all
    (fun r => !keq r (change .CP (comm .sum [(.PER, 1), (.C, 1)] []) (base .WN))) = true := by decide
  intro r hr hs
  have := List.all_eq_true.1 h r hr
  rw [(keq_iff _ _).2 hs] at this
  simp at this

/-- C21 (partial: the full statement has no condition on the occurrence; it fails for a bare base kernel that is the
left branch of a change operator, `C21_left_leaf_missing`): for every node occurrence, every rule and every result of
it, the expression with that node replaced and standardised is among the results, up to equality. -/
theorem C21_complete_partial (cfg : Cfg) (rules : List Rule) (hr : GoodRules rules) (C : Ctx) (x : KE) (hk : IsExpr (C.plug x))
    (hl : (C.endsLeft && x.isBase) = false) (rule : Rule) (h1 : rule ∈ rules) (new : KE) (h2 : new ∈ rule (nodeOf x)) :
    ∃ r ∈ expand cfg rules (C.plug x), Same r (standardise cfg (C.plug new)) := by
  obtain ⟨p, hp, _, hO⟩ := occ_traverse (cfg := cfg) C hk.1 hk.2
  obtain ⟨new', hs, ⟨rule', hr', hn'⟩, r, hre, hr2⟩ := expand_mem hp h1 h2
  have hS := (traverse_node hk.1 hp).1
  have hSb := traverse_not_base hp
  have w1 := hr rule h1 _ hS hSb new h2
  have w2 := hr rule' hr' _ hS hSb new' hn'
  refine ⟨r, hre, hr2.trans (standardise_same (repl_wf (repl_of_traverse hp) hk.1 w2.1 w2.2).1 (wf_plug hk.1 w1.1 w1.2).1 ?_)⟩
  exact (hO.repl hl new').trans (C.plug_same hs)

set_option maxRecDepth 4000 in
-- a rule applied three levels down in LIN * (PER + CP(LIN, SE + C))
example :
    let C := Ctx.comm .prod [(.LIN, 1)] [] (.comm .sum [(.PER, 1)] [] (.right .CP (comm .prod [(.LIN, 2)] []) .hole) []) []
    let x := comm .sum [(.SE, 1), (.C, 1)] []
    IsExpr (C.plug x) ∧ (C.endsLeft && x.isBase) = false ∧ noLeftLeaf (C.plug x) = true ∧
      (expandNamed .default ⟨baseKerns, [.WN, .LIN, .SE, .PER]⟩ [.plus_base] (C.plug x)).any
        (fun r => keq r (C.plug (comm .sum [(.SE, 1), (.C, 1), (.WN, 1)] []))) = true := by
  refine ⟨⟨by decide, rfl⟩, by decide, by decide, by decide⟩

/-! ## C22 -/

/-- C22: every base kernel of a result of a built-in expansion is in the original, or is a production base kernel
(SE only when enabled). In particular sigmoids never appear. -/
theorem C22_base_kernels (cfg : Cfg) (o : Orders) (ho : o.OK cfg) (rules : List RuleName) (k : KE) (hk : IsExpr k)
    (r : KE) (h : r ∈ expandNamed cfg o rules k) :
    ∀ x ∈ bases r, x ∈ bases k ∨ x ∈ [Base.WN, .C, .LIN, .PER] ∨ (x = .SE ∧ cfg.includeSE = true) := by
  obtain ⟨p, S, hp, rule, hrule, new, hnew, rfl⟩ := mem_expand h
  obtain ⟨n, _, rfl⟩ := List.mem_map.1 hrule
  have hS := traverse_node hk.1 hp
  have hr := rr_rule (orders_noC ho) n hS.1 (traverse_not_base hp) new hnew
  have hw := repl_wf (repl_of_traverse hp) hk.1 hr.wf hr.notBase
  have hE : ∀ x ∈ baseKernsForProd cfg, x ∈ [Base.WN, .C, .LIN, .PER] ∨ (x = .SE ∧ cfg.includeSE = true) := by
    intro x hx
    unfold baseKernsForProd at hx
    split at hx
    · rename_i hSE; simp only [baseKerns, List.mem_cons, List.not_mem_nil, or_false] at hx
      rcases hx with rfl | rfl | rfl | rfl | rfl <;> simp [hSE]
    · simp only [baseKerns, List.mem_filter, List.mem_cons, List.not_mem_nil, or_false] at hx
      rcases hx with ⟨rfl | rfl | rfl | rfl | rfl, h⟩ <;> simp at h <;> simp
  intro x hx
  rcases repl_bases (repl_of_traverse hp) x (standardise_bases hw.1 hw.2 x hx) with h | h
  · exact Or.inl h
  · rcases hr.bases x h with h | h
    · exact Or.inl (hS.2.1 x h)
    · right
      simp only [ruleBases, List.mem_append] at h
      rcases h with (h | h) | h
      · exact hE x (ho.1.subset h)
      · exact hE x (List.mem_filter.1 (ho.2.subset h)).1
      · simp only [List.mem_cons, List.not_mem_nil, or_false] at h
        rcases h with rfl | rfl | rfl <;> simp

example : Orders.OK .default ⟨baseKernsForProd .default, (baseKernsForProd .default).filter (· ≠ .C)⟩ :=
  ⟨List.Perm.refl _, List.Perm.refl _⟩

/-! ## C23 -/

theorem replaceAt_same {cfg : Cfg} {k S a b : KE} {p : List Step} (hp : (p, S) ∈ traverse cfg k) (h : Same a b) :
    Same (replaceAt k p a) (replaceAt k p b) := by
  obtain ⟨C, x, rfl, h2, h3, hO⟩ := traverse_occ hp
  cases hc : (C.endsLeft && x.isBase) with
  | false => exact (hO.repl hc a).trans ((C.plug_same h).trans (hO.repl hc b).symm)
  | true =>
    obtain ⟨D, c, y, e, h4⟩ := hO.slip hc
    rw [h4, h4]
    exact D.plug_same (.change (Same.refl _) h)

theorem rule_perm {cfg : Cfg} {o o' : Orders} (h1 : o.all.Perm o'.all) (h2 : o.noC.Perm o'.noC) (n : RuleName) (S : KE) :
    (n.rule cfg o S).Perm (n.rule cfg o' S) := by
  cases n <;> first | exact List.Perm.flatMap_right _ h1 | exact List.Perm.flatMap_right _ h2 | exact List.Perm.refl _

/-- C23: the results do not depend on the iteration order of the sets of base kernels, up to equality. -/
theorem C23_order_independent (cfg : Cfg) (o o' : Orders) (ho : o.OK cfg) (ho' : o'.OK cfg) (rules : List RuleName) (k : KE)
    (hk : IsExpr k) (r : KE) (h : r ∈ expandNamed cfg o rules k) : ∃ r' ∈ expandNamed cfg o' rules k, Same r r' := by
  obtain ⟨p, S, hp, rule, hrule, new, hnew, rfl⟩ := mem_expand h
  obtain ⟨n, hn, rfl⟩ := List.mem_map.1 hrule
  have hnew' : new ∈ n.rule cfg o' S := (rule_perm (ho.1.trans ho'.1.symm) (ho.2.trans ho'.2.symm) n S).subset hnew
  obtain ⟨new', hs, ⟨rule', hr', hn'⟩, r', hre, hr2⟩ := expand_mem hp (List.mem_map.2 ⟨n, hn, rfl⟩) hnew'
  have hS := (traverse_node hk.1 hp).1
  have hSb := traverse_not_base hp
  have w1 := C20_builtin_rules cfg o ho rules _ hrule S hS hSb new hnew
  have w2 := C20_builtin_rules cfg o' ho' rules _ hr' S hS hSb new' hn'
  refine ⟨r', hre, Same.symm (hr2.trans (standardise_same (repl_wf (repl_of_traverse hp) hk.1 w2.1 w2.2).1
    (repl_wf (repl_of_traverse hp) hk.1 w1.1 w1.2).1 (replaceAt_same hp hs)))⟩

-- different orders do give different lists
example : let o : Orders := ⟨[.WN, .C, .LIN, .PER], [.WN, .LIN, .PER]⟩
    let o' : Orders := ⟨[.PER, .C, .LIN, .WN], [.PER, .LIN, .WN]⟩
    o.OK .default ∧ o'.OK .default ∧
    (((expandNamed .default o [.plus_base] (comm .sum [(.PER, 1)] [])).zip
      (expandNamed .default o' [.plus_base] (comm .sum [(.PER, 1)] []))).all (fun p => keq p.1 p.2)) = false := by
  refine ⟨⟨by decide, by decide⟩, ⟨by decide, by decide⟩, by decide⟩

/-! ## C24 -/

theorem standardiseF_mono {cfg : Cfg} : ∀ (n m : Nat) (k r : KE), n ≤ m → standardiseF cfg n k = some r → standardiseF cfg m k = some r := by
  intro n
  induction n with
  | zero => intro m k r _ h; simp [standardiseF] at h
  | succ n ih =>
    intro m k r hm h
    obtain ⟨m, rfl⟩ : ∃ m', m = m' + 1 := ⟨m - 1, by omega⟩
    rw [standardiseF] at h ⊢
    cases hs : extractsSelf (simplify cfg k) with
    | true => simp only [hs, if_true] at h ⊢; exact h
    | false =>
      simp only [hs, Bool.false_eq_true, if_false] at h ⊢
      generalize extract (simplify cfg k) = e at h ⊢
      cases e with
      | base b => exact h
      | comm _ _ _ => exact ih m _ r (by omega) h
      | change _ _ _ => exact ih m _ r (by omega) h

/-- C24, termination: the recursion of `standardise_singleton_root` ends; its result does not depend on the depth
allowed. -/
theorem C24_terminates (cfg : Cfg) (k : KE) (hk : IsExpr k) :
    ∃ N, ∀ n, N ≤ n → standardiseF cfg n k = some (standardise cfg k) := by
  obtain ⟨r, e, _⟩ := standardiseF_ind (cfg := cfg) (fun _ => True) (fun _ _ _ => trivial) (fun _ _ _ => trivial)
    (fun _ _ _ => trivial) (nodes k + 1) k hk.1 hk.2 trivial (by omega)
  refine ⟨nodes k + 1, fun n hn => ?_⟩
  rw [standardise, nodes'_eq, e]
  exact standardiseF_mono _ _ _ _ hn e

/-- C24, shape: every expanded expression is a change operator, a sum of one base kernel, or a sum or product of
several terms. -/
theorem C24_shape (cfg : Cfg) (rules : List Rule) (hr : GoodRules rules) (k : KE) (hk : IsExpr k) (r : KE) (h : r ∈ expand cfg rules k) :
    IsExpr r ∧ ((∃ c l r', r = change c l r') ∨ (∃ b, r = comm .sum [(b, 1)] []) ∨
      (∃ o b cs, r = comm o b cs ∧ isSingleton r = false)) := by
  obtain ⟨p, S, hp, rule, hrule, new, hnew, rfl⟩ := mem_expand h
  have hS := (traverse_node hk.1 hp).1
  have hn := hr rule hrule _ hS (traverse_not_base hp) new hnew
  have hw := repl_wf (repl_of_traverse hp) hk.1 hn.1 hn.2
  obtain ⟨_, h1, h2, h3⟩ := standardise_ind (cfg := cfg) (fun _ => True) (fun _ _ _ => trivial) (fun _ _ _ => trivial)
    (fun _ _ _ => trivial) hw.1 hw.2 trivial
  refine ⟨⟨h1, h2⟩, ?_⟩
  rcases h3 with ⟨h3, _⟩ | h3
  · cases hs : standardise cfg (replaceAt k p new) with
    | base b => rw [hs] at h2; simp [isBase] at h2
    | comm o b cs => exact Or.inr (Or.inr ⟨o, b, cs, rfl, by rw [← hs]; exact h3⟩)
    | change c l r => exact Or.inl ⟨c, l, r, rfl⟩
  · exact Or.inr (Or.inl h3)

theorem den_one (I : Interp) (o : Op) (b : Base) : den I (comm o [(b, 1)] []) = I.F b := by
  cases o <;> simp only [den, denL, opFold, Counter.elements, List.flatMap_cons, List.flatMap_nil, List.append_nil, Int.toNat_one,
    List.replicate_one, List.map_cons, List.map_nil, List.sum_cons, List.sum_nil, List.prod_cons, List.prod_nil, add_zero, mul_one]

theorem den_only (I : Interp) (o : Op) (k : KE) : den I (comm o [] [k]) = den I k := by
  cases o <;> simp only [den, denL, opFold, Counter.elements, List.flatMap_nil, List.map_nil, List.nil_append,
    List.sum_cons, List.sum_nil, List.prod_cons, List.prod_nil, add_zero, mul_one]

/-- C24, meaning: standardising changes neither the covariance functions (in every reading: LIN not meeting C under the offset flag, or LIN
standing for LIN plus a constant)
nor what is simplified already: it only unwraps one-term roots. -/
theorem C24_meaning (cfg : Cfg) (k : KE) (h : operand k = true) (hb : k.isBase = false) (I : Interp) (hl : Reading cfg (bases k) I) :
    den I (standardise cfg k) = den I k := by
  have hw := (operand_iff.1 h).1
  have := standardise_ind (cfg := cfg) (fun r => operand r = true ∧ (∀ x ∈ bases r, x ∈ bases k) ∧ den I r = den I k)
    (fun r hr hq => ⟨operand_simplify cfg hq.1, fun x hx => hq.2.1 x ((bases_simplify cfg r hr).subset hx),
      (den_simplify_operand hl.laws cfg hq.1 (hl.safe.sub (fun x hx => hq.2.1 x hx))).trans hq.2.2⟩)
    (fun o b hq => ⟨operand_of_settled (settled_leaf cfg b), fun x hx => hq.2.1 x (by simpa [KE.bases] using hx), by
      rw [← hq.2.2]; rw [den_one, den_one]⟩)
    (fun o ct hq => ⟨((operand_comm.1 hq.1).2.2.2 ct (by simp)).2.1, fun x hx => hq.2.1 x (by simpa [KE.bases, basesL, Counter.elements] using hx), by
      rw [← hq.2.2, den_only]⟩) hw hb ⟨h, fun _ h => h, rfl⟩
  exact this.1.2.2

-- nested one-term wrappers around a change operator and around a base kernel
example : keq (standardise .default (comm .sum [] [comm .prod [] [comm .sum [] [change .CP (base .LIN) (base .C)]]]))
      (change .CP (base .LIN) (base .C)) = true ∧
    keq (standardise .default (comm .prod [] [comm .sum [(.PER, 1)] []])) (comm .sum [(.PER, 1)] []) = true ∧
    IsExpr (comm .sum [] [comm .prod [] [comm .sum [] [change .CP (base .LIN) (base .C)]]]) := by
  refine ⟨by decide, by decide, by decide, rfl⟩

/-! ## C25 -/

/-- C25 (partial: the full statement has no condition; it is false of expressions that were never simplified or hold sigmoids,
`C25_unsimplified_empties`, `C25_sigmoid_empties`): expanding a simplified expression without empty nodes and sigmoids gives only such expressions. -/
theorem C25_step_partial (cfg : Cfg) (o : Orders) (ho : o.OK cfg) (rules : List RuleName) (k : KE) (hk : settled cfg k = true)
    (hb : k.isBase = false) (hn : NoSig k) (r : KE) (h : r ∈ expandNamed cfg o rules k) :
    settled cfg r = true ∧ r.isBase = false ∧ NoSig r := by
  have hw := (settled_iff.1 hk).1
  have hns := C22_base_kernels cfg o ho rules k ⟨hw, hb⟩ r h
  obtain ⟨p, S, hp, rule, hrule, new, hnew, rfl⟩ := mem_expand h
  obtain ⟨n, _, rfl⟩ := List.mem_map.1 hrule
  have hS := traverse_node hw hp
  have hr := rr_rule (orders_noC ho) n hS.1 (traverse_not_base hp) new hnew
  have hnS : NoSig S := fun x hx => hn x (hS.2.1 x hx)
  obtain ⟨o1, o2⟩ := hr.op (hS.2.2 hk) hnS
  obtain ⟨h1, h2, _⟩ := repl_operand (repl_of_traverse hp) hk hn hS.1 hr.notBase o1 o2
  refine ⟨standardise_settled h1 h2, (standardise_wf (operand_iff.1 h1).1 h2).2, ?_⟩
  intro x hx
  rcases hns x hx with h | h | h
  · exact hn x h
  · simp only [List.mem_cons, List.not_mem_nil, or_false] at h
    rcases h with rfl | rfl | rfl | rfl <;> rfl
  · rw [h.1]; rfl

/-- Expressions reached from start kernels by any number of expansions, with any iteration orders. -/
inductive Reachable (cfg : Cfg) (start : List KE) (rules : List RuleName) : KE → Prop
  | start {k : KE} (h : k ∈ start) : Reachable cfg start rules k
  | step {k r : KE} {o : Orders} (ho : o.OK cfg) (hk : Reachable cfg start rules k) (h : r ∈ expandNamed cfg o rules k) :
      Reachable cfg start rules r

/-- C25 (partial as `C25_step_partial`): no expression reached by any number of expansions has an empty sum or product;
all of them are simplified and free of sigmoids. -/
theorem C25_reachable_partial (cfg : Cfg) (start : List KE) (rules : List RuleName)
    (hs : ∀ k ∈ start, settled cfg k = true ∧ k.isBase = false ∧ NoSig k) (k : KE) (h : Reachable cfg start rules k) :
    noEmpty k = true ∧ settled cfg k = true ∧ k.isBase = false ∧ NoSig k := by
  have : settled cfg k = true ∧ k.isBase = false ∧ NoSig k := by
    induction h with
    | start h => exact hs _ h
    | step ho _ h ih => exact C25_step_partial cfg _ ho rules _ ih.1 ih.2.1 ih.2.2 _ h
  exact ⟨(settled_iff.1 this.1).2.1, this⟩

example : settled .default (comm .prod [(.LIN, 1)] [comm .sum [(.PER, 1)] [change .CW (base .C) (base .SE)]]) = true ∧
    NoSig (comm .prod [(.LIN, 1)] [comm .sum [(.PER, 1)] [change .CW (base .C) (base .SE)]]) := by
  refine ⟨by decide, ?_⟩
  show ∀ x ∈ [Base.LIN, .PER, .C, .SE], _
  decide

/-! ## C26 -/

/-- C26 is false: expanding LIN * (PER + LIN * SE) by removing a term gives a product in a product, which simplifies
further. -/
theorem C26_not_stable :
    let k := comm .prod [(.LIN, 1)] [comm .sum [(.PER, 1)] [comm .prod [(.LIN, 1), (.SE, 1)] []]]
    simplify .default k = k ∧
    ∃ r ∈ expandNamed .default ⟨baseKerns, [.WN, .LIN, .SE, .PER]⟩ [.remove_some_term] k, ¬ Same (simplify .default r) r := by
  refine ⟨by rfl, ?_⟩
  have h : (expandNamed .default ⟨baseKerns, [.WN, .LIN, .SE, .PER]⟩ [.remove_some_term]
      (comm .prod [(.LIN, 1)] [comm .sum [(.PER, 1)] [comm .prod [(.LIN, 1), (.SE, 1)] []]])).any
    (fun r => !keq (simplify .default r) r) = true := by decide
  obtain ⟨r, hr, e⟩ := List.any_eq_true.1 h
  refine ⟨r, hr, fun hs => ?_⟩
  rw [(keq_iff _ _).2 hs] at e
  simp at e

/-- C26 (partial: the full statement has no condition, see `C26_not_stable`): results in which no sum sits directly in a
sum and no product directly in a product are left alone by simplification. -/
theorem C26_stable_partial (cfg : Cfg) (o : Orders) (ho : o.OK cfg) (rules : List RuleName) (k : KE) (hk : settled cfg k = true)
    (hb : k.isBase = false) (hn : NoSig k) (r : KE) (h : r ∈ expandNamed cfg o rules k) (ha : alternating r = true) :
    simplify cfg r = r := by
  obtain ⟨hs, _, _⟩ := C25_step_partial cfg o ho rules k hk hb hn r h
  obtain ⟨h1, _, h3, h4⟩ := settled_iff.1 hs
  exact simplify_of_normal (normal_iff.2 ⟨h1, h3, h4, ha⟩)

-- the condition is met by most results
example : let k := comm .prod [(.LIN, 1)] [comm .sum [(.PER, 1)] [comm .prod [(.LIN, 1), (.SE, 1)] []]]
    settled .default k = true ∧ k.isBase = false ∧
    ((expandNamed .default ⟨baseKerns, [.WN, .LIN, .SE, .PER]⟩ [.remove_some_term] k).map alternating).count true = 5 ∧
    ((expandNamed .default ⟨baseKerns, [.WN, .LIN, .SE, .PER]⟩ [.remove_some_term] k).map alternating).count false = 1 := by
  decide

/-! ## C65 -/

/-- The string names a base kernel. -/
def KE.Pseudo.valid : Pseudo → Bool
  | .kex _ => true
  | .name b => [Base.WN, .C, .LIN, .SE, .PER].contains b
  | .unknown _ => false

/-- C65, acceptance: a list of start kernels is accepted exactly when every string in it names a base kernel; one
expression is made per entry. -/
theorem C65_accept (cfg : Cfg) (ps : List Pseudo) :
    ((∃ ks, makeSimpleKexs cfg ps = some ks) ↔ ∀ p ∈ ps, p.valid = true) ∧
    ∀ ks, makeSimpleKexs cfg ps = some ks → List.Forall₂ (fun p k => ∃ x, k = simplify cfg x ∧
      (p = .kex x ∨ ∃ b, p = .name b ∧ x = comm .sum [(b, 1)] [])) ps ks := by
  induction ps with
  | nil =>
    refine ⟨by simp [makeSimpleKexs], ?_⟩
    intro ks h
    simp only [makeSimpleKexs, Option.some.injEq] at h; subst h; exact .nil
  | cons p ps ih =>
    have hp : (∃ k, pseudoToReal cfg p = some k) ↔ p.valid = true := by
      cases p with
      | kex k => simp [pseudoToReal, Pseudo.valid]
      | name b => cases b <;> simp [pseudoToReal, Pseudo.valid, baseKerns]
      | unknown s => simp [pseudoToReal, Pseudo.valid]
    constructor
    · rw [List.forall_mem_cons, ← hp, ← ih.1]
      simp only [makeSimpleKexs]
      constructor
      · rintro ⟨ks, h⟩
        split at h
        · rename_i k ks' h1 h2; exact ⟨⟨k, h1⟩, ks', h2⟩
        · simp at h
      · rintro ⟨⟨k, h1⟩, ks, h2⟩
        rw [h1, h2]; exact ⟨_, rfl⟩
    · intro ks h
      simp only [makeSimpleKexs] at h
      split at h
      · rename_i k ks' h1 h2
        simp only [Option.some.injEq] at h; subst h
        refine .cons ?_ (ih.2 _ h2)
        cases p with
        | kex k' => simp only [pseudoToReal, Option.some.injEq] at h1; subst h1; exact ⟨_, rfl, Or.inl rfl⟩
        | name b =>
          simp only [pseudoToReal] at h1
          split at h1
          · simp only [Option.some.injEq, mkL_one] at h1; subst h1; exact ⟨_, rfl, Or.inr ⟨b, rfl, rfl⟩⟩
          · simp at h1
        | unknown s => simp [pseudoToReal] at h1
      · simp at h

example : makeSimpleKexs .default [.name .SE, .kex (comm .prod [(.LIN, 2)] []), .name .S] = none ∧
    (Pseudo.name .SE).valid = true ∧ (Pseudo.name .S).valid = false := by
  refine ⟨by rfl, by decide, by decide⟩

/-- The built-in groups of start kernels, with the extra entry added without the offset flag; `bs` is an iteration
order of the base kernels without SE. -/
def startGroups (cfg : Cfg) (bs : List Base) : List (List Pseudo) :=
  [startDefault cfg bs ++ startExtra cfg, startExtended cfg bs ++ startExtra cfg, startOriginal ++ startExtra cfg]

theorem makeSimple_append (cfg : Cfg) (ps qs : List Pseudo) :
    makeSimpleKexs cfg (ps ++ qs) = match makeSimpleKexs cfg ps, makeSimpleKexs cfg qs with
      | some a, some b => some (a ++ b)
      | _, _ => none := by
  induction ps with
  | nil => simp only [List.nil_append, makeSimpleKexs]; cases makeSimpleKexs cfg qs <;> rfl
  | cons p ps ih =>
    simp only [List.cons_append, makeSimpleKexs, ih]
    cases pseudoToReal cfg p <;> cases makeSimpleKexs cfg ps <;> cases makeSimpleKexs cfg qs <;> rfl

theorem makeSimple_names (cfg : Cfg) (bs : List Base) (h : bs ⊆ [Base.WN, .C, .LIN, .PER]) :
    makeSimpleKexs cfg (bs.map .name) = some (bs.map (fun b => comm .sum [(b, 1)] [])) := by
  induction bs with
  | nil => rfl
  | cons b bs ih =>
    have hb := h (List.mem_cons_self ..)
    have := ih (fun x hx => h (List.mem_cons_of_mem _ hx))
    simp only [List.map_cons, makeSimpleKexs, this]
    have e : pseudoToReal cfg (.name b) = some (comm .sum [(b, 1)] []) := by
      simp only [pseudoToReal, mkL_one]
      rw [if_pos]
      simp only [List.mem_cons, List.not_mem_nil, or_false] at hb
      rcases hb with rfl | rfl | rfl | rfl <;> decide
    have e2 : simplify cfg (comm .sum [(b, 1)] []) = comm .sum [(b, 1)] [] := by
      have := mkL_one cfg b
      rwa [mkL, mkC] at this
    rw [e]; simp only [e2]

/-- What is checked of a list of start kernels. -/
def startOK (cfg : Cfg) (ks : List KE) : Bool :=
  ks.all (fun k => normal cfg k && settled cfg k && !k.isBase && (bases k).all (fun b => !b.isSigmoid && decide (b ≠ .SE)))

/-- C65: every built-in group is accepted and consists of expressions that simplification leaves alone, that are
pairwise different, and that use only base kernels without SE; whatever the iteration order of the base kernels. -/
theorem C65_builtin (cfg : Cfg) (bs : List Base) (hbs : bs.Perm [.WN, .C, .LIN, .PER]) (ps : List Pseudo) (hp : ps ∈ startGroups cfg bs) :
    ∃ ks, makeSimpleKexs cfg ps = some ks ∧ ks ≠ [] ∧
      (∀ k ∈ ks, simplify cfg k = k ∧ settled cfg k = true ∧ k.isBase = false ∧ NoSig k ∧ Base.SE ∉ bases k) ∧
      ks.Pairwise (fun a b => ¬ Same a b) := by
  have fin : ∀ ks, (startOK cfg ks = true) → (ks.Pairwise (fun a b => (!keq a b) = true)) → 
      (∀ k ∈ ks, simplify cfg k = k ∧ settled cfg k = true ∧ k.isBase = false ∧ NoSig k ∧ Base.SE ∉ bases k) ∧
      ks.Pairwise (fun a b => ¬ Same a b) := by
    intro ks h1 h2
    refine ⟨fun k hk => ?_, h2.imp ?_⟩
    · have := List.all_eq_true.1 h1 k hk
      simp only [Bool.and_eq_true, Bool.not_eq_true', List.all_eq_true, decide_eq_true_eq] at this
      exact ⟨simplify_of_normal this.1.1.1, this.1.1.2, this.1.2, fun x hx => (this.2 x hx).1, fun hx => (this.2 _ hx).2 rfl⟩
    · intro a b h hs
      rw [(keq_iff _ _).2 hs] at h
      simp at h
  -- moving the base kernels to a fixed order
  have perm : ∀ rest, startOK cfg ([Base.WN, .C, .LIN, .PER].map (fun b => comm .sum [(b, 1)] []) ++ rest) = true →
      ([Base.WN, .C, .LIN, .PER].map (fun b => comm .sum [(b, 1)] []) ++ rest).Pairwise (fun a b => (!keq a b) = true) →
      startOK cfg (bs.map (fun b => comm .sum [(b, 1)] []) ++ rest) = true ∧
      (bs.map (fun b => comm .sum [(b, 1)] []) ++ rest).Pairwise (fun a b => (!keq a b) = true) := by
    intro rest h1 h2
    have hpm := (hbs.map (fun b => comm .sum [(b, 1)] [])).append_right rest
    refine ⟨?_, (hpm.pairwise_iff (fun {a b} h => by rw [keq_comm]; exact h)).2 h2⟩
    rw [startOK, List.all_eq_true] at h1 ⊢
    exact fun k hk => h1 k (hpm.subset hk)
  simp only [startGroups, List.mem_cons, List.not_mem_nil, or_false] at hp
  have hsub : bs ⊆ [Base.WN, .C, .LIN, .PER] := hbs.subset
  rcases hp with rfl | rfl | rfl
  · rw [startDefault, List.append_assoc, List.append_assoc, makeSimple_append, makeSimple_names cfg bs hsub]
    rcases cfg with ⟨s, o, f⟩
    cases o <;> cases s <;> cases f <;> 
      exact ⟨_, rfl, by simp, fin _ (perm _ (by decide) (by decide)).1 (perm _ (by decide) (by decide)).2⟩
  · rw [startExtended, List.append_assoc, List.append_assoc, makeSimple_append, makeSimple_names cfg bs hsub]
    rcases cfg with ⟨s, o, f⟩
    cases o <;> cases s <;> cases f <;>
      exact ⟨_, rfl, by simp, fin _ (perm _ (by decide) (by decide)).1 (perm _ (by decide) (by decide)).2⟩
  · rcases cfg with ⟨s, o, f⟩
    cases o <;> cases s <;> cases f <;> exact ⟨_, rfl, by simp, fin _ (by decide) (by decide)⟩

/-- C65: what the built-in groups contain, whatever the flags: each base kernel but SE by itself, `LIN` squared and cubed, `PER + C`, and a change
point and a change window between two `LIN`s ('Default') or these plus a constant ('Extended'); white noise alone ('Original_ABCD'); and everywhere
`LIN + C` if `LIN` has no offset. -/
theorem C65_contents (cfg : Cfg) (bs : List Base) (hbs : bs ⊆ [Base.WN, .C, .LIN, .PER]) :
    let names := bs.map (fun b => comm .sum [(b, 1)] [])
    let curves := [comm .prod [(.LIN, 2)] [], comm .prod [(.LIN, 3)] [], comm .sum [(.PER, 1), (.C, 1)] []]
    let extra := if cfg.linOffset then [] else [comm .sum [(.LIN, 1), (.C, 1)] []]
    let cp := change .CP (base .LIN) (base .LIN)
    let cw := change .CW (base .LIN) (base .LIN)
    makeSimpleKexs cfg (startDefault cfg bs ++ startExtra cfg) = some (names ++ curves ++ [cp, cw] ++ extra) ∧
    makeSimpleKexs cfg (startExtended cfg bs ++ startExtra cfg) =
      some (names ++ curves ++ [comm .sum [(.C, 1)] [cp], comm .sum [(.C, 1)] [cw]] ++ extra) ∧
    makeSimpleKexs cfg (startOriginal ++ startExtra cfg) = some (comm .sum [(.WN, 1)] [] :: extra) := by
  intro names curves extra cp cw
  have e1 : makeSimpleKexs cfg [.kex (mkL cfg .prod [.LIN, .LIN] []), .kex (mkL cfg .prod [.LIN, .LIN, .LIN] []), .kex (mkL cfg .sum [.PER, .C] [])] = some curves := by
    rcases cfg with ⟨s, o, f⟩
    cases s <;> cases o <;> cases f <;> rfl
  have e2 : makeSimpleKexs cfg ((bothChanges cfg (base .LIN) none).map .kex) = some [cp, cw] := by
    rcases cfg with ⟨s, o, f⟩
    cases s <;> cases o <;> cases f <;> rfl
  have e3 : makeSimpleKexs cfg ((bothChanges cfg (base .LIN) none).map (fun ck => .kex (mkL cfg .sum [.C] [ck]))) =
      some [comm .sum [(.C, 1)] [cp], comm .sum [(.C, 1)] [cw]] := by
    rcases cfg with ⟨s, o, f⟩
    cases s <;> cases o <;> cases f <;> rfl
  have e4 : makeSimpleKexs cfg (startExtra cfg) = some extra := by
    rcases cfg with ⟨s, o, f⟩
    cases s <;> cases o <;> cases f <;> rfl
  have e5 : makeSimpleKexs cfg startOriginal = some [comm .sum [(.WN, 1)] []] := by
    rcases cfg with ⟨s, o, f⟩
    cases s <;> cases o <;> cases f <;> rfl
  refine ⟨?_, ?_, ?_⟩
  · rw [startDefault, makeSimple_append, makeSimple_append, makeSimple_append, makeSimple_names cfg bs hbs, e1, e2, e4]
  · rw [startExtended, makeSimple_append, makeSimple_append, makeSimple_append, makeSimple_names cfg bs hbs, e1, e3, e4]
  · rw [makeSimple_append, e5, e4]
    rfl

/-- The base kernels but SE, in one of the orders in which the set may be listed. -/
example : [Base.PER, .LIN, .WN, .C] ⊆ [Base.WN, .C, .LIN, .PER] := by decide

/-- C25 for the start kernels shipped with the package: nothing reached from them by any number of expansions with
any of the built-in rules has an empty node. -/
theorem C25_builtin (cfg : Cfg) (bs : List Base) (hbs : bs.Perm [.WN, .C, .LIN, .PER]) (ps : List Pseudo) (hp : ps ∈ startGroups cfg bs)
    (rules : List RuleName) : ∃ ks, makeSimpleKexs cfg ps = some ks ∧ ∀ k, Reachable cfg ks rules k →
      noEmpty k = true ∧ settled cfg k = true ∧ k.isBase = false ∧ NoSig k := by
  obtain ⟨ks, h1, _, h2, _⟩ := C65_builtin cfg bs hbs ps hp
  exact ⟨ks, h1, fun k hk => C25_reachable_partial cfg ks rules (fun k hk => ⟨(h2 k hk).2.1, (h2 k hk).2.2.1, (h2 k hk).2.2.2.1⟩) k hk⟩

example : [Base.PER, .LIN, .WN, .C].Perm [.WN, .C, .LIN, .PER] ∧
    (makeSimpleKexs .default (startDefault .default [.PER, .LIN, .WN, .C] ++ startExtra .default)).map List.length = some 9 := by
  decide

/-- C25 (partial: `C25_unsimplified_empties` and `C25_sigmoid_empties` show that neither condition can go): whatever is built
by the constructors or by `_initialise` from a tree `k` without sigmoids, if it has no empty node itself nothing reached from it by any number
of expansions has one. -/
theorem C25_constructed_partial (cfg : Cfg) (k : KE) (hk : IsExpr k) (hn : NoSig k) (he : noEmpty (simplify cfg k) = true)
    (rules : List RuleName) (r : KE) (h : Reachable cfg [simplify cfg k] rules r) : noEmpty r = true ∧ r.isBase = false ∧ NoSig r := by
  have := C25_reachable_partial cfg [simplify cfg k] rules (by
    simp only [List.mem_singleton, forall_eq]
    exact ⟨settled_iff.2 ⟨wf_simplify cfg k hk.1, he, canon_simplify cfg k hk.1, allBelow_simplify cfg k hk.1⟩, by rw [isBase_simplify]; exact hk.2,
      fun x hx => hn x ((bases_simplify cfg k hk.1).subset hx)⟩) r h
  exact ⟨this.1, this.2.2⟩

-- a tree that is not simplified, whose simplification is not stable
example : IsExpr (comm .sum [(.C, 2)] [comm .prod [] [comm .sum [(.SE, 1), (.LIN, 1)] []]]) ∧
    NoSig (comm .sum [(.C, 2)] [comm .prod [] [comm .sum [(.SE, 1), (.LIN, 1)] []]]) ∧
    noEmpty (simplify .default (comm .sum [(.C, 2)] [comm .prod [] [comm .sum [(.SE, 1), (.LIN, 1)] []]])) = true := by
  refine ⟨⟨by decide, by decide⟩, ?_, by decide⟩
  show ∀ x ∈ [Base.C, .C, .SE, .LIN], _
  decide

/-- C25 is false of expressions put together without the constructors: simplifying the result of an expansion can empty a
product that was not touched. -/
theorem C25_unsimplified_empties : ∃ (o : Orders) (k r : KE), o.OK .default ∧ IsExpr k ∧ noEmpty k = true ∧ NoSig k ∧
    r ∈ expandNamed .default o [.remove_some_term] k ∧ noEmpty r = false := by
  refine ⟨⟨baseKernsForProd .default, (baseKernsForProd .default).filter (· ≠ .C)⟩,
    comm .sum [(.SE, 1), (.PER, 1)] [comm .prod [] [comm .prod [(.C, 1)] []]], comm .sum [(.PER, 1)] [comm .prod [] []],
    ⟨List.Perm.refl _, List.Perm.refl _⟩, ⟨by decide, by decide⟩, by decide, ?_, ?_, by decide⟩
  · show ∀ x ∈ [Base.SE, .PER, .C], _
    decide
  · have : expandNamed .default ⟨baseKernsForProd .default, (baseKernsForProd .default).filter (· ≠ .C)⟩ [.remove_some_term]
        (comm .sum [(.SE, 1), (.PER, 1)] [comm .prod [] [comm .prod [(.C, 1)] []]]) =
        [comm .sum [(.PER, 1)] [comm .prod [] []], comm .sum [(.SE, 1)] [comm .prod [] []], comm .sum [(.SE, 1), (.PER, 1)] []] := by rfl
    rw [this]; exact List.mem_cons_self

/-- C25 is false with sigmoids: a simplified expression. -/
theorem C25_sigmoid_empties : ∃ (o : Orders) (k r : KE), o.OK .default ∧ k.isBase = false ∧ settled .default k = true ∧
    r ∈ expandNamed .default o [.remove_some_term] k ∧ noEmpty r = false := by
  refine ⟨⟨baseKernsForProd .default, (baseKernsForProd .default).filter (· ≠ .C)⟩,
    comm .prod [] [comm .prod [(.C, 1), (.S, 1)] []], comm .prod [] [],
    ⟨List.Perm.refl _, List.Perm.refl _⟩, by decide, by decide, ?_, by decide⟩
  have : expandNamed .default ⟨baseKernsForProd .default, (baseKernsForProd .default).filter (· ≠ .C)⟩ [.remove_some_term]
        (comm .prod [] [comm .prod [(.C, 1), (.S, 1)] []]) = [comm .sum [(.S, 1)] [], comm .prod [] []] := by rfl
  rw [this]; simp

/-! ## C66 -/

/-- C66: equal expressions simplify to equal expressions. -/
theorem C66_simplify (cfg : Cfg) (a b : KE) (ha : wf a = true) (hb : wf b = true) (h : keq a b = true) :
    keq (simplify cfg a) (simplify cfg b) = true :=
  (keq_iff _ _).2 (simplify_same cfg a b ha hb ((keq_iff _ _).1 h))

/-- C66: equal operands give equal sums. -/
theorem C66_add (cfg : Cfg) (a b a' b' : KE) (ha : wf a = true) (hb : wf b = true) (ha' : wf a' = true) (hb' : wf b' = true)
    (h : keq a a' = true) (h' : keq b b' = true) : ∀ x ∈ add cfg a b, ∃ y ∈ add cfg a' b', keq x y = true := by
  intro x hx
  obtain ⟨y, hy, e⟩ := add_same ha hb ha' hb' ((keq_iff _ _).1 h) ((keq_iff _ _).1 h') x hx
  exact ⟨y, hy, (keq_iff _ _).2 e⟩

/-- C66: equal operands give equal products. -/
theorem C66_multiply (cfg : Cfg) (a b a' b' : KE) (ha : wf a = true) (hb : wf b = true) (ha' : wf a' = true) (hb' : wf b' = true)
    (h : keq a a' = true) (h' : keq b b' = true) : ∀ x ∈ multiply cfg a b, ∃ y ∈ multiply cfg a' b', keq x y = true := by
  intro x hx
  obtain ⟨y, hy, e⟩ := multiply_same ha hb ha' hb' ((keq_iff _ _).1 h) ((keq_iff _ _).1 h') x hx
  exact ⟨y, hy, (keq_iff _ _).2 e⟩

example : let a := comm .sum [(.PER, 1), (.WN, 1)] [comm .prod [(.LIN, 1), (.PER, 1)] [], change .CP (base .C) (base .SE)]
    let b := comm .sum [(.WN, 1), (.PER, 1)] [change .CP (base .C) (base .SE), comm .prod [(.PER, 1), (.LIN, 1)] []]
    keq a b = true ∧ wf a = true ∧ wf b = true := by decide

/-! ## C67 -/

/-- C67: expanding equal expressions gives equal results. -/
theorem C67_expand (cfg : Cfg) (o : Orders) (ho : o.OK cfg) (rules : List RuleName) (k k' : KE) (hk : IsExpr k) (hk' : IsExpr k')
    (h : keq k k' = true) : ∀ r ∈ expandNamed cfg o rules k, ∃ r' ∈ expandNamed cfg o rules k', keq r r' = true := by
  intro r hr
  have hsame := (keq_iff _ _).1 h
  have hgood := C20_builtin_rules cfg o ho rules
  obtain ⟨p, S, hp, rule, hrule, new, hnew, rfl⟩ := mem_expand hr
  obtain ⟨C, x, rfl, h2, h3, hO⟩ := traverse_occ hp
  obtain ⟨C', x', rfl, hC, hx⟩ : ∃ C' x', k' = Ctx.plug C' x' ∧ CtxSim C C' ∧ Same x x' := by
    apply occ_same; rw [← hO.eq]; exact hsame
  obtain ⟨p', hp', _, hO'⟩ := occ_traverse (cfg := cfg) C' hk'.1 hk'.2
  obtain ⟨n, hn, rfl⟩ := List.mem_map.1 hrule
  have wS := (traverse_node hk.1 hp).1
  have wS' := (traverse_node hk'.1 hp').1
  obtain ⟨new', hnew', e'⟩ := rule_respects cfg o n _ _ wS wS' (nodeOf_same hx) new hnew
  obtain ⟨new2, hs2, ⟨rule2, hr2, hn2⟩, r', hre, hr'⟩ := expand_mem hp' hrule hnew'
  have w1 := hgood _ hrule _ wS (traverse_not_base hp) new hnew
  have w2 := hgood _ hr2 _ wS' (traverse_not_base hp') new2 hn2
  refine ⟨r', hre, (keq_iff _ _).2 (Same.trans ?_ hr'.symm)⟩
  refine standardise_same (repl_wf (repl_of_traverse hp) hk.1 w1.1 w1.2).1 (repl_wf (repl_of_traverse hp') hk'.1 w2.1 w2.2).1 ?_
  have hnn : Same new new2 := e'.trans hs2.symm
  cases hc : (C.endsLeft && x.isBase) with
  | false =>
    have hc' : (C'.endsLeft && x'.isBase) = false := by rw [← hC.endsLeft, ← isBase_same hx, hc]
    exact (hO.repl hc new).trans ((hC.plug hnn).trans (hO'.repl hc' new2).symm)
  | true =>
    have hc' : (C'.endsLeft && x'.isBase) = true := by rw [← hC.endsLeft, ← isBase_same hx, hc]
    obtain ⟨D, c, y, e, h4⟩ := hO.slip hc
    obtain ⟨D', c', y', e', h4'⟩ := hO'.slip hc'
    subst e
    obtain ⟨D2, y2, e2, hD⟩ := CtxSim.split hC
    rw [e'] at e2
    obtain ⟨rfl, rfl⟩ := comp_left_inj e2
    rw [h4, h4']
    exact hD.plug (.change hx hnn)

example : let k := comm .sum [] [comm .prod [(.LIN, 1), (.PER, 1)] [], change .CP (base .C) (base .PER)]
    let k' := comm .sum [] [change .CP (base .C) (base .PER), comm .prod [(.PER, 1), (.LIN, 1)] []]
    keq k k' = true ∧ IsExpr k ∧ IsExpr k' := by
  refine ⟨by decide, ⟨by decide, rfl⟩, ⟨by decide, rfl⟩⟩

end GPyABCD
