import Verif.Lemmas.Settled
import Verif.Lemmas.RealSem

/-!
# Kernel-expression operators (C13-C18)

`den (realI cfg posV) k` is the set of covariance functions of `k` with the real kernel formulas and positive
variances. `operand k`: well formed, no empty sum or product, no product of constants inside a product; all
simplified expressions without empty nodes are operands (C25). `Reading cfg bs I`: LIN as it is, unless it meets C among `bs` while it absorbs
constants, or LIN standing for LIN plus a constant, wherever it is.
-/

namespace GPyABCD
open scoped Pointwise
open KE Kern

/-! ## C13, C14 -/

/-- C13, structure: the first result of `add` is the simplification of a sum holding exactly the terms of the
operands (an operand that is not a sum being one term). -/
theorem C13_add_terms (cfg : Cfg) (k1 k2 : KE) (h1 : wf k1 = true) (h2 : wf k2 = true) :
    ∃ R rest, add cfg k1 k2 = simplify cfg R :: rest ∧ Joins .sum k1 k2 R := by
  obtain ⟨R, e, h⟩ := addRes_raw cfg k1 k2 h1 h2
  exact ⟨R, _, by rw [add, e], h.joins⟩

/-- C13 (partial: where LIN meets C, only with LIN standing for LIN plus a constant, see `C13_lin_c_differs`): the first
result of `add` represents exactly the sums of a covariance of each operand. -/
theorem C13_add_sum_partial (cfg : Cfg) (k1 k2 : KE) (h1 : operand k1 = true) (h2 : operand k2 = true)
    (I : Interp) (hl : Reading cfg (bases k1 ++ bases k2) I) :
    ∃ r rest, add cfg k1 k2 = r :: rest ∧
      den I r = {f | ∃ f1 ∈ den I k1, ∃ f2 ∈ den I k2, f = fun x y => f1 x y + f2 x y} := by
  obtain ⟨R, e, h⟩ := addRes_raw cfg k1 k2 (operand_iff.1 h1).1 (operand_iff.1 h2).1
  refine ⟨_, _, rfl, ?_⟩
  rw [e, den_rawJoin_simplify hl.laws cfg h h1 h2 hl.safe]
  simp only [opFold, List.sum_cons, List.sum_nil, add_zero]
  ext f
  simp only [Set.mem_add, Set.mem_ofPred_eq]
  constructor
  · rintro ⟨f1, hf1, f2, hf2, rfl⟩; exact ⟨f1, hf1, f2, hf2, rfl⟩
  · rintro ⟨f1, hf1, f2, hf2, rfl⟩; exact ⟨f1, hf1, f2, hf2, rfl⟩

/-- C13, the exception: with the offset flag on, adding C to LIN loses the sum `x*y + 1`. -/
theorem C13_lin_c_differs : ∃ r, add .default (base .LIN) (base .C) = [r] ∧
    ∃ f1 ∈ den (realI .default posV) (base .LIN), ∃ f2 ∈ den (realI .default posV) (base .C),
      (fun x y => f1 x y + f2 x y) ∉ den (realI .default posV) r := by
  refine ⟨comm .sum [(.LIN, 1)] [], by rfl, linearOffset 1 0, ⟨1, mem_posV.2 one_pos, 0, fun _ => rfl, rfl⟩, bias 1,
      ⟨1, mem_posV.2 one_pos, rfl⟩, ?_⟩
  simp only [den, denL, opFold, Counter.elements, List.flatMap_cons, List.flatMap_nil, Int.toNat_one,
      List.replicate_one, List.append_nil, List.map_cons, List.map_nil, List.sum_cons, List.sum_nil, add_zero]
  rintro ⟨v, _, o, _, h⟩
  have h00 := congrFun (congrFun h 0) 0
  have h11 := congrFun (congrFun h 1) (-1)
  have h01 := congrFun (congrFun h 0) 1
  simp only [linearOffset, bias] at h00 h11 h01
  have hv : v = 1 := by nlinarith
  subst hv
  nlinarith

/-- C14, structure: the first result of `multiply` is the simplification of a product holding exactly the
factors of the operands. -/
theorem C14_multiply_terms (cfg : Cfg) (k1 k2 : KE) (h1 : wf k1 = true) (h2 : wf k2 = true) :
    ∃ R rest, multiply cfg k1 k2 = simplify cfg R :: rest ∧ Joins .prod k1 k2 R := by
  obtain ⟨R, e, h⟩ := mulRes_raw cfg k1 k2 h1 h2
  exact ⟨R, _, by rw [multiply, e], h.joins⟩

/-- C14 (partial: where LIN meets C inside the operands, only with LIN standing for LIN plus a constant, C02): the
first result of `multiply` represents exactly the products of a covariance of each operand. -/
theorem C14_multiply_product_partial (cfg : Cfg) (k1 k2 : KE) (h1 : operand k1 = true) (h2 : operand k2 = true)
    (I : Interp) (hl : Reading cfg (bases k1 ++ bases k2) I) :
    ∃ r rest, multiply cfg k1 k2 = r :: rest ∧
      den I r = {f | ∃ f1 ∈ den I k1, ∃ f2 ∈ den I k2, f = fun x y => f1 x y * f2 x y} := by
  obtain ⟨R, e, h⟩ := mulRes_raw cfg k1 k2 (operand_iff.1 h1).1 (operand_iff.1 h2).1
  refine ⟨_, _, rfl, ?_⟩
  rw [e, den_rawJoin_simplify hl.laws cfg h h1 h2 hl.safe]
  simp only [opFold, List.prod_cons, List.prod_nil, mul_one]
  ext f
  simp only [Set.mem_mul, Set.mem_ofPred_eq]
  constructor
  · rintro ⟨f1, hf1, f2, hf2, rfl⟩; exact ⟨f1, hf1, f2, hf2, rfl⟩
  · rintro ⟨f1, hf1, f2, hf2, rfl⟩; exact ⟨f1, hf1, f2, hf2, rfl⟩

-- LIN may meet C where it stands for LIN plus a constant
example : operand (comm .sum [(.LIN, 1), (.PER, 1)] []) = true ∧ operand (comm .prod [(.C, 1)] [comm .sum [(.LIN, 1), (.C, 1)] []]) = true ∧
    Reading .default (bases (comm .sum [(.LIN, 1), (.PER, 1)] []) ++ bases (comm .prod [(.C, 1)] [comm .sum [(.LIN, 1), (.C, 1)] []])) (roomyI .default posV) :=
  ⟨by decide, by decide, Or.inl rfl⟩
-- a sum holding a product and a change operator, and a product holding a sum
example :
    let k1 := comm .sum [(.WN, 1), (.C, 2)] [comm .prod [(.SE, 1), (.PER, 1)] [], change .CP (base .PER) (base .C)]
    let k2 := comm .prod [(.PER, 1), (.C, 1)] [comm .sum [(.WN, 1), (.SE, 1)] []]
    operand k1 = true ∧ operand k2 = true ∧ LinCOK .default (bases k1 ++ bases k2) ∧
      keq (addRes .default k1 k2) (comm .sum [(.WN, 1), (.C, 1)] [comm .prod [(.SE, 1), (.PER, 1)] [],
        change .CP (base .PER) (base .C), comm .prod [(.PER, 1)] [comm .sum [(.WN, 1), (.SE, 1)] []]]) = true := by
  refine ⟨by decide, by decide, Or.inr (Or.inr (by decide)), by decide⟩

/-! ## C15 -/

/-- C15 (partial: where LIN meets C, only with LIN standing for LIN plus a constant): adding a base kernel to a product gives, after the sum, one
product per base-term occurrence, in which exactly that factor `F bt` becomes `F a + F bt`, the rest `X` of the
product staying. -/
theorem C15_add_nested_partial (cfg : Cfg) (a : Base) (b : Counter) (c : List KE) (h : operand (comm .prod b c) = true)
    (I : Interp) (hl : Reading cfg (a :: bases (comm .prod b c)) I) :
    ∃ r rest, add cfg (comm .prod b c) (base a) = r :: rest ∧ List.Forall₂ (fun bt r' =>
      ∃ X, den I (comm .prod b c) = I.F bt * X ∧
        den I r' = (I.F a + I.F bt) * X) b.elements rest := by
  refine ⟨_, _, rfl, ?_⟩
  simp only [addNested, addNestedAt]
  rw [List.forall₂_map_right_iff, List.forall₂_same]
  intro bt hbt
  obtain ⟨X, e1, e2⟩ := nested_den hl.laws (cfg := cfg) (o' := .sum) h (by simp) hbt hl.safe
  simp only [opFold, List.sum_cons, List.sum_nil, List.prod_cons, List.prod_nil, add_zero, mul_one] at e1 e2
  exact ⟨X, e1, e2⟩

/-- C15 (partial: where LIN meets C, only with LIN standing for LIN plus a constant): multiplying a base kernel with a sum gives, after the product, one
sum per base-term occurrence, in which exactly that addend `F bt` becomes `F a * F bt`, the rest staying. -/
theorem C15_multiply_nested_partial (cfg : Cfg) (a : Base) (b : Counter) (c : List KE) (h : operand (comm .sum b c) = true)
    (I : Interp) (hl : Reading cfg (a :: bases (comm .sum b c)) I) :
    ∃ r rest, multiply cfg (comm .sum b c) (base a) = r :: rest ∧ List.Forall₂ (fun bt r' =>
      ∃ X, den I (comm .sum b c) = I.F bt + X ∧
        den I r' = (I.F a * I.F bt) + X) b.elements rest := by
  refine ⟨_, _, rfl, ?_⟩
  simp only [mulNested, mulNestedAt]
  rw [List.forall₂_map_right_iff, List.forall₂_same]
  intro bt hbt
  obtain ⟨X, e1, e2⟩ := nested_den hl.laws (cfg := cfg) (o' := .prod) h (by simp) hbt hl.safe
  simp only [opFold, List.sum_cons, List.sum_nil, List.prod_cons, List.prod_nil, add_zero, mul_one] at e1 e2
  exact ⟨X, e1, e2⟩

/-- C15, structure: the nested results replace one occurrence of a base term by the two-term node, keeping every
other term. -/
theorem C15_nested_terms (cfg : Cfg) (a : Base) (b : Counter) (c : List KE) (hb : b.WF) (pb : b.Pos) :
    List.Forall₂ (fun bt r => ∃ b', (bt :: b'.elements).Perm b.elements ∧
      r = simplify cfg (comm .prod b' (c ++ [simplify cfg (comm .sum (Counter.ofList [a, bt]) [])])))
      b.elements (addNested cfg (comm .prod b c) (base a)) ∧
    List.Forall₂ (fun bt r => ∃ b', (bt :: b'.elements).Perm b.elements ∧
      r = simplify cfg (comm .sum b' (c ++ [simplify cfg (comm .prod (Counter.ofList [a, bt]) [])])))
      b.elements (mulNested cfg (comm .sum b c) (base a)) := by
  simp only [addNested, addNestedAt, mulNested, mulNestedAt]
  rw [List.forall₂_map_right_iff, List.forall₂_same, List.forall₂_map_right_iff, List.forall₂_same]
  have h : ∀ bt ∈ b.elements, (bt :: (b.pos.sub (Counter.ofList [bt])).elements).Perm b.elements := by
    intro bt hbt; rw [Counter.pos_eq_self pb]; exact Counter.elements_sub_one hb pb hbt
  exact ⟨fun bt hbt => ⟨_, h bt hbt, rfl⟩, fun bt hbt => ⟨_, h bt hbt, rfl⟩⟩

example :
    let b : Counter := [(.PER, 2), (.WN, 1)]
    b.WF ∧ operand (comm .sum b []) = true ∧ LinCOK .default (.SE :: bases (comm .sum b [])) ∧
      (multiply .default (comm .sum b []) (base .SE)).length = 4 := by
  refine ⟨by decide, by decide, Or.inr (Or.inl (by decide)), by decide⟩

/-! ## C16 -/

/-- C16: swapping the operands gives equal results, position by position. -/
theorem C16_add_comm (cfg : Cfg) (k1 k2 : KE) (h1 : wf k1 = true) (h2 : wf k2 = true) :
    List.Forall₂ (fun a b => keq a b = true) (add cfg k1 k2) (add cfg k2 k1) := by
  obtain ⟨R, e, h⟩ := addRes_raw cfg k1 k2 h1 h2
  obtain ⟨R', e', h'⟩ := addRes_raw cfg k2 k1 h2 h1
  have hn : addNested cfg k1 k2 = addNested cfg k2 k1 := by
    cases k1 with
    | base a => cases k2 with
      | base b => rfl
      | comm o b c => cases o <;> rfl
      | change x l r => rfl
    | comm o b c => cases k2 with
      | base b => cases o <;> rfl
      | comm o' b c => cases o <;> cases o' <;> rfl
      | change x l r => cases o <;> rfl
    | change x l r => cases k2 with
      | base b => rfl
      | comm o b c => cases o <;> rfl
      | change x l r => rfl
  rw [add, add, e, e', hn]
  refine List.Forall₂.cons ?_ (List.forall₂_same.2 fun _ _ => keq_refl _)
  exact (keq_iff _ _).2 (simplify_same cfg R R' h.wf h'.wf (els_parts_same_of_joins h h'))

/-- C16: the same for `multiply`. -/
theorem C16_multiply_comm (cfg : Cfg) (k1 k2 : KE) (h1 : wf k1 = true) (h2 : wf k2 = true) :
    List.Forall₂ (fun a b => keq a b = true) (multiply cfg k1 k2) (multiply cfg k2 k1) := by
  obtain ⟨R, e, h⟩ := mulRes_raw cfg k1 k2 h1 h2
  obtain ⟨R', e', h'⟩ := mulRes_raw cfg k2 k1 h2 h1
  have hn : mulNested cfg k1 k2 = mulNested cfg k2 k1 := by
    cases k1 with
    | base a => cases k2 with
      | base b => rfl
      | comm o b c => cases o <;> rfl
      | change x l r => rfl
    | comm o b c => cases k2 with
      | base b => cases o <;> rfl
      | comm o' b c => cases o <;> cases o' <;> rfl
      | change x l r => cases o <;> rfl
    | change x l r => cases k2 with
      | base b => rfl
      | comm o b c => cases o <;> rfl
      | change x l r => rfl
  rw [multiply, multiply, e, e', hn]
  refine List.Forall₂.cons ?_ (List.forall₂_same.2 fun _ _ => keq_refl _)
  exact (keq_iff _ _).2 (simplify_same cfg R R' h.wf h'.wf (els_parts_same_of_joins h h'))

example : (add .default (comm .prod [(.LIN, 1), (.PER, 1)] []) (base .C)).length = 3 ∧
    wf (comm .prod [(.LIN, 1), (.PER, 1)] []) = true := by decide

/-! ## C17 -/

/-- C17 (partial: the full statement has no `bt ≠ B`, see `C17_swap_same_adds`): `swap_base` on a sum or product
gives one result per distinct base kernel present, in which one occurrence of it is replaced by `B`. -/
theorem C17_swap_base_partial (cfg : Cfg) (op : Op) (b : Counter) (c : List KE) (B : Base) (hb : b.WF) (pb : b.Pos) :
    ∃ bts : List Base, bts.Nodup ∧ (∀ x, x ∈ bts ↔ x ∈ b.elements) ∧
      List.Forall₂ (fun bt r => bt ≠ B → ∃ b', r = simplify cfg (comm op b' c) ∧
        (bt :: b'.elements).Perm (B :: b.elements)) bts (swapBase cfg (comm op b c) B) := by
  refine ⟨b.map Prod.fst, hb, ?_, ?_⟩
  · intro x
    rw [Counter.mem_elements hb, ← Counter.Pos.has_iff_get hb pb, Counter.has_iff]
    simp
  · simp only [swapBase, Counter.pos_eq_self pb]
    rw [List.forall₂_map_left_iff, List.forall₂_map_right_iff, List.forall₂_same]
    intro p hp hne
    refine ⟨_, rfl, ?_⟩
    have hg := Counter.get_of_mem hb hp
    have hp0 := pb p hp
    have hws : (swapDict p.1 B).WF := Counter.wf_put (by simp [Counter.WF]) _ _
    have hgs : ∀ x, (swapDict p.1 B).get x = if B = x then 1 else if p.1 = x then -1 else 0 := by
      intro x; rw [swapDict, Counter.get_put]; simp [Counter.get]
    rw [List.perm_iff_count]; intro x
    rw [List.count_cons, List.count_cons, Counter.count_elements (Counter.wf_add hb hws), Counter.count_elements hb,
      Counter.get_add hb hws, hgs]
    have hx := pb.nonneg x
    by_cases h1 : B = x
    · subst h1
      simp [hne]; omega
    · by_cases h2 : p.1 = x
      · subst h2; simp [h1]; omega
      · simp [h1, h2]; omega

open Classical in
/-- C17, on a change operator: a base-kernel branch different from `B` is replaced by `B`, one result each; on a
bare base kernel the result is `B`. -/
theorem C17_swap_change (cfg : Cfg) (x : CC) (l r : KE) (B : Base) :
    swapBase cfg (change x l r) B =
      (if (∃ a, l = base a ∧ a ≠ B) then [simplify cfg (change x (base B) r)] else []) ++
      (if (∃ a, r = base a ∧ a ≠ B) then [simplify cfg (change x l (base B))] else []) ∧
    ∀ a, swapBase cfg (base a) B = [base B] := by
  refine ⟨?_, fun _ => rfl⟩
  have key : ∀ k : KE, (k.isBase && !keq k (base B)) = true ↔ ∃ a, k = base a ∧ a ≠ B := by
    intro k; cases k with
    | base a => simp [isBase, keq]
    | comm _ _ _ => simp [isBase]
    | change _ _ _ => simp [isBase]
  simp only [swapBase, key, mkChange]

/-- C17, the exception: replacing a base kernel by itself adds another copy instead of leaving the expression
alone. -/
theorem C17_swap_same_adds : ∃ r ∈ swapBase .default (comm .sum [(.PER, 1), (.WN, 1)] []) .PER,
    keq r (comm .sum [(.PER, 2), (.WN, 1)] []) = true :=
  ⟨comm .sum [(.PER, 2), (.WN, 1)] [], by
    have e : swapBase .default (comm .sum [(.PER, 1), (.WN, 1)] []) .PER =
      [comm .sum [(.PER, 2), (.WN, 1)] [], comm .sum [(.PER, 2)] []] := by rfl
    rw [e]; simp, by decide⟩

/-- C17: `remove_a_term` on a sum or product of more than one term gives one result per distinct base kernel and
then one per composite term, with exactly that term (one occurrence) removed; on one term, nothing. -/
theorem C17_remove_a_term (cfg : Cfg) (op : Op) (b : Counter) (c : List KE) (hb : b.WF) (pb : b.Pos) :
    (b.elements.length + c.length ≤ 1 → removeATerm cfg (comm op b c) = []) ∧
    (1 < b.elements.length + c.length → ∃ (bts : List Base) (rs1 rs2 : List KE),
      removeATerm cfg (comm op b c) = rs1 ++ rs2 ∧ bts.Nodup ∧ (∀ x, x ∈ bts ↔ x ∈ b.elements) ∧
      List.Forall₂ (fun bt r => ∃ b', r = simplify cfg (comm op b' c) ∧ (bt :: b'.elements).Perm b.elements) bts rs1 ∧
      List.Forall₂ (fun i r => r = simplify cfg (comm op b (c.eraseIdx i))) (List.range c.length) rs2) := by
  have hlen := Counter.length_elements pb
  constructor
  · intro h
    have : ¬ termCount b c > 1 := by unfold termCount; omega
    simp only [removeATerm, this, if_false]
  · intro h
    have ht : termCount b c > 1 := by unfold termCount; omega
    refine ⟨b.map Prod.fst, _, _, by simp only [removeATerm, ht, if_true]; rfl, hb, ?_, ?_, ?_⟩
    · intro x
      rw [Counter.mem_elements hb, ← Counter.Pos.has_iff_get hb pb, Counter.has_iff]
      simp
    · rw [Counter.pos_eq_self pb, List.forall₂_map_left_iff, List.forall₂_map_right_iff, List.forall₂_same]
      intro p hp
      refine ⟨_, rfl, ?_⟩
      have hg := Counter.get_of_mem hb hp
      have hp0 := pb p hp
      have hws : Counter.WF [(p.1, (-1 : Int))] := by simp [Counter.WF]
      rw [List.perm_iff_count]; intro x
      rw [List.count_cons, Counter.count_elements (Counter.wf_add hb hws), Counter.count_elements hb,
        Counter.get_add hb hws]
      have hx := pb.nonneg x
      simp only [Counter.get]
      by_cases h2 : p.1 = x
      · subst h2; simp; omega
      · simp [h2]; omega
    · rw [Counter.pos_eq_self pb, List.forall₂_map_right_iff, List.forall₂_same]
      intro i hi
      rw [mkC, List.eraseIdx_eq_take_drop_succ]

/-- C17: on a change operator the results stand for its two branches. -/
theorem C17_remove_change (cfg : Cfg) (x : CC) (l r : KE) :
    ∃ l' r', removeATerm cfg (change x l r) = [l', r'] ∧
      den (realI cfg posV) l' = den (realI cfg posV) l ∧ den (realI cfg posV) r' = den (realI cfg posV) r := by
  refine ⟨_, _, rfl, ?_, ?_⟩
  · cases l with
    | base a =>
      rw [branchNode, den_mkL_names (realLaws varSet_pos) cfg .sum (by simp) (by cases a <;> simp [LinSafe])]
      simp [opFold, den]
    | comm _ _ _ => rfl
    | change _ _ _ => rfl
  · cases r with
    | base a =>
      rw [branchNode, den_mkL_names (realLaws varSet_pos) cfg .sum (by simp) (by cases a <;> simp [LinSafe])]
      simp [opFold, den]
    | comm _ _ _ => rfl
    | change _ _ _ => rfl

example :
    let k := comm .prod [(.LIN, 2), (.PER, 1)] [comm .sum [(.WN, 1), (.SE, 1)] []]
    Counter.WF [(Base.LIN, (2 : Int)), (.PER, 1)] ∧ (removeATerm .default k).length = 3 ∧
      (swapBase .default k .WN).length = 2 ∧ removeATerm .default (comm .sum [(.LIN, 1)] []) = [] := by
  refine ⟨by decide, by decide, by decide, by rfl⟩

/-! ## C18 -/

/-- C18 (partial: where LIN meets C, only with LIN standing for LIN plus a constant): with a second operand different from `S`, `both_changes` returns CP
and then CW of `(S, S2)` and `(S2, S)`. -/
theorem C18_both_changes_partial (cfg : Cfg) (S k : KE) (h1 : operand S = true) (h2 : operand k = true)
    (I : Interp) (hl : Reading cfg (bases S ++ bases k) I) (hne : ¬ Same k S) :
    let D := den I
    (bothChanges cfg S (some k)).map D =
      [chgFam cfg .CP (D S) (D k), chgFam cfg .CP (D k) (D S), chgFam cfg .CW (D S) (D k), chgFam cfg .CW (D k) (D S)] ∧
    ∀ x, (oneChange cfg S x (some k)).map D = [chgFam cfg x (D S) (D k), chgFam cfg x (D k) (D S)] := by
  have hk : keq k S = false := by rw [← Bool.not_eq_true, keq_iff]; exact hne
  have key : ∀ x, den I (mkChange cfg x S k) = chgFam cfg x (den I S) (den I k) ∧
      den I (mkChange cfg x k S) = chgFam cfg x (den I k) (den I S) := by
    intro x
    constructor
    · rw [mkChange, den_simplify_operand hl.laws cfg (operand_change.2 ⟨h1, h2⟩) (by simpa [bases] using hl.safe)]
      simp only [den, hl.chg]
    · rw [mkChange, den_simplify_operand hl.laws cfg (operand_change.2 ⟨h2, h1⟩)
        (by simpa [bases] using (LinSafe.perm List.perm_append_comm).1 hl.safe)]
      simp only [den, hl.chg]
  simp only [bothChanges, oneChange, hk, List.flatMap_cons, List.flatMap_nil, Bool.false_eq_true, if_false,
    List.append_nil, List.cons_append, List.nil_append, List.map_cons, List.map_nil, key, and_self, forall_const]

/-- C18 (partial: where LIN meets C, only with LIN standing for LIN plus a constant): without a second operand, or with one equal to `S`, there is one
result per operator, with `S` on both sides. -/
theorem C18_same_changes_partial (cfg : Cfg) (S : KE) (S2 : Option KE) (h1 : operand S = true) (I : Interp) (hl : Reading cfg (bases S) I)
    (h : ∀ k, S2 = some k → Same k S) :
    let D := den I
    (bothChanges cfg S S2).map D = [chgFam cfg .CP (D S) (D S), chgFam cfg .CW (D S) (D S)] ∧
    ∀ x, (oneChange cfg S x S2).map D = [chgFam cfg x (D S) (D S)] := by
  have key : ∀ x, den I (mkChange cfg x S S) = chgFam cfg x (den I S) (den I S) := by
    intro x
    rw [mkChange, den_simplify_operand hl.laws cfg (operand_change.2 ⟨h1, h1⟩)
      (hl.safe.sub (by simp [bases]))]
    simp only [den, hl.chg]
  cases S2 with
  | none =>
    simp only [bothChanges, oneChange, List.flatMap_cons, List.flatMap_nil,
      List.append_nil, List.cons_append, List.nil_append, List.map_cons, List.map_nil, key, forall_const, and_self]
  | some k =>
    have hk : keq k S = true := (keq_iff k S).2 (h k rfl)
    simp only [bothChanges, oneChange, hk, List.flatMap_cons, List.flatMap_nil, if_true,
      List.append_nil, List.cons_append, List.nil_append, List.map_cons, List.map_nil, key, forall_const, and_self]

example :
    let S := comm .sum [(.PER, 1), (.C, 1)] []
    operand S = true ∧ ¬ Same (base .WN) S ∧ LinCOK .default (bases S ++ [.WN]) ∧
      keq (mkChange .default .CP S (base .WN)) (change .CP S (base .WN)) = true := by
  refine ⟨by decide, ?_, Or.inr (Or.inr (by decide)), by decide⟩
  rw [← keq_iff]; decide

end GPyABCD
