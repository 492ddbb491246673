import Verif.Spec.Moves
import Verif.Lemmas.SemSame
import Verif.Lemmas.ExpandSame
import Verif.Lemmas.RealSem
import Verif.Lemmas.Curves
import Verif.Props.Ops

/-!
# Every result of a built-in rule is one of the moves
-/

namespace GPyABCD
open scoped Pointwise
open KE Kern

theorem searched_iff {cfg : Cfg} {B : Base} : Searched cfg B ↔ B ∈ baseKernsForProd cfg := by
  unfold Searched baseKernsForProd
  cases h : cfg.includeSE <;> cases B <;> simp [baseKerns]

/-- `new` stands for `e`: no new base kernels, the same covariances in every reading. -/
structure Stands (cfg : Cfg) (new e : KE) : Prop where
  bases : ∀ y ∈ KE.bases new, y ∈ KE.bases e
  den : ∀ {I : Interp}, Reading cfg (KE.bases e) I → KE.den I new = KE.den I e

theorem stands_simplify {cfg : Cfg} {R e : KE} (ho : operand R = true) (hb : ∀ y ∈ bases R, y ∈ bases e)
    (hd : ∀ {I : Interp}, Reading cfg (bases e) I → den I R = den I e) : Stands cfg (simplify cfg R) e :=
  ⟨fun y hy => hb y ((bases_simplify cfg R (operand_iff.1 ho).1).subset hy),
    fun hl => (den_simplify_operand hl.laws cfg ho (hl.sub hb).safe).trans (hd hl)⟩

theorem den_comm_perm {I : Interp} {o : Op} {b b' : Counter} {c : List KE} (h : b.elements.Perm b'.elements) :
    den I (comm o b c) = den I (comm o b' c) := by
  simp only [den]
  exact opFold_perm o ((h.map _).append_right _)

theorem bases_comm_perm {o o' : Op} {b b' : Counter} {c : List KE} (h : b.elements ⊆ b'.elements) :
    ∀ y ∈ bases (comm o b c), y ∈ bases (comm o' b' c) := by
  intro y hy
  rcases bases_mem_comm.1 hy with h1 | h1
  · exact bases_mem_comm.2 (Or.inl (h h1))
  · exact bases_mem_comm.2 (Or.inr h1)

/-- Sums and products with a new operand. -/
theorem stands_join {cfg : Cfg} {o : Op} {S k R : KE} {e : KE} (h : RawJoin o S k R) (h1 : operand S = true) (h2 : operand k = true)
    (hb : ∀ y, y ∈ bases S ∨ y ∈ bases k → y ∈ bases e)
    (hd : ∀ {I : Interp}, Reading cfg (bases e) I → opFold o [den I S, den I k] = den I e) :
    Stands cfg (simplify cfg R) e := by
  refine ⟨fun y hy => hb y (List.mem_append.1 ((bases_joins h.joins).subset ((bases_simplify cfg R h.wf).subset hy))), fun hl => ?_⟩
  rw [den_rawJoin_simplify hl.laws cfg h h1 h2 (hl.sub (fun y hy => hb y (List.mem_append.1 hy))).safe]
  exact hd hl

/-- One base kernel and a new one become a node of the other kind. -/
theorem stands_nested {cfg : Cfg} {o o' : Op} {B bt : Base} {b : Counter} {c : List KE} (h : operand (comm o b c) = true) (ho : o' ≠ o)
    (hbt : bt ∈ b.elements) : (bt :: (b.pos.sub (Counter.ofList [bt])).elements).Perm b.elements ∧
      Stands cfg (mkC cfg o (b.pos.sub (Counter.ofList [bt])) (c ++ [mkL cfg o' [B, bt] []]))
        (comm o (b.pos.sub (Counter.ofList [bt])) (c ++ [comm o' (Counter.ofList [B, bt]) []])) := by
  obtain ⟨hw, hp, _, hc⟩ := operand_comm.1 h
  have hin : ∀ y, y ∈ [B, bt] → y ∈ bases (comm o (b.pos.sub (Counter.ofList [bt])) (c ++ [comm o' (Counter.ofList [B, bt]) []])) := fun y hy =>
    bases_mem_comm.2 (Or.inr ⟨_, List.mem_append_right _ (List.mem_singleton.2 rfl),
      by simpa only [bases, basesL, List.append_nil] using (Counter.elements_ofList [B, bt]).symm.subset hy⟩)
  refine ⟨by rw [Counter.pos_eq_self hp]; exact Counter.elements_sub_one hw hp hbt, stands_simplify (nested_operand h ho) ?_ ?_⟩
  · intro y hy
    rcases bases_mem_comm.1 hy with hy | ⟨k, hk, hy⟩
    · exact bases_mem_comm.2 (Or.inl hy)
    · rcases List.mem_append.1 hk with hk | hk
      · exact bases_mem_comm.2 (Or.inr ⟨k, List.mem_append_left _ hk, hy⟩)
      · simp only [List.mem_singleton] at hk; subst hk
        exact hin y (bases_mkL_names hy)
  · intro _ hl
    rw [den_snoc, den_snoc, den_mkL_names hl.laws cfg o' (by simp) (hl.sub hin).safe]
    congr 2
    simp only [den, denL, List.append_nil, List.cons.injEq, and_true]
    exact opFold_perm o' ((Counter.elements_ofList [B, bt]).symm.map _)

theorem elements_one (B : Base) : Counter.elements [(B, 1)] = [B] := rfl

theorem stands_change {cfg : Cfg} {x : CC} {l r : KE} (hl : operand l = true) (hr : operand r = true) :
    Stands cfg (mkChange cfg x l r) (change x l r) :=
  stands_simplify (operand_change.2 ⟨hl, hr⟩) (fun _ h => h) (fun _ => rfl)

theorem stands_oneChange {cfg : Cfg} {x : CC} {S : KE} {B : Base} {new : KE} (hS : operand S = true) (hb : S.isBase = false)
    (h : new ∈ oneChange cfg S x (some (base B))) :
    ∃ e, (e = change x S (base B) ∨ e = change x (base B) S) ∧ Stands cfg new e := by
  have hne : keq (base B) S = false := by cases S <;> first | rfl | simp [isBase] at hb
  simp only [oneChange, hne, Bool.false_eq_true, if_false, List.mem_cons, List.not_mem_nil, or_false] at h
  rcases h with rfl | rfl
  · exact ⟨_, Or.inl rfl, stands_change hS rfl⟩
  · exact ⟨_, Or.inr rfl, stands_change rfl hS⟩

theorem stands_branch (cfg : Cfg) (k : KE) : Stands cfg (branchNode cfg k) k := by
  cases k with
  | base a =>
    rw [branchNode, mkL_one]
    exact ⟨by simp [bases, basesL, Counter.elements], fun _ => by simp [den, denL, opFold, Counter.elements]⟩
  | comm _ _ _ => exact ⟨fun _ h => h, fun _ => rfl⟩
  | change _ _ _ => exact ⟨fun _ h => h, fun _ => rfl⟩

theorem Stands.congr {cfg : Cfg} {new e e' : KE} (h : Stands cfg new e) (hb : ∀ y, y ∈ KE.bases e ↔ y ∈ KE.bases e')
    (hd : ∀ {I : Interp}, KE.den I e = KE.den I e') : Stands cfg new e' :=
  ⟨fun y hy => (hb y).1 (h.bases y hy), fun hl => (h.den (hl.sub (fun y hy => (hb y).1 hy))).trans hd⟩

theorem Stands.perm {cfg : Cfg} {new : KE} {o : Op} {b b' : Counter} {c : List KE} (h : Stands cfg new (comm o b c))
    (hb : b.elements.Perm b'.elements) : Stands cfg new (comm o b' c) :=
  h.congr (fun y => ⟨bases_comm_perm hb.subset y, bases_comm_perm hb.symm.subset y⟩) (den_comm_perm hb)

theorem filter_noSE {b : Counter} (wb : b.WF) (pb : b.Pos) (h : b.has .SE = false) : b.elements.filter (· ≠ .SE) = b.elements := by
  rw [List.filter_eq_self.2]
  intro x hx
  simp only [ne_eq, decide_eq_true_eq]
  rintro rfl
  rw [Counter.mem_elements wb, ← Counter.Pos.has_iff_get wb pb, h] at hx
  simp at hx

/-- Adding a quadratic or cubic to a sum and taking its SE away. -/
theorem stands_curveSum {cfg : Cfg} {b b' : Counter} {c : List KE} (hs : settled cfg (comm .sum b c) = true) (hS : curvesOK (comm .sum b c) = true) {n : Int}
    (hn : n = 2 ∨ n = 3) (hb : b'.elements.Perm (b.elements.filter (· ≠ .SE))) :
    Stands cfg (if b.has .SE then delSE (mkC cfg .sum b (c ++ [comm .prod [(.LIN, n)] []])) else mkC cfg .sum b (c ++ [comm .prod [(.LIN, n)] []]))
      (comm .sum b' (c ++ [comm .prod [(.LIN, n)] []])) := by
  obtain ⟨wb, pb, _, hch⟩ := operand_comm.1 (operand_of_settled hs)
  cases hx : b.has .SE with
  | false =>
    rw [if_neg (by simp)]
    refine Stands.perm (stands_simplify (operand_comm.2 ⟨wb, pb, Or.inr (by simp), ?_⟩) (fun _ h => h) (fun _ => rfl)) ?_
    · intro k hk
      rcases List.mem_append.1 hk with hk | hk
      · exact hch k hk
      · simp only [List.mem_singleton] at hk; subst hk
        exact ⟨rfl, by rcases hn with rfl | rfl <;> decide, by simp⟩
    · rw [filter_noSE wb pb hx] at hb; exact hb.symm
  | true =>
    have ha : alternating (comm .sum b c) = true := by
      simp only [curvesOK, allNodes, Bool.and_eq_true, hx] at hS; simpa using hS.1
    obtain ⟨h1, _, h2, h3⟩ := settled_iff.1 hs
    rw [if_pos rfl, mkC_curve_sum (normal_iff.2 ⟨h1, h2, h3, ha⟩) hn, delSE]
    refine Stands.perm ⟨fun _ h => h, fun _ => rfl⟩ ?_
    rw [elements_del]
    exact hb.symm

/-- Multiplying a product by LIN or PER and taking its SE away. -/
theorem stands_curveProd {cfg : Cfg} {b b' : Counter} {c : List KE} (hs : settled cfg (comm .prod b c) = true) (hS : curvesOK (comm .prod b c) = true) {x : Base}
    {n : Int} (hn : 0 < n) (hx : x = .LIN ∨ x = .PER) (hb : b'.elements.Perm (b.elements.filter (· ≠ .SE) ++ Counter.elements [(x, n)])) :
    Stands cfg (if b.has .SE then delSE (mkC cfg .prod (b.add [(x, n)]) c) else mkC cfg .prod (b.add [(x, n)]) c) (comm .prod b' c) := by
  obtain ⟨wb, pb, _, hch⟩ := operand_comm.1 (operand_of_settled hs)
  have hwx : Counter.WF [(x, n)] := by simp [Counter.WF]
  have hpx : Counter.Pos [(x, n)] := by intro p hp; simp only [List.mem_singleton] at hp; subst hp; exact hn
  have hel := Counter.elements_add wb hwx pb hpx
  have hmn : 0 < (Counter.elements [(x, n)]).length := by simp [Counter.elements]; omega
  cases hSE : b.has .SE with
  | false =>
    rw [if_neg (by simp)]
    refine Stands.perm (stands_simplify (operand_comm.2 ⟨Counter.wf_add wb hwx, Counter.pos_add _ _, Or.inl ?_, hch⟩) (fun _ h => h) (fun _ => rfl)) ?_
    · intro h0; rw [h0] at hel
      have := hel.length_eq
      simp only [List.length_nil, List.length_append] at this
      omega
    · refine hel.trans ?_
      rw [filter_noSE wb pb hSE] at hb
      exact hb.symm
  | true =>
    have ha : alternating (comm .prod b c) = true := by
      simp only [curvesOK, allNodes, Bool.and_eq_true, hSE] at hS; simpa using hS.1
    obtain ⟨h1, _, h2, h3⟩ := settled_iff.1 hs
    rw [if_pos rfl, mkC_curve (normal_iff.2 ⟨h1, h2, h3, ha⟩) ((Counter.Pos.has_iff_get wb pb .SE).1 hSE) hn hx, delSE]
    refine Stands.perm ⟨fun _ h => h, fun _ => rfl⟩ ?_
    rw [elements_del]
    refine (hel.filter _).trans ?_
    rw [List.filter_append]
    refine (List.Perm.append_left _ ?_).trans hb.symm
    rw [List.filter_eq_self.2]
    intro y hy
    simp only [Counter.elements, List.flatMap_cons, List.flatMap_nil, List.append_nil] at hy
    rw [(List.mem_replicate.1 hy).2]; rcases hx with rfl | rfl <;> rfl

/-- Every result of a built-in rule stands for one of its moves. -/
theorem move_rule {cfg : Cfg} {o : Orders} (ho : o.OK cfg) (n : RuleName) {S : KE} (hs : settled cfg S = true) (hnb : S.isBase = false)
    (hSE : n = .try_higher_curves → curvesOK S = true) {new : KE} (h : new ∈ n.rule cfg o S) :
    ∃ e, Move cfg n S e ∧ Stands cfg new e := by
  have hop := operand_of_settled hs
  have hw := (settled_iff.1 hs).1
  have hall : ∀ B ∈ o.all, Searched cfg B := fun B hB => searched_iff.2 (ho.1.subset hB)
  have hno : ∀ B ∈ o.noC, Searched cfg B ∧ B ≠ .C := fun B hB => by
    have := List.mem_filter.1 (ho.2.subset hB)
    exact ⟨searched_iff.2 this.1, by simpa using this.2⟩
  cases n with
  | plus_base =>
    obtain ⟨B, hB, h⟩ := List.mem_flatMap.1 h
    rcases List.mem_cons.1 h with rfl | h
    · obtain ⟨R, e, hj⟩ := addRes_raw cfg S (base B) hw rfl
      rw [e]
      refine ⟨_, .plus (hall B hB), stands_join hj hop rfl ?_ fun _ => ?_⟩
      · intro y hy; simpa [bases, basesL, elements_one, or_comm] using hy
      · simp [opFold, den, denL, elements_one, add_comm]
    · cases S with
      | base b => simp [isBase] at hnb
      | change _ _ _ => simp [addNested] at h
      | comm op b c =>
        cases op with
        | sum => simp [addNested] at h
        | prod =>
          obtain ⟨bt, hbt, rfl⟩ := List.mem_map.1 h
          obtain ⟨h1, h2⟩ := stands_nested (cfg := cfg) (o' := .sum) (B := B) hop (by simp) hbt
          exact ⟨_, .plusInside (hall B hB) h1 (Counter.elements_ofList _), h2⟩
  | times_base =>
    obtain ⟨B, hB, h⟩ := List.mem_flatMap.1 h
    rcases List.mem_cons.1 h with rfl | h
    · obtain ⟨R, e, hj⟩ := mulRes_raw cfg S (base B) hw rfl
      rw [e]
      refine ⟨_, .times (hno B hB).1 (hno B hB).2, stands_join hj hop rfl ?_ fun _ => ?_⟩
      · intro y hy; simpa [bases, basesL, elements_one, or_comm] using hy
      · simp [opFold, den, denL, elements_one, mul_comm]
    · cases S with
      | base b => simp [isBase] at hnb
      | change _ _ _ => simp [mulNested] at h
      | comm op b c =>
        cases op with
        | prod => simp [mulNested] at h
        | sum =>
          obtain ⟨bt, hbt, rfl⟩ := List.mem_map.1 h
          obtain ⟨h1, h2⟩ := stands_nested (cfg := cfg) (o' := .prod) (B := B) hop (by simp) hbt
          exact ⟨_, .timesInside (hno B hB).1 (hno B hB).2 h1 (Counter.elements_ofList _), h2⟩
  | replace_base =>
    obtain ⟨B, hB, h⟩ := List.mem_flatMap.1 h
    cases S with
    | base b => simp [isBase] at hnb
    | change x l r =>
      obtain ⟨h1, h2⟩ := operand_change.1 hop
      rw [(C17_swap_change cfg x l r B).1] at h
      rcases List.mem_append.1 h with h' | h'
      · split at h'
        · rename_i hx
          obtain ⟨a, rfl, hne⟩ := hx
          rw [List.mem_singleton] at h'; subst h'
          exact ⟨_, .exchangeLeft (hall B hB) hne, stands_change rfl h2⟩
        · simp at h'
      · split at h'
        · rename_i hx
          obtain ⟨a, rfl, hne⟩ := hx
          rw [List.mem_singleton] at h'; subst h'
          exact ⟨_, .exchangeRight (hall B hB) hne, stands_change h1 rfl⟩
        · simp at h'
    | comm op b c =>
      obtain ⟨wb, pb, _, hch⟩ := operand_comm.1 hop
      simp only [swapBase, Counter.pos_eq_self pb] at h
      obtain ⟨p, hp, rfl⟩ := List.mem_map.1 h
      obtain ⟨s1, s2, rest, s3, _⟩ := swap_elements wb pb hp B
      have hin : operand (comm op (b.add (swapDict p.1 B)) c) = true :=
        operand_comm.2 ⟨s1, s2, Or.inl (by intro h0; rw [h0] at s3; simpa using s3.length_eq), hch⟩
      have hst : Stands cfg (mkC cfg op (b.add (swapDict p.1 B)) c) (comm op (b.add (swapDict p.1 B)) c) :=
        stands_simplify hin (fun _ h => h) (fun _ => rfl)
      have hg := Counter.get_of_mem wb hp
      have hp0 := pb p hp
      have hel : p.1 ∈ b.elements := (Counter.mem_elements wb p.1).2 (by omega)
      have hws : (swapDict p.1 B).WF := Counter.wf_put (by simp [Counter.WF]) _ _
      have hgs : ∀ x, (swapDict p.1 B).get x = if B = x then 1 else if p.1 = x then -1 else 0 := by
        intro x; rw [swapDict, Counter.get_put]; simp [Counter.get]
      by_cases hne : p.1 = B
      · refine ⟨_, .again (hall B hB) (hne ▸ hel) ?_, hst⟩
        rw [List.perm_iff_count]; intro x
        rw [List.count_cons, Counter.count_elements s1, Counter.count_elements wb, Counter.get_add wb hws, hgs]
        have hx := pb.nonneg x
        by_cases h1 : B = x
        · subst h1; simp; omega
        · rw [hne]; simp [h1]; omega
      · refine ⟨_, .exchange (hall B hB) hne hel ?_, hst⟩
        rw [List.perm_iff_count]; intro x
        rw [List.count_cons, List.count_cons, Counter.count_elements s1, Counter.count_elements wb, Counter.get_add wb hws, hgs]
        have hx := pb.nonneg x
        by_cases h1 : B = x
        · subst h1; simp [hne]; omega
        · by_cases h2 : p.1 = x
          · subst h2; simp [h1]; omega
          · simp [h1, h2]; omega
  | change_new_base =>
    obtain ⟨B, hB, h⟩ := List.mem_flatMap.1 h
    rw [bothChanges_some, List.mem_append] at h
    rcases h with h | h
    · obtain ⟨e, he, hst⟩ := stands_oneChange hop hnb h
      exact ⟨e, .changeNew (hno B hB).1 (hno B hB).2 e he, hst⟩
    · obtain ⟨e, he, hst⟩ := stands_oneChange hop hnb h
      exact ⟨e, .changeNew (hno B hB).1 (hno B hB).2 e he, hst⟩
  | change_same =>
    simp only [RuleName.rule, bothChanges, List.flatMap_cons, List.flatMap_nil, List.append_nil, List.cons_append,
      List.nil_append, List.mem_cons, List.not_mem_nil, or_false] at h
    rcases h with rfl | rfl
    · exact ⟨_, .changeSame, stands_change hop hop⟩
    · exact ⟨_, .changeSame, stands_change hop hop⟩
  | change_window_constant =>
    obtain ⟨e, he, hst⟩ := stands_oneChange hop hnb h
    exact ⟨e, .windowConstant e he, hst⟩
  | change_window_linear =>
    obtain ⟨e, he, hst⟩ := stands_oneChange hop hnb h
    exact ⟨e, .windowLinear e he, hst⟩
  | change_point_linear =>
    obtain ⟨e, he, hst⟩ := stands_oneChange hop hnb h
    exact ⟨e, .pointLinear e he, hst⟩
  | times_shifted_base =>
    obtain ⟨B, hB, h⟩ := List.mem_flatMap.1 h
    have hwB : wf (mkL cfg .sum [B, .C] []) = true := (operand_iff.1 (operand_mkL_names cfg .sum (by simp))).1
    have hcm : ∃ b c, mkL cfg .sum [B, .C] [] = comm .sum b c := ⟨_, _, rfl⟩
    have hne : mulNested cfg S (mkL cfg .sum [B, .C] []) = [] := by
      obtain ⟨b, c, e⟩ := hcm
      rw [e]
      cases S with
      | base b => simp [isBase] at hnb
      | change _ _ _ => rfl
      | comm op _ _ => cases op <;> rfl
    rw [multiply, hne, List.mem_singleton] at h
    subst h
    obtain ⟨R, e, hj⟩ := mulRes_raw cfg S (mkL cfg .sum [B, .C] []) hw hwB
    rw [e]
    have hsub : ∀ y ∈ [B, Base.C], y ∈ bases (comm .prod [] [S, comm .sum [(B, 1), (.C, 1)] []]) := by
      intro y hy
      simp only [List.mem_cons, List.not_mem_nil, or_false] at hy
      rcases hy with rfl | rfl <;> simp [bases, basesL, Counter.elements]
    refine ⟨_, .shifted (hno B hB).1 (hno B hB).2, stands_join hj hop (operand_mkL_names cfg .sum (by simp)) ?_ fun hl => ?_⟩
    · rintro y (hy | hy)
      · simp [bases, basesL, hy]
      · exact hsub y (bases_mkL_names hy)
    · rw [den_mkL_names hl.laws cfg .sum (by simp) (hl.sub hsub).safe]
      simp [opFold, den, denL, Counter.elements]
  | replace_with_singleton =>
    obtain ⟨B, hB, h⟩ := List.mem_flatMap.1 h
    have e : replaceNode cfg S (mkL cfg .sum [B] []) = [branchNode cfg (base B)] := by rw [branchNode, mkL_one]; rfl
    rw [e, List.mem_singleton] at h; subst h
    exact ⟨_, .single (hall B hB), stands_branch cfg (base B)⟩
  | remove_some_term =>
    cases S with
    | base b => simp [isBase] at hnb
    | change x l r =>
      simp only [RuleName.rule, removeATerm, List.mem_cons, List.not_mem_nil, or_false] at h
      rcases h with rfl | rfl
      · exact ⟨_, .keepLeft, stands_branch cfg l⟩
      · exact ⟨_, .keepRight, stands_branch cfg r⟩
    | comm op b c =>
      obtain ⟨wb, pb, _, hch⟩ := operand_comm.1 hop
      simp only [RuleName.rule, removeATerm] at h
      split at h
      · rename_i ht
        have hn : 1 < b.elements.length + c.length := by have := Counter.length_elements pb; unfold termCount at ht; omega
        rw [Counter.pos_eq_self pb, List.mem_append] at h
        rcases h with h | h
        · obtain ⟨p, hp, rfl⟩ := List.mem_map.1 h
          obtain ⟨h1, h2, h3⟩ := remove_elements wb pb hp
          refine ⟨_, .dropBase hn h3, stands_simplify (operand_comm.2 ⟨h1, h2, ?_, hch⟩) (fun _ h => h) (fun _ => rfl)⟩
          by_cases hc : c = []
          · left; intro h0
            have := h3.length_eq
            rw [h0] at this; rw [hc] at hn; simp at hn this; omega
          · exact Or.inr hc
        · obtain ⟨i, hi, rfl⟩ := List.mem_map.1 h
          have hi' : i < c.length := List.mem_range.1 hi
          have hc : c = c.take i ++ c[i] :: c.drop (i + 1) := by
            rw [← List.drop_eq_getElem_cons hi', List.take_append_drop]
          refine ⟨comm op b (c.take i ++ c.drop (i + 1)), ?_, stands_simplify (operand_comm.2 ⟨wb, pb, ?_, ?_⟩) (fun _ h => h) (fun _ => rfl)⟩
          · conv => enter [3]; rw [hc]
            exact .dropTerm (by rw [← hc]; exact hn)
          · by_cases hb : b.elements = []
            · right; intro h0
              have := congrArg List.length hc
              rw [hb] at hn
              simp only [List.append_eq_nil_iff] at h0
              rw [List.length_append, List.length_cons, h0.1, h0.2] at this
              simp at this hn; omega
            · exact Or.inl hb
          · intro k hk
            refine hch k ?_
            rcases List.mem_append.1 hk with hk | hk
            · exact List.mem_of_mem_take hk
            · exact List.mem_of_mem_drop hk
      · simp at h
  | try_higher_curves =>
    have hct : ∀ ct ∈ higherKers cfg, ∃ n : Int, (n = 2 ∨ n = 3) ∧ ct = comm .prod [(.LIN, n)] [] ∧ operand ct = true := by
      intro ct hct
      rw [higherKers_eq] at hct
      simp only [List.mem_cons, List.not_mem_nil, or_false] at hct
      rcases hct with rfl | rfl
      · exact ⟨2, Or.inl rfl, rfl, by decide⟩
      · exact ⟨3, Or.inr rfl, rfl, by decide⟩
    cases S with
    | base b => simp [isBase] at hnb
    | change x l r =>
      obtain ⟨h1, h2⟩ := operand_change.1 hop
      simp only [RuleName.rule, higherCurves, List.mem_append] at h
      rcases h with h | h
      · split at h
        · rename_i hb
          obtain ⟨ct, hc, rfl⟩ := List.mem_map.1 h
          obtain ⟨n, hn, rfl, ho⟩ := hct ct hc
          cases l with
          | base a => exact ⟨_, .curveLeft n hn, stands_change ho h2⟩
          | comm _ _ _ => simp [isBase] at hb
          | change _ _ _ => simp [isBase] at hb
        · simp at h
      · split at h
        · rename_i hb
          obtain ⟨ct, hc, rfl⟩ := List.mem_map.1 h
          obtain ⟨n, hn, rfl, ho⟩ := hct ct hc
          cases r with
          | base a => exact ⟨_, .curveRight n hn, stands_change h1 ho⟩
          | comm _ _ _ => simp [isBase] at hb
          | change _ _ _ => simp [isBase] at hb
        · simp at h
    | comm op b c =>
      obtain ⟨wb, pb, _, hch⟩ := operand_comm.1 hop
      have hS := hSE rfl
      cases op with
      | sum =>
        have h' : ∃ ct ∈ higherKers cfg, new = if b.has .SE then delSE (mkC cfg .sum b (c ++ [ct])) else mkC cfg .sum b (c ++ [ct]) := by
          simp only [RuleName.rule, higherCurves, Counter.pos_eq_self pb] at h
          split at h
          · rename_i hx
            obtain ⟨y, hy, rfl⟩ := List.mem_map.1 h
            obtain ⟨ct, hc, rfl⟩ := List.mem_map.1 hy
            exact ⟨ct, hc, by rw [if_pos hx]⟩
          · rename_i hx
            obtain ⟨ct, hc, rfl⟩ := List.mem_map.1 h
            exact ⟨ct, hc, by rw [if_neg hx]⟩
        obtain ⟨ct, hc, rfl⟩ := h'
        obtain ⟨n, hn, rfl, _⟩ := hct ct hc
        exact ⟨_, .curveSum (b' := b.del .SE) n hn (by rw [elements_del]), stands_curveSum hs hS hn (by rw [elements_del])⟩
      | prod =>
        have hP : b.has .PER = true ↔ Base.PER ∈ b.elements := by
          rw [Counter.Pos.has_iff_get wb pb, ← Counter.mem_elements wb]
        have key : ∀ (x : Base) (n : Int), 0 < n → (x = .LIN ∨ x = .PER) →
            (Counter.elements [(x, n)] = [.LIN, .LIN] ∨ Counter.elements [(x, n)] = [.LIN, .LIN, .LIN] ∨ (Counter.elements [(x, n)] = [.PER] ∧ .PER ∈ b.elements) ∨
              (Counter.elements [(x, n)] = [.PER, .PER] ∧ .PER ∉ b.elements)) →
            ∃ e, Move cfg .try_higher_curves (comm .prod b c) e ∧
              Stands cfg (if b.has .SE then delSE (mkC cfg .prod (b.add [(x, n)]) c) else mkC cfg .prod (b.add [(x, n)]) c) e := by
          intro x n hn hx hcase
          have hwx : Counter.WF [(x, n)] := by simp [Counter.WF]
          have hpx : Counter.Pos [(x, n)] := by intro p hp; simp only [List.mem_singleton] at hp; subst hp; exact hn
          have hel : ((b.del .SE).add [(x, n)]).elements.Perm (b.elements.filter (· ≠ .SE) ++ Counter.elements [(x, n)]) := by
            have := Counter.elements_add (Counter.wf_del wb .SE) hwx (Counter.pos_del pb .SE) hpx
            rwa [elements_del] at this
          exact ⟨_, .curveProd _ hcase hel, stands_curveProd hs hS hn hx hel⟩
        have h' : ∃ (x : Base) (n : Int), ((x = .LIN ∧ (n = 2 ∨ n = 3)) ∨ (x = .PER ∧ n = if b.has .PER then 1 else 2)) ∧
            new = if b.has .SE then delSE (mkC cfg .prod (b.add [(x, n)]) c) else mkC cfg .prod (b.add [(x, n)]) c := by
          simp only [RuleName.rule, higherCurves, Counter.pos_eq_self pb] at h
          split at h
          · rename_i hx
            simp only [List.map_cons, List.map_nil, List.cons_append, List.nil_append, List.mem_cons, List.not_mem_nil, or_false, if_pos hx] at h ⊢
            rcases h with rfl | rfl | rfl
            · exact ⟨.LIN, 2, by simp, rfl⟩
            · exact ⟨.LIN, 3, by simp, rfl⟩
            · exact ⟨.PER, _, Or.inr ⟨rfl, rfl⟩, by split <;> rfl⟩
          · rename_i hx
            simp only [List.map_cons, List.map_nil, List.cons_append, List.nil_append, List.mem_cons, List.not_mem_nil, or_false, if_neg hx] at h ⊢
            rcases h with rfl | rfl | rfl
            · exact ⟨.LIN, 2, by simp, rfl⟩
            · exact ⟨.LIN, 3, by simp, rfl⟩
            · exact ⟨.PER, _, Or.inr ⟨rfl, rfl⟩, by split <;> rfl⟩
        obtain ⟨x, n, hxn, rfl⟩ := h'
        rcases hxn with ⟨rfl, rfl | rfl⟩ | ⟨rfl, hn⟩
        · exact key .LIN 2 (by omega) (Or.inl rfl) (Or.inl rfl)
        · exact key .LIN 3 (by omega) (Or.inl rfl) (Or.inr (Or.inl rfl))
        · by_cases hp : b.has .PER = true
          · rw [if_pos hp] at hn; subst hn
            exact key .PER 1 (by omega) (Or.inr rfl) (Or.inr (Or.inr (Or.inl ⟨rfl, hP.1 hp⟩)))
          · rw [if_neg hp] at hn; subst hn
            exact key .PER 2 (by omega) (Or.inr rfl) (Or.inr (Or.inr (Or.inr ⟨rfl, fun h => hp (hP.2 h)⟩)))

theorem nested_congr {cfg : Cfg} {new : KE} {o o' : Op} {b b' m m' : Counter} {c : List KE}
    (h : Stands cfg new (comm o b (c ++ [comm o' m []]))) (hb : b.elements.Perm b'.elements) (hm : m.elements.Perm m'.elements) :
    Stands cfg new (comm o b' (c ++ [comm o' m' []])) := by
  refine (h.perm hb).congr (fun y => ?_) ?_
  · simp only [bases_mem_comm, List.mem_append, List.mem_singleton, or_and_right, exists_or, exists_eq_left]
    simp [hm.mem_iff]
  · intro _; rw [den_snoc, den_snoc, den_comm_perm hm]

/-- Every move is a result of its rule. -/
theorem rule_move {cfg : Cfg} {o : Orders} (ho : o.OK cfg) {n : RuleName} {S e : KE} (hs : settled cfg S = true) (hnb : S.isBase = false)
    (hSE : n = .try_higher_curves → curvesOK S = true) (h : Move cfg n S e) : ∃ new ∈ n.rule cfg o S, Stands cfg new e := by
  have hop := operand_of_settled hs
  have hw := (settled_iff.1 hs).1
  have hall : ∀ B, Searched cfg B → B ∈ o.all := fun B hB => ho.1.symm.subset (searched_iff.1 hB)
  have hno : ∀ B, Searched cfg B → B ≠ .C → B ∈ o.noC := fun B hB hC =>
    ho.2.symm.subset (List.mem_filter.2 ⟨searched_iff.1 hB, by simpa using hC⟩)
  have hone : ∀ (x : CC) (B : Base) (e : KE), (e = change x S (base B) ∨ e = change x (base B) S) →
      ∃ new ∈ oneChange cfg S x (some (base B)), Stands cfg new e := by
    intro x B e he
    have hne : keq (base B) S = false := by cases S <;> first | rfl | simp [isBase] at hnb
    simp only [oneChange, hne, Bool.false_eq_true, if_false]
    rcases he with rfl | rfl
    · exact ⟨_, by simp, stands_change hop rfl⟩
    · exact ⟨_, by simp, stands_change rfl hop⟩
  -- the exchanged terms of a sum or product
  have hswap : ∀ {op : Op} {b b' : Counter} {c : List KE} {p : Base} {B : Base}, S = comm op b c → Searched cfg B → p ∈ b.elements →
      (∀ x, b'.elements.count x = ((b.add (swapDict p B)).get x).toNat) → ∃ new ∈ RuleName.rule cfg o .replace_base S, Stands cfg new (comm op b' c) := by
    rintro op b b' c p B rfl hB hp hcount
    obtain ⟨wb, pb, _, hch⟩ := operand_comm.1 hop
    obtain ⟨v, hv⟩ := Counter.has_iff.1 ((Counter.Pos.has_iff_get wb pb p).2 ((Counter.mem_elements wb p).1 hp))
    obtain ⟨s1, s2, rest, s3, _⟩ := swap_elements wb pb hv B
    have hin : operand (comm op (b.add (swapDict p B)) c) = true :=
      operand_comm.2 ⟨s1, s2, Or.inl (by intro h0; rw [h0] at s3; simpa using s3.length_eq), hch⟩
    refine ⟨mkC cfg op (b.add (swapDict p B)) c, ?_, (stands_simplify hin (fun _ h => h) (fun _ => rfl)).perm ?_⟩
    · refine List.mem_flatMap.2 ⟨B, hall B hB, ?_⟩
      simp only [swapBase, Counter.pos_eq_self pb]
      exact List.mem_map.2 ⟨_, hv, rfl⟩
    · rw [List.perm_iff_count]; intro x
      rw [hcount, Counter.count_elements s1]
  have hgs : ∀ p B x, (swapDict p B).get x = if B = x then 1 else if p = x then -1 else 0 := by
    intro p B x; rw [swapDict, Counter.get_put]; simp [Counter.get]
  have hws : ∀ p B, (swapDict p B).WF := fun p B => Counter.wf_put (by simp [Counter.WF]) _ _
  have hct : ∀ n : Int, (n = 2 ∨ n = 3) → comm .prod [(.LIN, n)] [] ∈ higherKers cfg ∧ operand (comm .prod [(.LIN, n)] []) = true := by
    rintro n (rfl | rfl) <;> rw [higherKers_eq] <;> exact ⟨by simp, by decide⟩
  cases h with
  | @plus B _ hB =>
    obtain ⟨R, e, hj⟩ := addRes_raw cfg S (base B) hw rfl
    refine ⟨addRes cfg S (base B), List.mem_flatMap.2 ⟨B, hall B hB, by simp [add]⟩, ?_⟩
    rw [e]
    refine stands_join hj hop rfl ?_ fun _ => ?_
    · intro y hy; simpa [bases, basesL, elements_one, or_comm] using hy
    · simp [opFold, den, denL, elements_one, add_comm]
  | @plusInside B bt b b' m c hB hb hm =>
    have hbt : bt ∈ b.elements := hb.subset (by simp)
    obtain ⟨h1, h2⟩ := stands_nested (cfg := cfg) (o' := .sum) (B := B) hop (by simp) hbt
    refine ⟨_, List.mem_flatMap.2 ⟨B, hall B hB, List.mem_cons_of_mem _ (List.mem_map.2 ⟨bt, hbt, rfl⟩)⟩, nested_congr h2 ?_ ?_⟩
    · exact ((h1.trans hb.symm).cons_inv)
    · exact (Counter.elements_ofList _).trans hm.symm
  | @times B _ hB hC =>
    obtain ⟨R, e, hj⟩ := mulRes_raw cfg S (base B) hw rfl
    refine ⟨mulRes cfg S (base B), List.mem_flatMap.2 ⟨B, hno B hB hC, by simp [multiply]⟩, ?_⟩
    rw [e]
    refine stands_join hj hop rfl ?_ fun _ => ?_
    · intro y hy; simpa [bases, basesL, elements_one, or_comm] using hy
    · simp [opFold, den, denL, elements_one, mul_comm]
  | @timesInside B bt b b' m c hB hC hb hm =>
    have hbt : bt ∈ b.elements := hb.subset (by simp)
    obtain ⟨h1, h2⟩ := stands_nested (cfg := cfg) (o' := .prod) (B := B) hop (by simp) hbt
    refine ⟨_, List.mem_flatMap.2 ⟨B, hno B hB hC, List.mem_cons_of_mem _ (List.mem_map.2 ⟨bt, hbt, rfl⟩)⟩, nested_congr h2 ?_ ?_⟩
    · exact ((h1.trans hb.symm).cons_inv)
    · exact (Counter.elements_ofList _).trans hm.symm
  | @exchange B bt op b b' c hB hne hbt hb =>
    obtain ⟨wb, pb, _, _⟩ := operand_comm.1 hop
    refine hswap rfl hB hbt fun x => ?_
    have h3 := hb.count_eq x
    rw [List.count_cons, List.count_cons, Counter.count_elements wb] at h3
    have hx := pb.nonneg x
    have hg := (Counter.mem_elements wb bt).1 hbt
    rw [Counter.get_add wb (hws _ _), hgs]
    by_cases h1 : B = x
    · subst h1; simp [hne] at h3 ⊢; omega
    · by_cases h2 : bt = x
      · subst h2; simp [h1] at h3 ⊢; omega
      · simp [h1, h2] at h3 ⊢; omega
  | @again B op b b' c hB hB' hb =>
    obtain ⟨wb, pb, _, _⟩ := operand_comm.1 hop
    refine hswap rfl hB hB' fun x => ?_
    have h3 := hb.count_eq x
    rw [List.count_cons, Counter.count_elements wb] at h3
    have hx := pb.nonneg x
    rw [Counter.get_add wb (hws _ _), hgs]
    by_cases h1 : B = x
    · subst h1; simp at h3 ⊢; omega
    · simp [h1] at h3 ⊢; omega
  | @exchangeLeft B a x r hB hne =>
    refine ⟨mkChange cfg x (base B) r, List.mem_flatMap.2 ⟨B, hall B hB, ?_⟩, stands_change rfl (operand_change.1 hop).2⟩
    simp [swapBase, isBase, keq, hne]
  | @exchangeRight B a x l hB hne =>
    refine ⟨mkChange cfg x l (base B), List.mem_flatMap.2 ⟨B, hall B hB, ?_⟩, stands_change (operand_change.1 hop).1 rfl⟩
    simp [swapBase, isBase, keq, hne]
  | @changeNew B x _ hB hC e he =>
    obtain ⟨new, h1, h2⟩ := hone x B _ he
    refine ⟨new, List.mem_flatMap.2 ⟨B, hno B hB hC, ?_⟩, h2⟩
    rw [bothChanges_some, List.mem_append]
    cases x
    · exact Or.inl h1
    · exact Or.inr h1
  | @changeSame x =>
    refine ⟨mkChange cfg x S S, ?_, stands_change hop hop⟩
    cases x <;> simp [RuleName.rule, bothChanges]
  | windowConstant e he => exact hone _ _ _ he
  | windowLinear e he => exact hone _ _ _ he
  | pointLinear e he => exact hone _ _ _ he
  | @shifted B _ hB hC =>
    have hwB : wf (mkL cfg .sum [B, .C] []) = true := (operand_iff.1 (operand_mkL_names cfg .sum (by simp))).1
    obtain ⟨R, e, hj⟩ := mulRes_raw cfg S (mkL cfg .sum [B, .C] []) hw hwB
    refine ⟨mulRes cfg S (mkL cfg .sum [B, .C] []), List.mem_flatMap.2 ⟨B, hno B hB hC, by simp [multiply]⟩, ?_⟩
    rw [e]
    have hsub : ∀ y ∈ [B, Base.C], y ∈ bases (comm .prod [] [S, comm .sum [(B, 1), (.C, 1)] []]) := by
      intro y hy
      simp only [List.mem_cons, List.not_mem_nil, or_false] at hy
      rcases hy with rfl | rfl <;> simp [bases, basesL, Counter.elements]
    refine stands_join hj hop (operand_mkL_names cfg .sum (by simp)) ?_ fun hl => ?_
    · rintro y (hy | hy)
      · simp [bases, basesL, hy]
      · exact hsub y (bases_mkL_names hy)
    · rw [den_mkL_names hl.laws cfg .sum (by simp) (hl.sub hsub).safe]
      simp [opFold, den, denL, Counter.elements]
  | @single B _ hB =>
    refine ⟨branchNode cfg (base B), List.mem_flatMap.2 ⟨B, hall B hB, ?_⟩, stands_branch cfg (base B)⟩
    rw [branchNode, mkL_one]; simp [replaceNode]
  | @dropBase bt op b b' c hn hb =>
    obtain ⟨wb, pb, _, hch⟩ := operand_comm.1 hop
    have hbt : bt ∈ b.elements := hb.subset (by simp)
    obtain ⟨v, hv⟩ := Counter.has_iff.1 ((Counter.Pos.has_iff_get wb pb bt).2 ((Counter.mem_elements wb bt).1 hbt))
    obtain ⟨h1, h2, h3⟩ := remove_elements wb pb hv
    have ht : termCount b c > 1 := by have := Counter.length_elements pb; unfold termCount; omega
    refine ⟨mkC cfg op (b.add [(bt, -1)]) c, ?_, Stands.perm (stands_simplify (operand_comm.2 ⟨h1, h2, ?_, hch⟩) (fun _ h => h) (fun _ => rfl))
      (h3.trans hb.symm).cons_inv⟩
    · simp only [RuleName.rule, removeATerm, ht, if_true, Counter.pos_eq_self pb]
      exact List.mem_append_left _ (List.mem_map.2 ⟨_, hv, rfl⟩)
    · by_cases hc : c = []
      · left; intro h0
        have := h3.length_eq
        rw [h0] at this; rw [hc] at hn; simp at hn this; omega
      · exact Or.inr hc
  | @dropTerm op b c1 c2 k hn =>
    obtain ⟨wb, pb, _, hch⟩ := operand_comm.1 hop
    have ht : termCount b (c1 ++ k :: c2) > 1 := by have := Counter.length_elements pb; unfold termCount; omega
    refine ⟨mkC cfg op b (c1 ++ c2), ?_, stands_simplify (operand_comm.2 ⟨wb, pb, ?_, ?_⟩) (fun _ h => h) (fun _ => rfl)⟩
    · simp only [RuleName.rule, removeATerm, ht, if_true, Counter.pos_eq_self pb]
      refine List.mem_append_right _ (List.mem_map.2 ⟨c1.length, by simp, ?_⟩)
      simp
    · by_cases hb : b.elements = []
      · right; intro h0
        rw [hb] at hn
        simp only [List.append_eq_nil_iff] at h0
        simp [h0.1, h0.2] at hn
      · exact Or.inl hb
    · intro k' hk
      refine hch k' ?_
      rcases List.mem_append.1 hk with hk | hk <;> simp [hk]
  | keepLeft => exact ⟨branchNode cfg e, by simp [RuleName.rule, removeATerm], stands_branch cfg e⟩
  | keepRight => exact ⟨branchNode cfg e, by simp [RuleName.rule, removeATerm], stands_branch cfg e⟩
  | @curveSum b b' c n hn hb =>
    obtain ⟨wb, pb, _, hch⟩ := operand_comm.1 hop
    refine ⟨_, ?_, stands_curveSum hs (hSE rfl) hn hb⟩
    simp only [RuleName.rule, higherCurves, Counter.pos_eq_self pb]
    split
    · exact List.mem_map.2 ⟨_, List.mem_map.2 ⟨_, (hct n hn).1, rfl⟩, rfl⟩
    · exact List.mem_map.2 ⟨_, (hct n hn).1, rfl⟩
  | @curveProd b b' c m hm hb =>
    obtain ⟨wb, pb, _, hch⟩ := operand_comm.1 hop
    have hP : b.has .PER = true ↔ Base.PER ∈ b.elements := by
      rw [Counter.Pos.has_iff_get wb pb, ← Counter.mem_elements wb]
    rcases hm with rfl | rfl | ⟨rfl, hp⟩ | ⟨rfl, hp⟩
    · refine ⟨_, ?_, stands_curveProd hs (hSE rfl) (x := .LIN) (n := 2) (by omega) (Or.inl rfl) hb⟩
      simp only [RuleName.rule, higherCurves, Counter.pos_eq_self pb]
      split <;> simp
    · refine ⟨_, ?_, stands_curveProd hs (hSE rfl) (x := .LIN) (n := 3) (by omega) (Or.inl rfl) hb⟩
      simp only [RuleName.rule, higherCurves, Counter.pos_eq_self pb]
      split <;> simp
    · refine ⟨_, ?_, stands_curveProd hs (hSE rfl) (x := .PER) (n := 1) (by omega) (Or.inr rfl) hb⟩
      simp only [RuleName.rule, higherCurves, Counter.pos_eq_self pb, if_pos (hP.2 hp)]
      split <;> simp
    · refine ⟨_, ?_, stands_curveProd hs (hSE rfl) (x := .PER) (n := 2) (by omega) (Or.inr rfl) hb⟩
      simp only [RuleName.rule, higherCurves, Counter.pos_eq_self pb, if_neg (fun h => hp (hP.1 h))]
      split <;> simp
  | @curveLeft a x r n hn =>
    refine ⟨mkChange cfg x (comm .prod [(.LIN, n)] []) r, ?_, stands_change (hct n hn).2 (operand_change.1 hop).2⟩
    simp only [RuleName.rule, higherCurves, isBase, if_true]
    exact List.mem_append_left _ (List.mem_map.2 ⟨_, (hct n hn).1, rfl⟩)
  | @curveRight a x l n hn =>
    refine ⟨mkChange cfg x l (comm .prod [(.LIN, n)] []), ?_, stands_change (operand_change.1 hop).1 (hct n hn).2⟩
    simp only [RuleName.rule, higherCurves, isBase, if_true]
    exact List.mem_append_right _ (List.mem_map.2 ⟨_, (hct n hn).1, rfl⟩)

end GPyABCD
