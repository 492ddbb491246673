import Verif.Lemmas.Curves
import Verif.Lemmas.Settled
import Verif.Lemmas.RealSem

/-!
# Higher curves on nodes that are not simplified (C71)

The searches also hold expressions with sums directly in sums (C26), so the shape of the node is left open here. The price: LIN is always there, so constants
anywhere in the node need LIN read as LIN plus a constant (`Reading`); the theorems on simplified nodes (`C71_sum_partial` and so on) do not.
-/

namespace GPyABCD
open scoped Pointwise
open KE Kern

namespace KE

private theorem get_absorbBts_SE {cfg : Cfg} : ∀ {ns : List (Counter × Nat)} {b : Counter}, b.WF → (∀ p ∈ ns, p.1.WF ∧ p.1.Pos) → 0 < b.get .SE →
    0 < (absorbBts cfg .sum b ns).get .SE
  | [], _, _, _, h => h
  | (hb, n) :: ns, b, hw, hns, h => by
    have hh := hns _ List.mem_cons_self
    have w1 : (b.updateMap hb).WF := Counter.wf_updateMap hw _
    rw [absorbBts]
    refine get_absorbBts_SE (wf_simplifyBase w1) (fun p hp => hns p (List.mem_cons_of_mem _ hp)) ?_
    have g := get_simplifyBaseSum (cfg := cfg) w1 .SE
    have u := Counter.get_updateMap b hh.1 .SE
    have h0 := hh.2.nonneg .SE
    simp only [simplifyBase] at g u h0 ⊢
    omega

/-- SE among the addends stays among the addends. -/
private theorem se_stays {cfg : Cfg} {b : Counter} {cs : List KE} (h : wf (comm .sum b cs) = true) (hs : Base.SE ∈ b.elements) :
    ∃ b' cs', simplify cfg (comm .sum b cs) = comm .sum b' cs' ∧ Base.SE ∈ b'.elements := by
  have hw := wf_comm.1 h
  rw [simplify, simplifyL_eq]
  obtain ⟨ns, e1, e⟩ := absorb_eq cfg .sum b (cs.map (simplify cfg))
  have hns : ∀ p ∈ ns, p.1.WF ∧ p.1.Pos := by
    intro p hp
    have : p.1 ∈ ((cs.map (simplify cfg)).filter (isComm .sum)).map btsOf := by rw [← e1]; exact List.mem_map_of_mem hp
    obtain ⟨k, hk, hk'⟩ := List.mem_map.1 this
    obtain ⟨hk, hc⟩ := List.mem_filter.1 hk
    obtain ⟨k0, hk0, rfl⟩ := List.mem_map.1 hk
    have hw' := wf_simplify cfg k0 (hw.2.2 k0 hk0).2
    rw [← hk']
    generalize simplify cfg k0 = k at hw' hc
    cases k with
    | base _ => simp [isComm] at hc
    | change _ _ _ => simp [isComm] at hc
    | comm o d ds => exact ⟨(wf_comm.1 hw').1, (wf_comm.1 hw').2.1⟩
  refine ⟨_, _, e, ?_⟩
  have w0 := wf_absorbBts (cfg := cfg) (op := .sum) (ns := ns) hw.1
  have w1 := Counter.wf_updateList w0 (namesOf (flat .sum (cs.map (simplify cfg))))
  have g := get_absorbBts_SE (cfg := cfg) hw.1 hns ((Counter.mem_elements hw.1 _).1 hs)
  rw [Counter.mem_elements (wf_simplifyBase (wf_simplifyBase w1))]
  simp only [simplifyBase]
  have w2 : (simplifyBaseSum cfg ((absorbBts cfg .sum b ns).updateList (namesOf (flat .sum (cs.map (simplify cfg)))))).WF :=
    wf_simplifyBase (op := .sum) (n := 0) w1
  have g2 := get_simplifyBaseSum (cfg := cfg) w2 .SE
  have g1 := get_simplifyBaseSum (cfg := cfg) w1 .SE
  have u := Counter.get_updateList (absorbBts cfg .sum b ns) (namesOf (flat .sum (cs.map (simplify cfg)))) .SE
  simp only at g1 g2
  omega

private theorem bases_power {x y : Base} {n : Int} (h : x ∈ bases (comm .prod [(y, n)] [])) : x = y := by
  simp only [bases, basesL, Counter.elements, List.flatMap_cons, List.flatMap_nil, List.append_nil, List.mem_replicate] at h
  exact h.2

private theorem operand_power (x : Base) (n : Int) (hn : 0 < n) : operand (comm .prod [(x, n)] []) = true := by
  refine operand_comm.2 ⟨by simp [Counter.WF], ?_, Or.inl ?_, by simp⟩
  · intro p hp; simp only [List.mem_singleton] at hp; subst hp; exact hn
  · have : n.toNat ≠ 0 := by omega
    simp [Counter.elements, this]

private theorem den_power (I : Interp) (x : Base) (n : Int) : den I (comm .prod [(x, n)] []) = (List.replicate n.toNat (I.F x)).prod := by
  simp [den, denL, opFold, Counter.elements]

/-- Taking the SE terms at the top away: what they were is what is missing. -/
private theorem den_delSE_sum (I : Interp) (b : Counter) (cs : List KE) :
    den I (comm .sum (b.del .SE) cs) + (List.replicate (b.elements.count .SE) (I.F .SE)).sum = den I (comm .sum b cs) := by
  have hp : b.elements.Perm ((b.del .SE).elements ++ List.replicate (b.elements.count .SE) .SE) := by
    rw [elements_del, List.perm_iff_count]
    intro x
    rw [List.count_append, List.count_replicate]
    by_cases hx : x = .SE
    · subst hx
      simp [List.count_eq_zero]
    · rw [List.count_filter (by simpa using hx), if_neg (by simpa using fun h => hx h.symm)]; simp
  rw [den, den, opFold_perm .sum ((hp.map I.F).append_right _)]
  simp only [opFold, List.map_append, List.sum_append, List.map_replicate]
  rw [add_right_comm]

private theorem den_delSE_prod {I : Interp} (hI : Laws I) (b : Counter) (cs : List KE)
    (h : den I (comm .prod b cs) * I.F .SE = den I (comm .prod b cs)) :
    den I (comm .prod (b.del .SE) cs) * I.F .SE = den I (comm .prod b cs) := by
  have hp : b.elements.Perm ((b.del .SE).elements ++ List.replicate (b.elements.count .SE) .SE) := by
    rw [elements_del, List.perm_iff_count]
    intro x
    rw [List.count_append, List.count_replicate]
    by_cases hx : x = .SE
    · subst hx
      simp [List.count_eq_zero]
    · rw [List.count_filter (by simpa using hx), if_neg (by simpa using fun h => hx h.symm)]; simp
  have e : den I (comm .prod b cs) = den I (comm .prod (b.del .SE) cs) * (List.replicate (b.elements.count .SE) (I.F .SE)).prod := by
    rw [den, den, opFold_perm .prod ((hp.map I.F).append_right _)]
    simp only [opFold, List.map_append, List.prod_append, List.map_replicate]
    rw [mul_right_comm]
  have key : ∀ n, (List.replicate n (I.F .SE)).prod * I.F .SE = I.F .SE := by
    intro n
    induction n with
    | zero => simp
    | succ n ih => rw [List.replicate_succ, List.prod_cons, mul_assoc, ih, hI.se_mul]
  rw [← h, e, mul_assoc, key]

private theorem del_no_SE (b : Counter) : Base.SE ∉ (b.del .SE).elements := by
  rw [elements_del]; simp

end KE

/-- C71, sums of any shape (partial: where LIN meets C, only with LIN standing for LIN plus a constant): two results. If SE is not an addend, they are the sum plus a quadratic and plus a cubic; if it is, they are that without the SE
addends, those of sums directly inside included: adding them again gives it back, and none is left. -/
theorem C71_any_sum_partial (cfg : Cfg) (b : Counter) (c : List KE) (h : operand (comm .sum b c) = true) (I : Interp)
    (hl : Reading cfg (.LIN :: bases (comm .sum b c)) I) :
    let D := den I
    let L := I.F .LIN
    ∃ r2 r3, higherCurves cfg (comm .sum b c) = [r2, r3] ∧
      (Base.SE ∉ b.elements → D r2 = D (comm .sum b c) + L * L ∧ D r3 = D (comm .sum b c) + L * L * L) ∧
      (Base.SE ∈ b.elements → (Base.SE ∉ els .sum r2 ∧ ∃ n, 0 < n ∧ D r2 + (List.replicate n (I.F .SE)).sum = D (comm .sum b c) + L * L) ∧
        (Base.SE ∉ els .sum r3 ∧ ∃ n, 0 < n ∧ D r3 + (List.replicate n (I.F .SE)).sum = D (comm .sum b c) + L * L * L)) := by
  have ho := operand_comm.1 h
  have hw := (operand_iff.1 h).1
  have hj : ∀ n : Int, 0 < n → RawJoin .sum (comm .sum b c) (comm .prod [(.LIN, n)] []) (comm .sum b (c ++ [comm .prod [(.LIN, n)] []])) := by
    intro n hn
    exact rawJoin_mk hw (operand_iff.1 (operand_power _ n hn)).1 ho.1 ho.2.1 (by simp [els]) (by simp [parts])
  have hd : ∀ n : Int, 0 < n → den I (simplify cfg (comm .sum b (c ++ [comm .prod [(.LIN, n)] []]))) =
      den I (comm .sum b c) + (List.replicate n.toNat (I.F .LIN)).prod := by
    intro n hn
    rw [den_rawJoin_simplify hl.laws cfg (hj n hn) h (operand_power _ n hn) ?_]
    · simp only [opFold, List.sum_cons, List.sum_nil, add_zero, den_power]
    · refine LinSafe.sub ?_ hl.safe
      intro x hx
      rcases List.mem_append.1 hx with hx | hx
      · exact List.mem_cons_of_mem _ hx
      · rw [bases_power hx]; exact List.mem_cons_self
  have hse : ∀ n : Int, 0 < n → Base.SE ∈ b.elements → ∃ r, delSE (simplify cfg (comm .sum b (c ++ [comm .prod [(.LIN, n)] []]))) = r ∧
      Base.SE ∉ els .sum r ∧ ∃ m, 0 < m ∧ den I r + (List.replicate m (I.F .SE)).sum = den I (comm .sum b c) + (List.replicate n.toNat (I.F .LIN)).prod := by
    intro n hn hs
    obtain ⟨b', cs', e, hs'⟩ := se_stays (cfg := cfg) (hj n hn).wf hs
    refine ⟨_, rfl, ?_, b'.elements.count .SE, List.count_pos_iff.2 hs', ?_⟩
    · rw [e]; simpa [delSE, els] using del_no_SE b'
    · rw [← hd n hn, e, delSE, den_delSE_sum]
  intro D L
  have hhas : b.has .SE = true ↔ Base.SE ∈ b.elements := by rw [Counter.mem_elements ho.1, ← Counter.Pos.has_iff_get ho.1 ho.2.1]
  simp only [higherCurves, Counter.pos_eq_self ho.2.1, higherKers_eq, List.map_cons, List.map_nil, mkC]
  have e2 : (List.replicate (2 : Int).toNat (I.F .LIN)).prod = L * L := by simp [List.replicate_succ, L]
  have e3 : (List.replicate (3 : Int).toNat (I.F .LIN)).prod = L * L * L := by simp [List.replicate_succ, L, mul_assoc]
  by_cases hs : Base.SE ∈ b.elements
  · rw [if_pos (hhas.2 hs)]
    refine ⟨_, _, rfl, fun h => absurd hs h, fun _ => ?_⟩
    obtain ⟨r, rfl, h1, h2⟩ := hse 2 (by omega) hs
    obtain ⟨r, rfl, h3, h4⟩ := hse 3 (by omega) hs
    rw [e2] at h2; rw [e3] at h4
    exact ⟨⟨h1, h2⟩, h3, h4⟩
  · rw [if_neg (fun h => hs (hhas.1 h))]
    refine ⟨_, _, rfl, fun _ => ?_, fun h => absurd h hs⟩
    have h2 := hd 2 (by omega)
    have h3 := hd 3 (by omega)
    rw [e2] at h2; rw [e3] at h3
    exact ⟨h2, h3⟩

/-- C71, products of any shape (partial likewise): three results, the product times a quadratic, times a cubic, and times one more periodic kernel, or two if it has none; if SE is
a factor, these without it: times SE they are that, and it is no factor of theirs. -/
theorem C71_any_product_partial (cfg : Cfg) (b : Counter) (c : List KE) (h : operand (comm .prod b c) = true) (I : Interp)
    (hl : Reading cfg (.LIN :: bases (comm .prod b c)) I) :
    let D := den I
    let L := I.F .LIN
    ∃ rs, higherCurves cfg (comm .prod b c) = rs ∧
      List.Forall₂ (fun F r => (Base.SE ∉ b.elements → D r = D (comm .prod b c) * F) ∧
        (Base.SE ∈ b.elements → Base.SE ∉ els .prod r ∧ D r * I.F .SE = D (comm .prod b c) * F))
        [L * L, L * L * L, if Base.PER ∈ b.elements then I.F .PER else I.F .PER * I.F .PER] rs := by
  have ho := operand_comm.1 h
  have hw := (operand_iff.1 h).1
  have hI := hl.laws
  have hhas : ∀ x, b.has x = true ↔ x ∈ b.elements := by intro x; rw [Counter.mem_elements ho.1, ← Counter.Pos.has_iff_get ho.1 ho.2.1]
  have hdS : Base.SE ∈ b.elements → den I (comm .prod b c) * I.F .SE = den I (comm .prod b c) := by
    intro hs
    rw [den, opFold_perm .prod (((List.perm_cons_erase hs).map I.F).append_right _)]
    simp only [opFold, List.map_cons, List.cons_append, List.prod_cons]
    rw [mul_right_comm, hI.se_mul]
  have key : ∀ (x : Base) (n : Int), 0 < n → (x = .LIN ∨ x = .PER) →
      (Base.SE ∉ b.elements → den I (mkC cfg .prod (b.add [(x, n)]) c) = den I (comm .prod b c) * (List.replicate n.toNat (I.F x)).prod) ∧
      (Base.SE ∈ b.elements → Base.SE ∉ els .prod (delSE (mkC cfg .prod (b.add [(x, n)]) c)) ∧
        den I (delSE (mkC cfg .prod (b.add [(x, n)]) c)) * I.F .SE = den I (comm .prod b c) * (List.replicate n.toNat (I.F x)).prod) := by
    intro x n hn hx
    have hwx : Counter.WF [(x, n)] := by simp [Counter.WF]
    have hpx : Counter.Pos [(x, n)] := by intro p hp; simp only [List.mem_singleton] at hp; subst hp; exact hn
    have hj : RawJoin .prod (comm .prod b c) (comm .prod [(x, n)] []) (comm .prod (b.add [(x, n)]) c) :=
      rawJoin_mk hw (operand_iff.1 (operand_power _ n hn)).1 (Counter.wf_add ho.1 hwx) (Counter.pos_add b [(x, n)])
        (by simpa [els] using Counter.elements_add ho.1 hwx ho.2.1 hpx) (by simp [parts])
    have hd : den I (mkC cfg .prod (b.add [(x, n)]) c) = den I (comm .prod b c) * (List.replicate n.toNat (I.F x)).prod := by
      rw [mkC, den_rawJoin_simplify hI cfg hj h (operand_power _ n hn) ?_]
      · simp only [opFold, List.prod_cons, List.prod_nil, mul_one, den_power]
      · rcases hx with rfl | rfl
        · refine LinSafe.sub ?_ hl.safe
          intro y hy
          rcases List.mem_append.1 hy with hy | hy
          · exact List.mem_cons_of_mem _ hy
          · rw [bases_power hy]; exact List.mem_cons_self
        · have h1 : LinSafe I cfg (bases (comm .prod b c)) := LinSafe.sub (List.subset_cons_self _ _) hl.safe
          rcases h1 with h1 | h1 | h1 | h1
          · exact Or.inl h1
          · refine Or.inr (Or.inl fun h2 => ?_)
            rcases List.mem_append.1 h2 with h2 | h2
            · exact h1 h2
            · exact absurd (bases_power h2) (by decide)
          · refine Or.inr (Or.inr (Or.inl fun h2 => ?_))
            rcases List.mem_append.1 h2 with h2 | h2
            · exact h1 h2
            · exact absurd (bases_power h2) (by decide)
          · exact Or.inr (Or.inr (Or.inr h1))
    refine ⟨fun _ => hd, fun hs => ?_⟩
    obtain ⟨b', cs', e⟩ : ∃ b' cs', mkC cfg .prod (b.add [(x, n)]) c = comm .prod b' cs' := by
      rw [mkC, simplify]
      obtain ⟨_, _, e⟩ := absorb_eq cfg .prod (b.add [(x, n)]) (simplifyL cfg c)
      exact ⟨_, _, e⟩
    have hd' := hd
    rw [e] at hd' ⊢
    refine ⟨by simpa [delSE, els] using del_no_SE b', ?_⟩
    rw [delSE, den_delSE_prod hI, hd']
    rw [hd', mul_right_comm, hdS hs]
  intro D L
  have e2 : (List.replicate (2 : Int).toNat (I.F .LIN)).prod = L * L := by simp [List.replicate_succ, L]
  have e3 : (List.replicate (3 : Int).toNat (I.F .LIN)).prod = L * L * L := by simp [List.replicate_succ, L, mul_assoc]
  have p1 : (List.replicate (1 : Int).toNat (I.F .PER)).prod = I.F .PER := by simp
  have p2 : (List.replicate (2 : Int).toNat (I.F .PER)).prod = I.F .PER * I.F .PER := by simp [List.replicate_succ]
  have k2 := key .LIN 2 (by omega) (Or.inl rfl)
  have k3 := key .LIN 3 (by omega) (Or.inl rfl)
  have k4 := key .PER 1 (by omega) (Or.inr rfl)
  have k5 := key .PER 2 (by omega) (Or.inr rfl)
  rw [e2] at k2; rw [e3] at k3; rw [p1] at k4; rw [p2] at k5
  refine ⟨_, rfl, ?_⟩
  simp only [higherCurves, Counter.pos_eq_self ho.2.1, List.map_cons, List.map_nil, List.cons_append, List.nil_append]
  by_cases hs : Base.SE ∈ b.elements
  · rw [if_pos ((hhas _).2 hs)]
    refine .cons ⟨fun h => absurd hs h, k2.2⟩ (.cons ⟨fun h => absurd hs h, k3.2⟩ (.cons ⟨fun h => absurd hs h, ?_⟩ .nil))
    by_cases hp : Base.PER ∈ b.elements
    · rw [if_pos hp, if_pos ((hhas _).2 hp)]; exact k4.2
    · rw [if_neg hp, if_neg (fun h => hp ((hhas _).1 h))]; exact k5.2
  · rw [if_neg (fun h => hs ((hhas _).1 h))]
    refine .cons ⟨k2.1, fun h => absurd h hs⟩ (.cons ⟨k3.1, fun h => absurd h hs⟩ (.cons ⟨?_, fun h => absurd h hs⟩ .nil))
    by_cases hp : Base.PER ∈ b.elements
    · rw [if_pos hp, if_pos ((hhas _).2 hp)]; exact k4.1
    · rw [if_neg hp, if_neg (fun h => hp ((hhas _).1 h))]; exact k5.1

/-- C71, change operators with branches of any shape (partial likewise): a branch that is a bare base kernel is exchanged for a quadratic and a cubic; no other branch is. -/
theorem C71_any_change_partial (cfg : Cfg) (x : CC) (l r : KE) (h : operand (change x l r) = true) (I : Interp)
    (hl : Reading cfg (.LIN :: bases (change x l r)) I) :
    let D := den I
    let L := I.F .LIN
    (higherCurves cfg (change x l r)).map D =
      (if l.isBase then [chgFam cfg x (L * L) (D r), chgFam cfg x (L * L * L) (D r)] else []) ++
      (if r.isBase then [chgFam cfg x (D l) (L * L), chgFam cfg x (D l) (L * L * L)] else []) := by
  obtain ⟨hol, hor⟩ := operand_change.1 h
  have hs : ∀ a b : KE, operand a = true → operand b = true → bases a ⊆ .LIN :: bases (change x l r) → bases b ⊆ .LIN :: bases (change x l r) →
      den I (mkChange cfg x a b) = chgFam cfg x (den I a) (den I b) := by
    intro a b ha hb sa sb
    rw [mkChange, den_simplify_operand hl.laws cfg (operand_change.2 ⟨ha, hb⟩) (LinSafe.sub ?_ hl.safe), den, hl.chg]
    rw [bases]; exact List.append_subset.2 ⟨sa, sb⟩
  have sl : bases l ⊆ .LIN :: bases (change x l r) := by
    rw [bases]; exact fun y hy => List.mem_cons_of_mem _ (List.mem_append_left _ hy)
  have sr : bases r ⊆ .LIN :: bases (change x l r) := by
    rw [bases]; exact fun y hy => List.mem_cons_of_mem _ (List.mem_append_right _ hy)
  have sp : ∀ n : Int, bases (comm .prod [(.LIN, n)] []) ⊆ .LIN :: bases (change x l r) := fun n y hy => by
    rw [bases_power hy]; exact List.mem_cons_self
  intro D L
  have e2 : den I (comm .prod [(.LIN, 2)] []) = L * L := by rw [den_power]; simp [List.replicate_succ, L]
  have e3 : den I (comm .prod [(.LIN, 3)] []) = L * L * L := by rw [den_power]; simp [List.replicate_succ, L, mul_assoc]
  have o2 := operand_power .LIN 2 (by omega)
  have o3 := operand_power .LIN 3 (by omega)
  simp only [higherCurves, higherKers_eq, List.map_append, List.map_cons, List.map_nil]
  congr 1
  · cases l.isBase
    · rfl
    · simp only [↓reduceIte, List.map_cons, List.map_nil, D, hs _ _ o2 hor (sp 2) sr, hs _ _ o3 hor (sp 3) sr, e2, e3]
  · cases r.isBase
    · rfl
    · simp only [↓reduceIte, List.map_cons, List.map_nil, D, hs _ _ hol o2 sl (sp 2), hs _ _ hol o3 sl (sp 3), e2, e3]

-- SE + (SE + PER), SE * (SE * C * LIN) and CP(SE, PER + (PER + C)), with C
example : operand (comm .sum [(.SE, 1)] [comm .sum [(.SE, 1), (.PER, 1)] []]) = true ∧
    operand (comm .prod [(.SE, 1)] [comm .prod [(.SE, 1), (.C, 1), (.LIN, 1)] []]) = true ∧
    operand (change .CP (base .SE) (comm .sum [(.PER, 1)] [comm .sum [(.PER, 1), (.C, 1)] []])) = true ∧
    ∀ (cfg : Cfg) (bs : List Base), Reading cfg bs (roomyI cfg posV) := ⟨by decide, by decide, by decide, fun _ _ => Or.inl rfl⟩

-- the two SE of SE + (SE + PER) both go
example : (higherCurves .default (comm .sum [(.SE, 1)] [comm .sum [(.SE, 1), (.PER, 1)] []])).map (keq (comm .sum [(.PER, 1)] [comm .prod [(.LIN, 2)] []])) =
    [true, false] := by decide

end GPyABCD
