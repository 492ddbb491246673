import Verif.Lemmas.Ops

namespace GPyABCD
namespace KE

theorem settled_iff {cfg : Cfg} {k : KE} : settled cfg k = true ↔ wf k = true ∧ noEmpty k = true ∧
    allNodes (canonNode cfg) k = true ∧ allBelow (fun n => !n.isSingleton) k = true := by
  simp [settled, and_assoc]

/-- Sub-expression `x` of a settled expression: as settled, and not a one-term node. -/
theorem settled_child {cfg : Cfg} {o : Op} {c : Counter} {cs : List KE} (h : settled cfg (comm o c cs) = true) :
    ∀ x ∈ cs, settled cfg x = true ∧ isSingleton x = false := by
  obtain ⟨hw, he, hc, hb⟩ := settled_iff.1 h
  intro x hx
  simp only [allNodes, Bool.and_eq_true, allNodesL_iff] at hc
  simp only [allBelow, allNodesL_iff] at hb
  have hbx := hb x hx
  refine ⟨settled_iff.2 ⟨((wf_comm.1 hw).2.2 x hx).2, (noEmpty_comm.1 he).2 x hx, hc.2 x hx, ?_⟩, ?_⟩
  · cases x with
    | base b => rfl
    | comm _ _ _ => simp only [allNodes, Bool.and_eq_true] at hbx; exact hbx.2
    | change _ _ _ => simp only [allNodes, Bool.and_eq_true] at hbx; simp only [allBelow, Bool.and_eq_true]; exact ⟨hbx.1.2, hbx.2⟩
  · cases x with
    | base b => rfl
    | comm _ _ _ => simp only [allNodes, Bool.and_eq_true] at hbx; simpa using hbx.1
    | change _ _ _ => rfl

theorem settled_branch {cfg : Cfg} {c : CC} {l r : KE} (h : settled cfg (change c l r) = true) :
    (settled cfg l = true ∧ isSingleton l = false) ∧ settled cfg r = true ∧ isSingleton r = false := by
  obtain ⟨hw, he, hc, hb⟩ := settled_iff.1 h
  simp only [allNodes, Bool.and_eq_true, noEmpty] at hc he
  simp only [allBelow, Bool.and_eq_true] at hb
  have hbb : ∀ {x : KE}, allNodes (fun n => !n.isSingleton) x = true →
      allBelow (fun n => !n.isSingleton) x = true ∧ isSingleton x = false := by
    intro x hbx
    cases x with
    | base b => exact ⟨rfl, rfl⟩
    | comm _ _ _ => simp only [allNodes, Bool.and_eq_true] at hbx; exact ⟨hbx.2, by simpa using hbx.1⟩
    | change _ _ _ =>
      simp only [allNodes, Bool.and_eq_true] at hbx
      exact ⟨by simp only [allBelow, Bool.and_eq_true]; exact ⟨hbx.1.2, hbx.2⟩, rfl⟩
  exact ⟨⟨settled_iff.2 ⟨(wf_change.1 hw).1, he.1.2, hc.1.2, (hbb hb.1).1⟩, (hbb hb.1).2⟩,
    settled_iff.2 ⟨(wf_change.1 hw).2, he.2, hc.2, (hbb hb.2).1⟩, (hbb hb.2).2⟩

/-- In a settled expression constants only occur as single terms. -/
theorem constOnly_settled {cfg : Cfg} {k : KE} (h : settled cfg k = true) (hc : constOnly k = true) :
    k.isBase = true ∨ isSingleton k = true := by
  induction k using KE.ind with
  | base b => exact Or.inl rfl
  | change c l r _ _ => simp [constOnly, changes] at hc
  | comm o c cs ih =>
    obtain ⟨hw, he, hcan, hb⟩ := settled_iff.1 h
    have hch := settled_child h
    simp only [constOnly, Bool.and_eq_true, List.isEmpty_iff, List.all_eq_true, decide_eq_true_eq, changes, bases,
      changesL_eq, basesL_eq, List.flatMap_eq_nil_iff, List.mem_append, List.mem_flatMap] at hc
    have hcs : cs = [] := by
      rcases cs with _ | ⟨x, xs⟩
      · rfl
      · exfalso
        have hx := hch x (by simp)
        have hco : constOnly x = true := by
          simp only [constOnly, Bool.and_eq_true, List.isEmpty_iff, List.all_eq_true, decide_eq_true_eq]
          exact ⟨hc.1 x (by simp), fun b hb => hc.2 b (Or.inr ⟨x, by simp, hb⟩)⟩
        rcases ih x (by simp) hx.1 hco with h1 | h1
        · have := ((wf_comm.1 hw).2.2 x (by simp)).1; rw [h1] at this; simp at this
        · rw [hx.2] at h1; simp at h1
    subst hcs
    right
    have hw' := wf_comm.1 hw
    have hel : c.elements ≠ [] := ((noEmpty_comm.1 he).1).resolve_right (by simp)
    have hall : ∀ b ∈ c.elements, b = .C := fun b hb => hc.2 b (Or.inl hb)
    have hC1 : c.get .C ≤ 1 := by
      simp only [allNodes, Bool.and_eq_true] at hcan
      have hcn := hcan.1
      have hWN : c.get .WN ≤ 0 := by
        by_contra hlt
        have := hall .WN ((Counter.mem_elements hw'.1 _).2 (by omega))
        simp at this
      cases o with
      | sum => simp only [canonNode, Bool.and_eq_true, decide_eq_true_eq] at hcn; exact hcn.1.2
      | prod =>
        have : ¬ 0 < c.get .WN := by omega
        simp only [canonNode, Bool.and_eq_true, decide_eq_true_eq, this, if_false] at hcn
        exact hcn.2.1.2
    have hlen : c.elements.length = c.elements.count .C := by
      rw [eq_comm, List.count_eq_length]; intro b hb; exact (hall b hb).symm
    rw [Counter.count_elements hw'.1] at hlen
    have hpos : 0 < c.elements.length := List.length_pos_of_ne_nil hel
    simp only [isSingleton, List.length_nil, decide_eq_true_eq]
    omega

theorem operand_of_settled {cfg : Cfg} {k : KE} (h : settled cfg k = true) : operand k = true := by
  obtain ⟨hw, he, hcan, hb⟩ := settled_iff.1 h
  refine operand_iff.2 ⟨hw, he, ?_⟩
  clear hcan hb hw he
  induction k using KE.ind with
  | base b => rfl
  | comm o c cs ih =>
    have hch := settled_child h
    have hw := (settled_iff.1 h).1
    refine noConstProd_comm.2 ⟨noConstProdNode_iff.2 ?_, fun k hk => ih k hk (hch k hk).1⟩
    intro _ k hk _
    by_contra hco
    rcases constOnly_settled (hch k hk).1 (by simpa using hco) with h1 | h1
    · have := ((wf_comm.1 hw).2.2 k hk).1; rw [h1] at this; simp at this
    · rw [(hch k hk).2] at h1; simp at h1
  | change c l r hl hr =>
    have hb := settled_branch h
    simp only [noConstProd, allNodes, Bool.and_eq_true]
    exact ⟨⟨rfl, hl hb.1.1⟩, hr hb.2.1⟩

theorem settled_simplify (cfg : Cfg) {k : KE} (h : operand k = true) : settled cfg (simplify cfg k) = true := by
  obtain ⟨hw, he, hc⟩ := operand_iff.1 h
  exact settled_iff.2 ⟨wf_simplify cfg k hw, noEmpty_simplify cfg k hw he hc, canon_simplify cfg k hw, allBelow_simplify cfg k hw⟩

theorem operand_simplify (cfg : Cfg) {k : KE} (h : operand k = true) : operand (simplify cfg k) = true :=
  operand_of_settled (settled_simplify cfg h)

end KE
end GPyABCD

namespace GPyABCD
open scoped Pointwise
namespace KE

theorem operand_comm {o : Op} {c : Counter} {cs : List KE} : operand (comm o c cs) = true ↔
    c.WF ∧ c.Pos ∧ (c.elements ≠ [] ∨ cs ≠ []) ∧ ∀ k ∈ cs, k.isBase = false ∧ operand k = true ∧
      (o = .prod → isComm .prod k = true → constOnly k = false) := by
  rw [operand_iff, wf_comm, noEmpty_comm, noConstProd_comm, noConstProdNode_iff]
  constructor
  · rintro ⟨⟨h1, h2, h3⟩, ⟨h4, h5⟩, h6, h7⟩
    exact ⟨h1, h2, h4, fun k hk => ⟨(h3 k hk).1, operand_iff.2 ⟨(h3 k hk).2, h5 k hk, h7 k hk⟩, fun ho => h6 ho k hk⟩⟩
  · rintro ⟨h1, h2, h4, h⟩
    exact ⟨⟨h1, h2, fun k hk => ⟨(h k hk).1, (operand_iff.1 (h k hk).2.1).1⟩⟩,
      ⟨h4, fun k hk => (operand_iff.1 (h k hk).2.1).2.1⟩, fun ho k hk => (h k hk).2.2 ho,
      fun k hk => (operand_iff.1 (h k hk).2.1).2.2⟩

theorem operand_change {c : CC} {l r : KE} : operand (change c l r) = true ↔ operand l = true ∧ operand r = true := by
  rw [operand_iff, operand_iff, operand_iff, wf_change]
  simp only [noEmpty, noConstProd, allNodes, Bool.and_eq_true, isEmptyNode, noConstProdNode, Bool.not_false]
  tauto

theorem operand_base (b : Base) : operand (base b) = true := rfl

theorem ofList_ne_nil {l : List Base} (h : l ≠ []) : (Counter.ofList l).elements ≠ [] := by
  intro e; have := Counter.elements_ofList l; rw [e] at this; exact h this.symm.eq_nil

theorem operand_mkL_names (cfg : Cfg) (o : Op) {l : List Base} (h : l ≠ []) : operand (mkL cfg o l []) = true :=
  operand_simplify cfg (operand_comm.2 ⟨Counter.wf_ofList l, Counter.pos_ofList l, Or.inl (ofList_ne_nil h), by simp⟩)

theorem isComm_mkL (cfg : Cfg) (o op : Op) (l : List Base) (cs : List KE) : isComm op (mkL cfg o l cs) = decide (o = op) :=
  isComm_simplify cfg op _

theorem isBase_mkL (cfg : Cfg) (o : Op) (l : List Base) (cs : List KE) : (mkL cfg o l cs).isBase = false :=
  isBase_simplify cfg _

theorem den_mkL_names {I : Interp} (hI : Laws I) (cfg : Cfg) (o : Op) {l : List Base} (h : l ≠ [])
    (hl : LinSafe I cfg l) : den I (mkL cfg o l []) = opFold o (l.map I.F) := by
  have hp := Counter.elements_ofList l
  have hop : operand (comm o (Counter.ofList l) []) = true :=
    operand_comm.2 ⟨Counter.wf_ofList l, Counter.pos_ofList l, Or.inl (ofList_ne_nil h), by simp⟩
  have hb : bases (comm o (Counter.ofList l) []) = (Counter.ofList l).elements := by simp [bases, basesL]
  rw [mkL, mkC, den_simplify_operand hI cfg hop (by rw [hb]; exact (LinSafe.perm hp).2 hl)]
  simp only [den, denL, List.append_nil]
  exact opFold_perm o (hp.map I.F)

/-- Taking a base term out of a sum or product. -/
theorem den_take {I : Interp} {o : Op} {c c' : Counter} {cs : List KE} {b : Base}
    (h : (b :: c'.elements).Perm c.elements) :
    den I (comm o c cs) = opFold o [I.F b, den I (comm o c' cs)] := by
  simp only [den, denL_eq]
  rw [opFold_perm o (List.Perm.append_right _ ((h.map I.F).symm))]
  cases o <;> simp [opFold]

/-- Adding a composite term to a sum or product. -/
theorem den_snoc {I : Interp} {o : Op} {c : Counter} {cs : List KE} {x : KE} :
    den I (comm o c (cs ++ [x])) = opFold o [den I (comm o c cs), den I x] := by
  simp only [den, denL_eq, List.map_append, ← List.append_assoc]
  cases o <;> simp [opFold, add_assoc, mul_assoc]

theorem bases_mem_comm {o : Op} {c : Counter} {cs : List KE} {x : Base} :
    x ∈ bases (comm o c cs) ↔ x ∈ c.elements ∨ ∃ k ∈ cs, x ∈ bases k := by
  simp [bases, basesL_eq]

theorem bases_mkL_names {cfg : Cfg} {o : Op} {l : List Base} : bases (mkL cfg o l []) ⊆ l := by
  have h := bases_simplify cfg (comm o (Counter.ofList l) []) (wf_comm.2 ⟨Counter.wf_ofList l, Counter.pos_ofList l, by simp⟩)
  intro x hx
  have := h.subset hx
  simp only [bases, basesL, List.append_nil] at this
  exact (Counter.elements_ofList l).subset this

/-- One term of a sum or product exchanged for a composite made with another base kernel: the raw node. -/
theorem nested_operand {cfg : Cfg} {o o' : Op} {a bt : Base} {b : Counter} {c : List KE}
    (h : operand (comm o b c) = true) (ho : o' ≠ o) :
    operand (comm o (b.pos.sub (Counter.ofList [bt])) (c ++ [mkL cfg o' [a, bt] []])) = true := by
  obtain ⟨hw, hp, _, hc⟩ := operand_comm.1 h
  refine operand_comm.2 ⟨Counter.wf_sub (Counter.wf_pos hw) (Counter.wf_ofList _), Counter.pos_sub _ _, Or.inr (by simp), ?_⟩
  intro k hk
  rcases List.mem_append.1 hk with hk | hk
  · exact hc k hk
  · simp only [List.mem_singleton] at hk; subst hk
    refine ⟨isBase_mkL .., operand_mkL_names cfg o' (by simp), ?_⟩
    rintro rfl hcm
    rw [isComm_mkL] at hcm; simp at hcm; exact absurd hcm ho

theorem nested_den {I : Interp} (hI : Laws I) {cfg : Cfg} {o o' : Op} {a bt : Base} {b : Counter} {c : List KE}
    (h : operand (comm o b c) = true) (ho : o' ≠ o) (hbt : bt ∈ b.elements)
    (hl : LinSafe I cfg (a :: bases (comm o b c))) :
    ∃ X, den I (comm o b c) = opFold o [I.F bt, X] ∧
      den I (mkC cfg o (b.pos.sub (Counter.ofList [bt])) (c ++ [mkL cfg o' [a, bt] []])) =
        opFold o [opFold o' [I.F a, I.F bt], X] := by
  obtain ⟨hw, hp, _, hc⟩ := operand_comm.1 h
  have hpb := Counter.pos_eq_self hp
  have hel := Counter.elements_sub_one hw hp hbt
  have hsub : ∀ x ∈ (b.pos.sub (Counter.ofList [bt])).elements, x ∈ b.elements := by
    rw [hpb]; intro x hx; exact hel.subset (List.mem_cons_of_mem _ hx)
  refine ⟨den I (comm o (b.pos.sub (Counter.ofList [bt])) c), by rw [hpb]; exact den_take hel, ?_⟩
  have hl2 : LinSafe I cfg [a, bt] := LinSafe.sub (by
    intro x hx
    simp only [List.mem_cons, List.not_mem_nil, or_false] at hx
    rcases hx with rfl | rfl
    · simp
    · exact List.mem_cons_of_mem _ (bases_mem_comm.2 (Or.inl hbt))) hl
  rw [mkC, den_simplify_operand hI cfg (nested_operand h ho), den_snoc, den_mkL_names hI cfg o' (by simp) hl2]
  · cases o <;> cases o' <;> simp [opFold, add_comm, mul_comm]
  · refine LinSafe.sub ?_ hl
    intro x hx
    rcases bases_mem_comm.1 hx with hx | ⟨k, hk, hx⟩
    · exact List.mem_cons_of_mem _ (bases_mem_comm.2 (Or.inl (hsub x hx)))
    · rcases List.mem_append.1 hk with hk | hk
      · exact List.mem_cons_of_mem _ (bases_mem_comm.2 (Or.inr ⟨k, hk, hx⟩))
      · simp only [List.mem_singleton] at hk; subst hk
        have := bases_mkL_names hx
        simp only [List.mem_cons, List.not_mem_nil, or_false] at this
        rcases this with rfl | rfl
        · simp
        · exact List.mem_cons_of_mem _ (bases_mem_comm.2 (Or.inl hbt))

end KE
end GPyABCD
