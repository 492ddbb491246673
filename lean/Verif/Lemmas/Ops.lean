import Verif.Model.Ops
import Verif.Spec.Ops
import Verif.Lemmas.SameCong
import Verif.Lemmas.Sem

namespace GPyABCD
open scoped Pointwise
open KE

namespace Counter

theorem elements_add {c d : Counter} (hc : c.WF) (hd : d.WF) (pc : c.Pos) (pd : d.Pos) :
    (c.add d).elements.Perm (c.elements ++ d.elements) := by
  rw [List.perm_iff_count]; intro b
  rw [List.count_append, count_elements (wf_add hc hd), count_elements hc, count_elements hd, get_add hc hd]
  have := pc.nonneg b; have := pd.nonneg b; omega

theorem elements_ofList (l : List Base) : (ofList l).elements.Perm l := by
  rw [List.perm_iff_count]; intro b
  rw [count_elements (wf_ofList l), get_ofList]; omega

theorem elements_sub_one {c : Counter} (hc : c.WF) (pc : c.Pos) {b : Base} (h : b ∈ c.elements) :
    (b :: (c.sub (ofList [b])).elements).Perm c.elements := by
  rw [List.perm_iff_count]; intro x
  rw [List.count_cons, count_elements (wf_sub hc (wf_ofList _)), count_elements hc, get_sub hc (wf_ofList _), get_ofList]
  have := pc.nonneg x
  have hb := (mem_elements hc b).1 h
  by_cases e : b = x
  · subst e; simp; omega
  · have : (x == b) = false := by simpa using Ne.symm e
    simp [e]; omega

end Counter

namespace KE

theorem operand_iff {k : KE} : operand k = true ↔ wf k = true ∧ noEmpty k = true ∧ noConstProd k = true := by
  simp [operand, and_assoc]

theorem wf_parts {op : Op} {k : KE} (h : wf k = true) : ∀ x ∈ parts op k, x.isBase = false ∧ wf x = true := by
  cases k with
  | base b => simp [parts]
  | comm o b cs =>
    simp only [parts]
    split
    · exact (wf_comm.1 h).2.2
    · intro x hx; simp only [List.mem_singleton] at hx; subst hx; exact ⟨rfl, h⟩
  | change c l r => intro x hx; simp only [parts, List.mem_singleton] at hx; subst hx; exact ⟨rfl, h⟩

/-- Well-formed raw joins. -/
structure RawJoin (op : Op) (k1 k2 R : KE) : Prop where
  wf : wf R = true
  joins : Joins op k1 k2 R

theorem rawJoin_mk {op : Op} {k1 k2 : KE} {b : Counter} {cs : List KE} (h1 : KE.wf k1 = true) (h2 : KE.wf k2 = true)
    (hb : b.WF) (pb : b.Pos) (he : b.elements.Perm (els op k1 ++ els op k2))
    (hc : cs.Perm (parts op k1 ++ parts op k2)) : RawJoin op k1 k2 (comm op b cs) := by
  refine ⟨wf_comm.2 ⟨hb, pb, ?_⟩, b, cs, rfl, he, hc⟩
  intro k hk
  rcases List.mem_append.1 (hc.subset hk) with h | h
  · exact wf_parts h1 k h
  · exact wf_parts h2 k h

theorem addRes_raw (cfg : Cfg) (k1 k2 : KE) (h1 : wf k1 = true) (h2 : wf k2 = true) :
    ∃ R, addRes cfg k1 k2 = simplify cfg R ∧ RawJoin .sum k1 k2 R := by
  have ep := @Counter.pos_eq_self
  have wl := Counter.wf_ofList
  have pl := Counter.pos_ofList
  cases k1 with
  | base a =>
    cases k2 with
    | base b =>
      exact ⟨_, rfl, rawJoin_mk h1 h2 (wl _) (pl _) (Counter.elements_ofList _) (by simp [parts])⟩
    | comm o b c =>
      have w := wf_comm.1 h2
      cases o with
      | sum =>
        refine ⟨_, rfl, rawJoin_mk h1 h2 (Counter.wf_add (Counter.wf_pos w.1) (wl _)) (Counter.pos_add _ _) ?_ (by simp [parts])⟩
        rw [ep w.2.1]
        refine (Counter.elements_add w.1 (wl _) w.2.1 (pl _)).trans ?_
        simp only [els, if_true]
        exact List.perm_append_comm.trans (List.Perm.append_right _ (Counter.elements_ofList _))
      | prod =>
        exact ⟨_, rfl, rawJoin_mk h1 h2 (wl _) (pl _) (Counter.elements_ofList _) (by simp [parts])⟩
    | change x l r =>
      exact ⟨_, rfl, rawJoin_mk h1 h2 (wl _) (pl _) (Counter.elements_ofList _) (by simp [parts])⟩
  | comm o b c =>
    have w := wf_comm.1 h1
    cases k2 with
    | base a =>
      cases o with
      | sum =>
        refine ⟨_, rfl, rawJoin_mk h1 h2 (Counter.wf_add (Counter.wf_pos w.1) (wl _)) (Counter.pos_add _ _) ?_ (by simp [parts])⟩
        rw [ep w.2.1]
        refine (Counter.elements_add w.1 (wl _) w.2.1 (pl _)).trans ?_
        simp only [els, if_true]
        exact (List.Perm.append_left _ (Counter.elements_ofList _))
      | prod =>
        exact ⟨_, rfl, rawJoin_mk h1 h2 (wl _) (pl _) (Counter.elements_ofList _) (by simp [parts])⟩
    | comm o' b' c' =>
      have w' := wf_comm.1 h2
      cases o <;> cases o'
      · refine ⟨_, rfl, rawJoin_mk h1 h2 (Counter.wf_add (Counter.wf_pos w.1) w'.1) (Counter.pos_add _ _) ?_ (by simp [parts])⟩
        rw [ep w.2.1]
        simpa [els] using Counter.elements_add w.1 w'.1 w.2.1 w'.2.1
      · refine ⟨_, rfl, rawJoin_mk h1 h2 (Counter.wf_pos w.1) (Counter.pos_pos _) ?_ (by simp [parts])⟩
        rw [ep w.2.1]; simp [els]
      · refine ⟨_, rfl, rawJoin_mk h1 h2 (Counter.wf_pos w'.1) (Counter.pos_pos _) ?_ ?_⟩
        · rw [ep w'.2.1]; simp [els]
        · simp [parts]
      · exact ⟨_, rfl, rawJoin_mk h1 h2 (wl _) (pl _) (Counter.elements_ofList _) (by simp [parts])⟩
    | change x l r =>
      cases o with
      | sum =>
        refine ⟨_, rfl, rawJoin_mk h1 h2 (Counter.wf_pos w.1) (Counter.pos_pos _) ?_ (by simp [parts])⟩
        rw [ep w.2.1]; simp [els]
      | prod =>
        exact ⟨_, rfl, rawJoin_mk h1 h2 (wl _) (pl _) (Counter.elements_ofList _) (by simp [parts])⟩
  | change x l r =>
    cases k2 with
    | base a =>
      exact ⟨_, rfl, rawJoin_mk h1 h2 (wl _) (pl _) (Counter.elements_ofList _) (by simp [parts])⟩
    | comm o b c =>
      have w := wf_comm.1 h2
      cases o with
      | sum =>
        refine ⟨_, rfl, rawJoin_mk h1 h2 (Counter.wf_pos w.1) (Counter.pos_pos _) ?_ ?_⟩
        · rw [ep w.2.1]; simp [els]
        · simp [parts]
      | prod =>
        exact ⟨_, rfl, rawJoin_mk h1 h2 (wl _) (pl _) (Counter.elements_ofList _) (by simp [parts])⟩
    | change x' l' r' =>
      exact ⟨_, rfl, rawJoin_mk h1 h2 (wl _) (pl _) (Counter.elements_ofList _) (by simp [parts])⟩

theorem mulRes_raw (cfg : Cfg) (k1 k2 : KE) (h1 : wf k1 = true) (h2 : wf k2 = true) :
    ∃ R, mulRes cfg k1 k2 = simplify cfg R ∧ RawJoin .prod k1 k2 R := by
  have ep := @Counter.pos_eq_self
  have wl := Counter.wf_ofList
  have pl := Counter.pos_ofList
  cases k1 with
  | base a =>
    cases k2 with
    | base b =>
      exact ⟨_, rfl, rawJoin_mk h1 h2 (wl _) (pl _) (Counter.elements_ofList _) (by simp [parts])⟩
    | comm o b c =>
      have w := wf_comm.1 h2
      cases o with
      | prod =>
        refine ⟨_, rfl, rawJoin_mk h1 h2 (Counter.wf_add (Counter.wf_pos w.1) (wl _)) (Counter.pos_add _ _) ?_ (by simp [parts])⟩
        rw [ep w.2.1]
        refine (Counter.elements_add w.1 (wl _) w.2.1 (pl _)).trans ?_
        simp only [els, if_true]
        exact List.perm_append_comm.trans (List.Perm.append_right _ (Counter.elements_ofList _))
      | sum =>
        exact ⟨_, rfl, rawJoin_mk h1 h2 (wl _) (pl _) (Counter.elements_ofList _) (by simp [parts])⟩
    | change x l r =>
      exact ⟨_, rfl, rawJoin_mk h1 h2 (wl _) (pl _) (Counter.elements_ofList _) (by simp [parts])⟩
  | comm o b c =>
    have w := wf_comm.1 h1
    cases k2 with
    | base a =>
      cases o with
      | prod =>
        refine ⟨_, rfl, rawJoin_mk h1 h2 (Counter.wf_add (Counter.wf_pos w.1) (wl _)) (Counter.pos_add _ _) ?_ (by simp [parts])⟩
        rw [ep w.2.1]
        refine (Counter.elements_add w.1 (wl _) w.2.1 (pl _)).trans ?_
        simp only [els, if_true]
        exact (List.Perm.append_left _ (Counter.elements_ofList _))
      | sum =>
        exact ⟨_, rfl, rawJoin_mk h1 h2 (wl _) (pl _) (Counter.elements_ofList _) (by simp [parts])⟩
    | comm o' b' c' =>
      have w' := wf_comm.1 h2
      cases o <;> cases o'
      · exact ⟨_, rfl, rawJoin_mk h1 h2 (wl _) (pl _) (Counter.elements_ofList _) (by simp [parts])⟩
      · refine ⟨_, rfl, rawJoin_mk h1 h2 (Counter.wf_pos w'.1) (Counter.pos_pos _) ?_ ?_⟩
        · rw [ep w'.2.1]; simp [els]
        · simp [parts]
      · refine ⟨_, rfl, rawJoin_mk h1 h2 (Counter.wf_pos w.1) (Counter.pos_pos _) ?_ (by simp [parts])⟩
        rw [ep w.2.1]; simp [els]
      · refine ⟨_, rfl, rawJoin_mk h1 h2 (Counter.wf_add (Counter.wf_pos w.1) w'.1) (Counter.pos_add _ _) ?_ (by simp [parts])⟩
        rw [ep w.2.1]
        simpa [els] using Counter.elements_add w.1 w'.1 w.2.1 w'.2.1
    | change x l r =>
      cases o with
      | prod =>
        refine ⟨_, rfl, rawJoin_mk h1 h2 (Counter.wf_pos w.1) (Counter.pos_pos _) ?_ (by simp [parts])⟩
        rw [ep w.2.1]; simp [els]
      | sum =>
        exact ⟨_, rfl, rawJoin_mk h1 h2 (wl _) (pl _) (Counter.elements_ofList _) (by simp [parts])⟩
  | change x l r =>
    cases k2 with
    | base a =>
      exact ⟨_, rfl, rawJoin_mk h1 h2 (wl _) (pl _) (Counter.elements_ofList _) (by simp [parts])⟩
    | comm o b c =>
      have w := wf_comm.1 h2
      cases o with
      | prod =>
        refine ⟨_, rfl, rawJoin_mk h1 h2 (Counter.wf_pos w.1) (Counter.pos_pos _) ?_ ?_⟩
        · rw [ep w.2.1]; simp [els]
        · simp [parts]
      | sum =>
        exact ⟨_, rfl, rawJoin_mk h1 h2 (wl _) (pl _) (Counter.elements_ofList _) (by simp [parts])⟩
    | change x' l' r' =>
      exact ⟨_, rfl, rawJoin_mk h1 h2 (wl _) (pl _) (Counter.elements_ofList _) (by simp [parts])⟩

/-- Families of the terms of an operand. -/
theorem opFold_terms (I : Interp) (op : Op) (k : KE) :
    opFold op ((els op k).map I.F ++ (parts op k).map (den I)) = den I k := by
  cases k with
  | base b => cases op <;> simp [els, parts, opFold, den]
  | comm o b cs =>
    simp only [els, parts]
    split
    · rename_i h; subst h; simp [den, denL_eq]
    · cases op <;> simp [opFold]
  | change c l r => cases op <;> simp [els, parts, opFold]

theorem opFold_perm (o : Op) {l m : List Fam} (h : l.Perm m) : opFold o l = opFold o m := by
  cases o
  · exact h.sum_eq
  · exact h.prod_eq

theorem opFold_append (o : Op) (l m : List Fam) :
    opFold o (l ++ m) = opFold o [opFold o l, opFold o m] := by cases o <;> simp [opFold]

theorem den_joins {I : Interp} {op : Op} {k1 k2 R : KE} (h : Joins op k1 k2 R) :
    den I R = opFold op [den I k1, den I k2] := by
  obtain ⟨b, cs, rfl, he, hc⟩ := h
  rw [← opFold_terms I op k1, ← opFold_terms I op k2, ← opFold_append, den, denL_eq]
  apply opFold_perm
  refine ((he.map I.F).append (hc.map (den I))).trans ?_
  simp only [List.map_append, List.append_assoc]
  refine List.Perm.append_left _ ?_
  simp only [← List.append_assoc]
  exact List.Perm.append_right _ List.perm_append_comm

theorem bases_joins {op : Op} {k1 k2 R : KE} (h : Joins op k1 k2 R) :
    (bases R).Perm (bases k1 ++ bases k2) := by
  obtain ⟨b, cs, rfl, he, hc⟩ := h
  have key : ∀ k : KE, (bases k) = els op k ++ (parts op k).flatMap bases := by
    intro k
    cases k with
    | base b => simp [bases, els, parts]
    | comm o b cs =>
      simp only [els, parts]
      split
      · rename_i h; subst h; simp [bases, basesL_eq]
      · simp
    | change c l r => simp [els, parts]
  rw [key k1, key k2, bases, basesL_eq]
  refine (he.append (hc.flatMap_right bases)).trans ?_
  simp only [List.flatMap_append, List.append_assoc]
  refine List.Perm.append_left _ ?_
  simp only [← List.append_assoc]
  exact List.Perm.append_right _ List.perm_append_comm

theorem noEmpty_comm {o : Op} {c : Counter} {cs : List KE} :
    noEmpty (comm o c cs) = true ↔ (c.elements ≠ [] ∨ cs ≠ []) ∧ ∀ k ∈ cs, noEmpty k = true := by
  simp only [noEmpty, allNodes, Bool.and_eq_true, allNodesL_iff, isEmptyNode, Bool.not_eq_true', Bool.and_eq_false_iff,
    decide_eq_false_iff_not, List.isEmpty_eq_false_iff]

theorem noConstProd_comm {o : Op} {c : Counter} {cs : List KE} :
    noConstProd (comm o c cs) = true ↔ noConstProdNode (comm o c cs) = true ∧ ∀ k ∈ cs, noConstProd k = true := by
  simp only [noConstProd, allNodes, Bool.and_eq_true, allNodesL_iff]

theorem noConstProdNode_iff {o : Op} {c : Counter} {cs : List KE} : noConstProdNode (comm o c cs) = true ↔
    (o = .prod → ∀ k ∈ cs, isComm .prod k = true → constOnly k = false) := by
  cases o with
  | sum => simp [noConstProdNode]
  | prod =>
    simp only [noConstProdNode, List.all_eq_true, Bool.not_eq_true', Bool.and_eq_false_iff, true_imp_iff]
    refine forall₂_congr fun k _ => ?_
    cases isComm .prod k <;> simp

theorem operand_parts {op : Op} {k : KE} (h : operand k = true) :
    (els op k ≠ [] ∨ parts op k ≠ []) ∧ ∀ x ∈ parts op k, noEmpty x = true ∧ noConstProd x = true ∧
      (op = .prod → isComm .prod x = true → constOnly x = false) := by
  obtain ⟨hw, he, hc⟩ := operand_iff.1 h
  cases k with
  | base b => simp [els, parts]
  | comm o b cs =>
    simp only [els, parts]
    split
    · rename_i ho; subst ho
      have h1 := noEmpty_comm.1 he
      have h2 := noConstProd_comm.1 hc
      refine ⟨h1.1, fun x hx => ⟨h1.2 x hx, h2.2 x hx, fun ho => noConstProdNode_iff.1 h2.1 ho x hx⟩⟩
    · rename_i ho
      refine ⟨Or.inr (by simp), ?_⟩
      intro x hx; simp only [List.mem_singleton] at hx; subst hx
      refine ⟨he, hc, ?_⟩
      rintro rfl hx
      simp [isComm] at hx; exact absurd hx ho
  | change c l r =>
    refine ⟨Or.inr (by simp [parts]), ?_⟩
    intro x hx; simp only [parts, List.mem_singleton] at hx; subst hx
    exact ⟨he, hc, fun _ hx => by simp [isComm] at hx⟩

theorem operand_joins {op : Op} {k1 k2 R : KE} (h : RawJoin op k1 k2 R) (h1 : operand k1 = true)
    (h2 : operand k2 = true) : operand R = true := by
  obtain ⟨hw, b, cs, rfl, he, hc⟩ := h
  have p1 := operand_parts (op := op) h1
  have p2 := operand_parts (op := op) h2
  refine operand_iff.2 ⟨hw, noEmpty_comm.2 ⟨?_, ?_⟩, noConstProd_comm.2 ⟨noConstProdNode_iff.2 ?_, ?_⟩⟩
  · rcases p1.1 with h | h
    · left; intro e; rw [e] at he; have := he.symm.eq_nil; simp [h] at this
    · right; intro e; rw [e] at hc; have := hc.symm.eq_nil; simp [h] at this
  · intro k hk
    rcases List.mem_append.1 (hc.subset hk) with h | h
    · exact (p1.2 k h).1
    · exact (p2.2 k h).1
  · rintro ho k hk
    rcases List.mem_append.1 (hc.subset hk) with h | h
    · exact (p1.2 k h).2.2 ho
    · exact (p2.2 k h).2.2 ho
  · intro k hk
    rcases List.mem_append.1 (hc.subset hk) with h | h
    · exact (p1.2 k h).2.1
    · exact (p2.2 k h).2.1

/-- Simplification of an operand keeps its family. -/
theorem den_simplify_operand {I : Interp} (hI : Laws I) (cfg : Cfg) {k : KE} (h : operand k = true)
    (hl : LinSafe I cfg (bases k)) : den I (simplify cfg k) = den I k := by
  obtain ⟨hw, he, hc⟩ := operand_iff.1 h
  exact den_simplify hI cfg k hw he (noEmpty_simplify cfg k hw he hc) hl

theorem den_rawJoin_simplify {I : Interp} (hI : Laws I) (cfg : Cfg) {op : Op} {k1 k2 R : KE} (h : RawJoin op k1 k2 R)
    (h1 : operand k1 = true) (h2 : operand k2 = true) (hl : LinSafe I cfg (bases k1 ++ bases k2)) :
    den I (simplify cfg R) = opFold op [den I k1, den I k2] := by
  rw [den_simplify_operand hI cfg (operand_joins h h1 h2) ((LinSafe.perm (bases_joins h.joins)).2 hl), den_joins h.joins]

theorem els_parts_same_of_joins {op : Op} {k1 k2 R R' : KE} (h : RawJoin op k1 k2 R) (h' : RawJoin op k2 k1 R') :
    Same R R' := by
  obtain ⟨hw, b, cs, rfl, he, hc⟩ := h
  obtain ⟨hw', b', cs', rfl, he', hc'⟩ := h'
  have hp : b.elements.Perm b'.elements := he.trans (List.perm_append_comm.trans he'.symm)
  have hcp : cs.Perm cs' := hc.trans (List.perm_append_comm.trans hc'.symm)
  refine SameL.same ?_ (SameL.of_perm hcp)
  intro x
  have := hp.count_eq x
  rw [Counter.count_elements (wf_comm.1 hw).1, Counter.count_elements (wf_comm.1 hw').1] at this
  have := (wf_comm.1 hw).2.1.nonneg x
  have := (wf_comm.1 hw').2.1.nonneg x
  omega

end KE
end GPyABCD
