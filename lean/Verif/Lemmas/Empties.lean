import Verif.Lemmas.Empty

/-!
# Lemmas: exactly when simplification empties an expression
-/

namespace GPyABCD
namespace KE

theorem vanishesL_iff {b : Bool} {ks : List KE} : vanishesL b ks = true ↔ ∃ k ∈ ks, vanishes b k = true := by
  induction ks with
  | nil => simp [vanishesL]
  | cons k ks ih => simp [vanishesL, ih]

/-- No empty node among the terms. -/
def fullBelow (k : KE) : Bool := match k with
  | comm _ _ cs => cs.all noEmpty
  | change _ l r => noEmpty l && noEmpty r
  | base _ => true

theorem noEmpty_eq (k : KE) : noEmpty k = (!k.isEmptyNode && fullBelow k) := by
  cases k with
  | base b => rfl
  | comm o c cs =>
    rw [Bool.eq_iff_iff]
    simp [noEmpty, allNodes, allNodesL_iff, fullBelow]
  | change c l r => simp [noEmpty, allNodes, fullBelow, isEmptyNode]

theorem noEmpty_extract_iff {k : KE} (hw : wf k = true) : noEmpty (extract k) = noEmpty k := by
  rcases extract_cases hw with ⟨_, e⟩ | ⟨o, b, rfl, e⟩ | ⟨o, ct, rfl, e⟩
  · rw [e]
  · rw [e]; simp [noEmpty, allNodes, allNodesL, isEmptyNode, Counter.elements]
  · rw [e]; simp [noEmpty, allNodes, allNodesL, isEmptyNode]

theorem vanishes_flag {k : KE} (h : isComm .prod k = false) (b : Bool) : vanishes b k = vanishes false k := by
  cases k with
  | base _ => rfl
  | change _ _ _ => rfl
  | comm o c cs =>
    cases o with
    | sum => simp [vanishes, vanishing]
    | prod => simp [isComm] at h

/-- The base terms of products of products of constants vanish. -/
theorem absorbBts_vanish {cfg : Cfg} : ∀ {ns : List (Counter × Nat)} {b : Counter}, b.WF → b.Pos → (∀ p ∈ ns, p.1.WF ∧ p.1.Pos) →
    (∀ x, x ≠ Base.C → b.get x = 0) → (∀ p ∈ ns, ∀ x, x ≠ Base.C → p.1.get x = 0) → (ns = [] → b.get .C = 0) →
    ∀ x, (absorbBts cfg .prod b ns).get x = 0
  | [], b, _, _, _, h1, _, h3 => by
    intro x
    by_cases hx : x = .C
    · subst hx; exact h3 rfl
    · exact h1 x hx
  | (hb, m) :: ns, b, hw, hp, hns, h1, h2, h3 => by
    simp only [absorbBts]
    obtain ⟨w1, p1⟩ := hns (hb, m) (by simp)
    have wU := Counter.wf_updateMap hw hb
    have pU := Counter.pos_updateMap hp p1
    have gU := fun x => Counter.get_updateMap b (m := hb) w1 x
    have hz : ∀ x, x ≠ Base.C → (b.updateMap hb).get x = 0 := by
      intro x hx; rw [gU, h1 x hx, h2 (hb, m) (by simp) x hx]; rfl
    have key : ∀ x, (simplifyBase cfg .prod (b.updateMap hb) (m + 1)).get x = 0 := by
      intro x
      have h4 := get_simplifyBase_le (cfg := cfg) (op := .prod) (n := m + 1) wU pU x
      have h5 := (pos_simplifyBase (cfg := cfg) (op := .prod) (c := b.updateMap hb) (n := m + 1)).nonneg x
      by_cases hx : x = .C
      · subst hx
        have h6 := get_simplifyBaseProd_noWN (n := m + 1) wU pU.nonneg (hz .WN (by decide)) .C
        simp only [simplifyBase] at h5 ⊢
        rw [h6]
        simp
      · have := hz x hx; omega
    exact absorbBts_vanish (wf_simplifyBase wU) pos_simplifyBase (fun p hp => hns p (by simp [hp])) (fun x _ => key x)
      (fun p hp => h2 p (by simp [hp])) (fun _ => key .C)

theorem rest_all {cfg : Cfg} {o : Op} {cs : List KE} (h : ∀ k ∈ cs, k.isBase = false ∧ wf k = true) :
    (restOf (flat o (cs.map (simplify cfg)))).all noEmpty = true ↔
      ∀ y ∈ cs, (if isComm o y = true then fullBelow (simplify cfg y) else noEmpty (simplify cfg y)) = true := by
  have hm := wf_mem_map_simplify (cfg := cfg) h
  have hx : (restOf (flat o (cs.map (simplify cfg)))).all noEmpty = true ↔ ∀ x ∈ flat o (cs.map (simplify cfg)), noEmpty x = true := by
    rw [List.all_eq_true]
    constructor
    · intro h1 x hx
      have hw := (wf_of_mem_flat hm x hx).2
      rw [← noEmpty_extract_iff hw]
      cases hb : (extract x).isBase with
      | true => cases he : extract x <;> rw [he] at hb <;> first | rfl | simp [isBase] at hb
      | false => exact h1 _ (mem_restOf.2 ⟨⟨x, hx, rfl⟩, hb⟩)
    · intro h1 k hk
      obtain ⟨⟨x, hx, rfl⟩, _⟩ := mem_restOf.1 hk
      rw [noEmpty_extract_iff (wf_of_mem_flat hm x hx).2]
      exact h1 x hx
  rw [hx]
  constructor
  · intro h1 y hy
    split
    · rename_i hc
      rw [← isComm_simplify cfg] at hc
      obtain ⟨c', xs, e⟩ := isComm_iff.1 hc
      rw [e]
      simp only [fullBelow, List.all_eq_true]
      intro x hx'
      exact h1 x (mem_flat.2 (Or.inr ⟨_, List.mem_map.2 ⟨y, hy, rfl⟩, hc, by rw [e]; exact hx'⟩))
    · rename_i hc
      exact h1 _ (mem_flat.2 (Or.inl ⟨List.mem_map.2 ⟨y, hy, rfl⟩, by rw [isComm_simplify]; simpa using hc⟩))
  · intro h1 x hx'
    rcases mem_flat.1 hx' with ⟨h2, h3⟩ | ⟨z, h2, h3, h4⟩
    · obtain ⟨y, hy, rfl⟩ := List.mem_map.1 h2
      rw [isComm_simplify] at h3
      have := h1 y hy
      rw [h3] at this
      simpa using this
    · obtain ⟨y, hy, rfl⟩ := List.mem_map.1 h2
      have := h1 y hy
      rw [isComm_simplify] at h3
      rw [if_pos h3] at this
      rw [← isComm_simplify cfg] at h3
      obtain ⟨c', xs, e⟩ := isComm_iff.1 h3
      rw [e] at this h4
      simp only [fullBelow, List.all_eq_true] at this
      exact this x h4

theorem constOnly_mem {o : Op} {c : Counter} {cs : List KE} (h : constOnly (comm o c cs) = true) :
    (∀ b ∈ c.elements, b = .C) ∧ ∀ k ∈ cs, constOnly k = true := by
  simp only [constOnly, Bool.and_eq_true, List.isEmpty_iff, List.all_eq_true, decide_eq_true_eq, changes, bases, changesL_eq, basesL_eq,
    List.mem_append, List.mem_flatMap, List.flatMap_eq_nil_iff] at h ⊢
  exact ⟨fun b hb => h.2 b (Or.inl hb), fun k hk => ⟨h.1 k hk, fun b hb => h.2 b (Or.inr ⟨k, hk, hb⟩)⟩⟩

/-- A simplified node of constants only and without composite terms has one term at most. -/
theorem const_leaf {cfg : Cfg} {k : KE} (hw : wf k = true) (hb : k.isBase = false) (hc : constOnly k = true) (ht : ctsOf (simplify cfg k) = []) :
    ∃ o c, simplify cfg k = comm o c [] ∧ (∀ x, x ≠ .C → c.get x = 0) ∧ (isEmptyNode (simplify cfg k) = false → extract (simplify cfg k) = base .C) := by
  cases k with
  | base _ => simp [isBase] at hb
  | change c l r => simp [constOnly, changes] at hc
  | comm o c cs =>
    have hws := wf_simplify cfg _ hw
    have hcan := canon_simplify cfg _ hw
    have hsub := (bases_simplify cfg _ hw).subset
    have hkind : isComm o (simplify cfg (comm o c cs)) = true := by rw [isComm_simplify]; simp [isComm]
    obtain ⟨c', xs, e⟩ := isComm_iff.1 hkind
    rw [e] at ht hws hcan hsub ⊢
    simp only [ctsOf] at ht
    subst ht
    have hwc := (wf_comm.1 hws).1
    have hpc := (wf_comm.1 hws).2.1
    have hC : ∀ x, x ≠ .C → c'.get x = 0 := by
      intro x hx
      by_contra h0
      have := hpc.nonneg x
      have h2 : x ∈ bases (comm o c cs) := hsub (by
        simp only [bases, basesL, List.append_nil]
        exact (Counter.mem_elements hwc x).2 (by omega))
      simp only [constOnly, Bool.and_eq_true, List.all_eq_true, decide_eq_true_eq] at hc
      exact hx (hc.2 x h2)
    refine ⟨o, c', rfl, hC, ?_⟩
    intro hne
    rw [isEmptyNode_comm hwc] at hne
    obtain ⟨x, hx⟩ := hne.resolve_right (by simp)
    have hx' : x = .C := by by_contra h; have := hC x h; omega
    subst hx'
    have h1 : c'.get .C ≤ 1 := by
      simp only [allNodes, Bool.and_eq_true] at hcan
      have := hcan.1
      have hWN := hC .WN (by decide)
      cases o with
      | sum => simp only [canonNode, Bool.and_eq_true, decide_eq_true_eq] at this; exact this.1.2
      | prod =>
        simp only [canonNode, Bool.and_eq_true, decide_eq_true_eq] at this
        rw [if_neg (by omega)] at this
        simp only [Bool.and_eq_true, decide_eq_true_eq] at this
        exact this.2.1.2
    have h2 : c' = [(.C, 1)] := by
      have hm : ∀ p ∈ c', c'.get p.1 = p.2 := fun p hp => Counter.get_of_mem hwc hp
      have hall : ∀ p ∈ c', p = (.C, 1) := by
        intro p hp
        have h3 := hpc p hp
        have h4 := hm p hp
        have h5 : p.1 = .C := by by_contra h; have := hC _ h; omega
        rw [h5] at h4
        exact Prod.ext h5 (by simp only; omega)
      have hnd : (c'.map Prod.fst).Nodup := hwc
      match c', hall, hnd, hx with
      | [], _, _, hx => simp at hx
      | [p], hall, _, _ => rw [hall p (by simp)]
      | p :: q :: r, hall, hnd, _ =>
        rw [hall p (by simp), hall q (by simp)] at hnd
        simp at hnd
    subst h2
    rfl

theorem empties_main (cfg : Cfg) (k : KE) (hw : wf k = true) (he : noEmpty k = true) :
    (noEmpty (simplify cfg k) = !vanishes false k) ∧ (fullBelow (simplify cfg k) = !vanishes true k) ∧
    (constOnly k = true → k.isBase = false → vanishes true k = false → ctsOf (simplify cfg k) = []) := by
  induction k using KE.ind with
  | base b => exact ⟨rfl, rfl, fun _ h => by simp [isBase] at h⟩
  | change c l r hl hr =>
    have hw' := wf_change.1 hw
    simp only [noEmpty, allNodes, Bool.and_eq_true] at he
    have h1 := (hl hw'.1 he.1.2).1
    have h2 := (hr hw'.2 he.2).1
    rw [← noEmpty_extract_iff (wf_simplify cfg l hw'.1)] at h1
    rw [← noEmpty_extract_iff (wf_simplify cfg r hw'.2)] at h2
    refine ⟨?_, ?_, fun h => by simp [constOnly, changes] at h⟩
    · rw [noEmpty_eq]; simp [simplify, isEmptyNode, fullBelow, vanishes, h1, h2]
    · simp [simplify, fullBelow, vanishes, h1, h2]
  | comm o c cs ih =>
    have hw' := wf_comm.1 hw
    have he' := he
    simp only [noEmpty, allNodes, Bool.and_eq_true, allNodesL_iff, Bool.not_eq_true'] at he
    have hm := wf_mem_map_simplify (cfg := cfg) hw'.2.2
    have ih' := fun y hy => ih y hy (hw'.2.2 y hy).2 (he.2 y hy)
    obtain ⟨ns, e1, e⟩ := absorb_eq cfg o c (cs.map (simplify cfg))
    have es : simplify cfg (comm o c cs) = absorb cfg o c (cs.map (simplify cfg)) := by rw [simplify, simplifyL_eq]
    have hB : fullBelow (simplify cfg (comm o c cs)) = !vanishes true (comm o c cs) := by
      rw [es, e, Bool.eq_iff_iff]
      simp only [fullBelow]
      rw [rest_all hw'.2.2]
      simp only [vanishes, Bool.not_true, Bool.false_and, Bool.false_or, Bool.not_eq_true', ← Bool.not_eq_true, vanishesL_iff, not_exists, not_and]
      refine forall_congr' fun y => forall_congr' fun hy => ?_
      obtain ⟨iA, iB, _⟩ := ih' y hy
      rw [iA, iB]
      by_cases hc : isComm o y = true
      · rw [if_pos hc]
        cases o with
        | prod => simp
        | sum =>
          have : isComm .prod y = false := by
            obtain ⟨c', xs, rfl⟩ := isComm_iff.1 hc; rfl
          simp [vanishes_flag this true]
      · rw [if_neg hc]
        cases o with
        | prod =>
          have := vanishes_flag (k := y) (by simpa using hc) true
          simp [this]
        | sum => simp
    have hC : constOnly (comm o c cs) = true → vanishes true (comm o c cs) = false → ctsOf (simplify cfg (comm o c cs)) = [] := by
      intro hco hv
      rw [es, e]
      simp only [ctsOf]
      have hk := constOnly_mem hco
      simp only [vanishes, Bool.not_true, Bool.false_and, Bool.false_or, ← Bool.not_eq_true, vanishesL_iff, not_exists, not_and] at hv
      have hzero : ∀ y ∈ cs, ctsOf (simplify cfg y) = [] := by
        intro y hy
        refine (ih' y hy).2.2 (hk.2 y hy) (hw'.2.2 y hy).1 ?_
        have := hv y hy
        cases o with
        | prod => simpa using this
        | sum =>
          cases hp : vanishes true y with
          | false => rfl
          | true =>
            exfalso; apply this
            cases y with
            | base _ => exact hp
            | change _ _ _ => exact hp
            | comm o' c' cs' =>
              simp only [vanishes, Bool.not_true, Bool.false_and, Bool.false_or] at hp
              simp [vanishes, hp]
      rw [List.eq_nil_iff_forall_not_mem]
      intro z hz
      obtain ⟨⟨x, hx, rfl⟩, hzb⟩ := mem_restOf.1 hz
      rcases mem_flat.1 hx with ⟨h2, h3⟩ | ⟨w, h2, h3, h4⟩
      · obtain ⟨y, hy, rfl⟩ := List.mem_map.1 h2
        obtain ⟨o', c', e', _, hex⟩ := const_leaf (cfg := cfg) (hw'.2.2 y hy).2 (hw'.2.2 y hy).1 (hk.2 y hy) (hzero y hy)
        have hne : isEmptyNode (simplify cfg y) = false := by
          have h5 : vanishes false y = false := by
            have := hv y hy
            cases o with
            | sum => simpa using this
            | prod =>
              rw [isComm_simplify] at h3
              rw [← vanishes_flag h3 true]; simpa using this
          have h6 := (ih' y hy).1
          rw [h5, noEmpty_eq] at h6
          simpa using (by simpa using h6 : _ ∧ _).1
        rw [hex hne] at hzb
        simp [isBase] at hzb
      · obtain ⟨y, hy, rfl⟩ := List.mem_map.1 h2
        rw [hzero y hy] at h4
        simp at h4
    refine ⟨?_, hB, fun h _ => hC h⟩
    rw [noEmpty_eq, hB]
    have hv : vanishes false (comm o c cs) = (vanishing (comm o c cs) || vanishes true (comm o c cs)) := by
      simp only [vanishes, Bool.not_true, Bool.not_false, Bool.true_and, Bool.false_and, Bool.false_or]
    rw [hv]
    cases hT : vanishes true (comm o c cs) with
    | true => simp
    | false =>
      simp only [Bool.not_false, Bool.and_true, Bool.or_false]
      congr 1
      rw [Bool.eq_iff_iff]
      constructor
      · -- an emptied node is vanishing
        intro hE
        have hbases : bases (simplify cfg (comm o c cs)) = [] ∧ changes (simplify cfg (comm o c cs)) = [] := by
          rw [es, e] at hE ⊢
          generalize restOf (flat o (cs.map (simplify cfg))) = rs at hE ⊢
          generalize simplifyBase cfg o _ rs.length = d at hE ⊢
          simp only [isEmptyNode, Bool.and_eq_true, decide_eq_true_eq, List.isEmpty_iff] at hE
          simp only [bases, changes, hE.1, hE.2, basesL, changesL, List.append_nil, and_self]
        have hco : constOnly (comm o c cs) = true := by
          by_contra h0
          have h1 := constOnly_simplify cfg _ hw (by simpa using h0)
          rw [constOnly_eq_false, hbases.1, hbases.2] at h1
          simp at h1
        have hT' := hT
        simp only [vanishes, Bool.not_true, Bool.false_and, Bool.false_or, ← Bool.not_eq_true, vanishesL_iff, not_exists, not_and] at hT'
        have hk := constOnly_mem hco
        have hnode : (∃ x, 0 < c.get x) ∨ cs ≠ [] := (isEmptyNode_comm hw'.1).1 he.1
        have hno : isEmptyNode (absorb cfg o c (cs.map (simplify cfg))) = false → False := by
          intro h0; rw [es, h0] at hE; simp at hE
        cases o with
        | sum =>
          exfalso; apply hno
          refine absorb_nonempty hw'.1 hw'.2.1 hm ?_ (by simpa using hnode) (Or.inl rfl)
          intro k hk'
          obtain ⟨y, hy, rfl⟩ := List.mem_map.1 hk'
          have h6 := (ih' y hy).1
          have h5 : vanishes false y = false := by simpa using hT' y hy
          rw [h5, noEmpty_eq] at h6
          simpa using (by simpa using h6 : _ ∧ _).1
        | prod =>
          have hcs : cs ≠ [] := by
            rintro rfl
            exact hno (absorb_nonempty hw'.1 hw'.2.1 hm (by simp) (by simpa using hnode) (Or.inr (by simp)))
          simp only [vanishing, Bool.and_eq_true, Bool.not_eq_true', List.isEmpty_eq_false_iff, List.all_eq_true, decide_eq_true_eq]
          refine ⟨⟨hcs, hk.1⟩, fun y hy => ⟨?_, hk.2 y hy⟩⟩
          by_contra hc
          apply hno
          have hwA := wf_absorbBts (cfg := cfg) (op := .prod) (ns := ns) hw'.1
          have hpA := pos_absorbBts (cfg := cfg) (op := .prod) (ns := ns) hw'.2.1
          have hwU := Counter.wf_updateList hwA (namesOf (flat .prod (cs.map (simplify cfg))))
          have hpU := Counter.pos_updateList hpA (namesOf (flat .prod (cs.map (simplify cfg))))
          have gU := Counter.get_updateList (absorbBts cfg .prod c ns) (namesOf (flat .prod (cs.map (simplify cfg))))
          have hwS := wf_simplifyBase (cfg := cfg) (op := .prod) (n := (restOf (flat .prod (cs.map (simplify cfg)))).length) hwU
          rw [e, isEmptyNode_comm (wf_simplifyBase hwS)]
          by_cases hr : restOf (flat .prod (cs.map (simplify cfg))) = []
          swap
          · exact Or.inr hr
          left
          rw [hr, List.length_nil] at hwS ⊢
          apply simplifyBase_nonempty hwS pos_simplifyBase (Or.inr (Or.inr rfl))
          apply simplifyBase_nonempty hwU hpU (Or.inr (Or.inr rfl))
          have hfl : simplify cfg y ∈ flat .prod (cs.map (simplify cfg)) :=
            mem_flat.2 (Or.inl ⟨List.mem_map.2 ⟨y, hy, rfl⟩, by rw [isComm_simplify]; simpa using hc⟩)
          obtain ⟨x, hx⟩ := List.exists_mem_of_ne_nil _ ((names_rest_nonempty (List.ne_nil_of_mem hfl)).resolve_right (by simp [hr]))
          refine ⟨x, ?_⟩
          rw [gU]
          have := hpA.nonneg x
          have := List.count_pos_iff.2 hx
          omega
      · intro hV
        cases o with
        | sum => simp [vanishing] at hV
        | prod =>
          simp only [vanishing, Bool.and_eq_true, Bool.not_eq_true', List.isEmpty_eq_false_iff, List.all_eq_true, decide_eq_true_eq] at hV
          obtain ⟨⟨hcs, hcC⟩, hks⟩ := hV
          simp only [vanishes, Bool.not_true, Bool.false_and, Bool.false_or, ← Bool.not_eq_true, vanishesL_iff, not_exists, not_and, decide_true] at hT
          have hleaf : ∀ y ∈ cs, ∃ o' c', simplify cfg y = comm o' c' [] ∧ ∀ x, x ≠ .C → c'.get x = 0 := by
            intro y hy
            obtain ⟨o', c', h1, h2, _⟩ := const_leaf (cfg := cfg) (hw'.2.2 y hy).2 (hw'.2.2 y hy).1 (hks y hy).2
              ((ih' y hy).2.2 (hks y hy).2 (hw'.2.2 y hy).1 (by simpa using hT y hy))
            exact ⟨o', c', h1, h2⟩
          have hfl : flat .prod (cs.map (simplify cfg)) = [] := by
            rw [List.eq_nil_iff_forall_not_mem]
            intro x hx
            rcases mem_flat.1 hx with ⟨h2, h3⟩ | ⟨w, h2, h3, h4⟩
            · obtain ⟨y, hy, rfl⟩ := List.mem_map.1 h2
              rw [isComm_simplify, (hks y hy).1] at h3
              simp at h3
            · obtain ⟨y, hy, rfl⟩ := List.mem_map.1 h2
              obtain ⟨o', c', h5, _⟩ := hleaf y hy
              rw [h5] at h4
              simp [ctsOf] at h4
          have hn := ns_wf hm e1
          have hns : ∀ p ∈ ns, ∀ x, x ≠ Base.C → p.1.get x = 0 := by
            intro p hp x hx
            have : p.1 ∈ ns.map Prod.fst := List.mem_map.2 ⟨p, hp, rfl⟩
            rw [e1] at this
            obtain ⟨z, hz, e2⟩ := List.mem_map.1 this
            obtain ⟨y, hy, rfl⟩ := List.mem_map.1 (List.mem_filter.1 hz).1
            obtain ⟨o', c', h5, h6⟩ := hleaf y hy
            rw [← e2, h5]
            exact h6 x hx
          have hnn : ns ≠ [] := by
            rintro rfl
            obtain ⟨y, hy⟩ := List.exists_mem_of_ne_nil _ hcs
            have : simplify cfg y ∈ (cs.map (simplify cfg)).filter (isComm .prod) :=
              List.mem_filter.2 ⟨List.mem_map.2 ⟨y, hy, rfl⟩, by rw [isComm_simplify]; exact (hks y hy).1⟩
            have h7 := e1.symm
            simp only [List.map_nil, List.map_eq_nil_iff] at h7
            rw [h7] at this
            simp at this
          have hc0 : ∀ x, x ≠ Base.C → c.get x = 0 := by
            intro x hx
            by_contra h0
            have := hw'.2.1.nonneg x
            exact hx (hcC x ((Counter.mem_elements hw'.1 x).2 (by omega)))
          have hz := absorbBts_vanish (cfg := cfg) hw'.1 hw'.2.1 hn hc0 hns (fun h => absurd h hnn)
          rw [es, e, hfl]
          have hwA := wf_absorbBts (cfg := cfg) (op := .prod) (ns := ns) hw'.1
          have hpA := pos_absorbBts (cfg := cfg) (op := .prod) (ns := ns) hw'.2.1
          have e3 : namesOf [] = [] := rfl
          have e4 : restOf [] = [] := rfl
          rw [e3, e4]
          have hwU := Counter.wf_updateList hwA []
          have hpU := Counter.pos_updateList hpA []
          have gU := Counter.get_updateList (absorbBts cfg .prod c ns) []
          have z1 : ∀ x, (simplifyBase cfg .prod ((absorbBts cfg .prod c ns).updateList []) 0).get x ≤ 0 := by
            intro x
            have h1 := get_simplifyBase_le (cfg := cfg) (op := .prod) (n := 0) hwU hpU x
            rw [gU, hz x] at h1
            simpa using h1
          have hwS := wf_simplifyBase (cfg := cfg) (op := .prod) (n := 0) hwU
          have z2 : ∀ x, (simplifyBase cfg .prod (simplifyBase cfg .prod ((absorbBts cfg .prod c ns).updateList []) 0) 0).get x ≤ 0 := by
            intro x
            have h1 := get_simplifyBase_le (cfg := cfg) (op := .prod) (n := 0) hwS pos_simplifyBase x
            have := z1 x
            omega
          by_contra hne
          have := (isEmptyNode_comm (wf_simplifyBase hwS)).1 (by simpa using hne)
          obtain ⟨x, hx⟩ := this.resolve_right (by simp)
          have := z2 x
          have hx' : 0 < (simplifyBase cfg .prod (simplifyBase cfg .prod ((absorbBts cfg .prod c ns).updateList []) 0) 0).get x := hx
          omega

end KE
end GPyABCD
