import Verif.Lemmas.Normal
import Verif.Lemmas.Counts

namespace GPyABCD

namespace Counter

theorem elements_ne_nil {c : Counter} (hc : c.WF) : c.elements ≠ [] ↔ ∃ b, 0 < c.get b := by
  constructor
  · intro h
    obtain ⟨b, hb⟩ := List.exists_mem_of_ne_nil _ h
    exact ⟨b, (mem_elements hc b).1 hb⟩
  · rintro ⟨b, hb⟩ h
    have := (mem_elements hc b).2 hb
    rw [h] at this; simp at this

end Counter

namespace KE

/-- Base-term simplification does not empty a node in the cases listed. -/
theorem simplifyBase_nonempty {cfg : Cfg} {op : Op} {c : Counter} {n : Nat} (hw : c.WF) (hp : c.Pos)
    (h : op = .sum ∨ c.get .C = 0 ∨ n = 0) (hne : ∃ b, 0 < c.get b) :
    ∃ b, 0 < (simplifyBase cfg op c n).get b := by
  have h0 := hp.nonneg
  obtain ⟨b, hb⟩ := hne
  cases op with
  | sum =>
    by_cases hl : 0 < c.get .LIN
    · refine ⟨.LIN, ?_⟩; simp only [simplifyBase, get_simplifyBaseSum hw]; omega
    · refine ⟨b, ?_⟩
      simp only [simplifyBase, get_simplifyBaseSum hw]
      cases b <;> simp only [] <;> omega
  | prod =>
    by_cases hWN : 0 < c.get .WN
    · exact ⟨.WN, by simp [simplifyBase, get_simplifyBaseProd_WN hw h0 hWN]⟩
    · have hz : c.get .WN = 0 := by have := h0 .WN; omega
      have key := fun x => get_simplifyBaseProd_noWN (n := n) hw h0 hz x
      by_cases hq : c.get .LIN = 0 ∧ c.get .SE = 0 ∧ c.get .PER = 0 ∧ n = 0
      · refine ⟨b, ?_⟩
        simp only [simplifyBase, key]
        cases b <;> simp only [] <;> omega
      · by_cases hLIN : 0 < c.get .LIN
        · exact ⟨.LIN, by simp only [simplifyBase, key]; omega⟩
        by_cases hSE : 0 < c.get .SE
        · exact ⟨.SE, by simp only [simplifyBase, key]; omega⟩
        by_cases hPER : 0 < c.get .PER
        · exact ⟨.PER, by simp only [simplifyBase, key]; omega⟩
        have := h0 .LIN; have := h0 .SE; have := h0 .PER
        have hC : c.get .C = 0 := by
          rcases h with h | h | h
          · cases h
          · exact h
          · exact absurd ⟨by omega, by omega, by omega, h⟩ hq
        refine ⟨b, ?_⟩
        simp only [simplifyBase, key]
        cases b <;> simp only [] <;> omega

theorem get_simplifyBase_C {cfg : Cfg} {op : Op} {c : Counter} {n : Nat} (hw : c.WF) (hp : c.Pos)
    (h : c.get .C = 0) : (simplifyBase cfg op c n).get .C = 0 := by
  have h1 := get_simplifyBase_le (cfg := cfg) (op := op) (n := n) hw hp .C
  have h2 := (pos_simplifyBase (cfg := cfg) (op := op) (c := c) (n := n)).nonneg .C
  omega

/-- Flattening does not empty the base terms of sums, nor of products without constants. -/
theorem absorbBts_nonempty {cfg : Cfg} {op : Op} : ∀ {ns : List (Counter × Nat)} {b : Counter}, b.WF → b.Pos →
    (∀ p ∈ ns, p.1.WF ∧ p.1.Pos) → (op = .sum ∨ (b.get .C = 0 ∧ ∀ p ∈ ns, p.1.get .C = 0)) →
    ((∃ x, 0 < b.get x) ∨ ∃ p ∈ ns, ∃ x, 0 < p.1.get x) →
    (∃ x, 0 < (absorbBts cfg op b ns).get x) ∧ (op = .sum ∨ (absorbBts cfg op b ns).get .C = 0)
  | [], b, _, _, _, hC, hne => by
    simp only [absorbBts]
    refine ⟨by simpa using hne, hC.imp id And.left⟩
  | (hb, m) :: ns, b, hw, hp, hns, hC, hne => by
    simp only [absorbBts]
    obtain ⟨w1, p1⟩ := hns (hb, m) (by simp)
    have wU := Counter.wf_updateMap hw hb
    have pU := Counter.pos_updateMap hp p1
    have gU := fun x => Counter.get_updateMap b (m := hb) w1 x
    have hC' : op = .sum ∨ (b.updateMap hb).get .C = 0 := by
      rcases hC with h | h
      · exact Or.inl h
      · right; rw [gU, h.1, h.2 (hb, m) (by simp)]; rfl
    apply absorbBts_nonempty (wf_simplifyBase wU) pos_simplifyBase (fun p hp => hns p (by simp [hp]))
    · rcases hC with h | h
      · exact Or.inl h
      · refine Or.inr ⟨get_simplifyBase_C wU pU ?_, fun p hp => h.2 p (by simp [hp])⟩
        rw [gU, h.1, h.2 (hb, m) (by simp)]; rfl
    · by_cases hne2 : ∃ x, 0 < (b.updateMap hb).get x
      · left
        exact simplifyBase_nonempty wU pU (hC'.imp id Or.inl) hne2
      · right
        rcases hne with ⟨x, hx⟩ | ⟨p, hp', x, hx⟩
        · exact absurd ⟨x, by rw [gU]; have := p1.nonneg x; simp only at this; omega⟩ hne2
        · rcases List.mem_cons.1 hp' with rfl | hp'
          · exact absurd ⟨x, by rw [gU]; have := hp.nonneg x; simp only at hx; omega⟩ hne2
          · exact ⟨p, hp', x, hx⟩

theorem flat_nonempty {op : Op} {cs : List KE} (h : ∃ k ∈ cs, isComm op k = false ∨ ctsOf k ≠ []) :
    flat op cs ≠ [] := by
  obtain ⟨k, hk, h1⟩ := h
  intro e
  by_cases hc : isComm op k = true
  · have h2 : ctsOf k ≠ [] := h1.resolve_left (by simp [hc])
    obtain ⟨y, hy⟩ := List.exists_mem_of_ne_nil _ h2
    have : y ∈ flat op cs := mem_flat.2 (Or.inr ⟨k, hk, hc, hy⟩)
    rw [e] at this; simp at this
  · have : k ∈ flat op cs := mem_flat.2 (Or.inl ⟨hk, by simpa using hc⟩)
    rw [e] at this; simp at this

theorem names_rest_nonempty {cs : List KE} (h : cs ≠ []) : namesOf cs ≠ [] ∨ restOf cs ≠ [] := by
  obtain ⟨k, hk⟩ := List.exists_mem_of_ne_nil _ h
  cases hb : (extract k).isBase with
  | true =>
    left
    cases he : extract k with
    | base b =>
      have : b ∈ namesOf cs := mem_namesOf.2 ⟨k, hk, he⟩
      intro e; rw [e] at this; simp at this
    | comm _ _ _ => rw [he] at hb; simp [isBase] at hb
    | change _ _ _ => rw [he] at hb; simp [isBase] at hb
  | false =>
    right
    have : extract k ∈ restOf cs := mem_restOf.2 ⟨⟨k, hk, rfl⟩, hb⟩
    intro e; rw [e] at this; simp at this

theorem isEmptyNode_comm {o : Op} {c : Counter} {cs : List KE} (hw : c.WF) :
    isEmptyNode (comm o c cs) = false ↔ (∃ x, 0 < c.get x) ∨ cs ≠ [] := by
  rw [← Counter.elements_ne_nil hw]
  simp only [isEmptyNode, Bool.and_eq_false_iff, decide_eq_false_iff_not, List.isEmpty_eq_false_iff]

/-- A node does not become empty when it is simplified, unless it is a product that holds a product
of constants. -/
theorem absorb_nonempty {cfg : Cfg} {op : Op} {b : Counter} {cts : List KE} (hb : b.WF) (pb : b.Pos)
    (h : ∀ k ∈ cts, k.isBase = false ∧ wf k = true) (he : ∀ k ∈ cts, isEmptyNode k = false)
    (hne : (∃ x, 0 < b.get x) ∨ cts ≠ [])
    (hop : op = .sum ∨ ∀ k ∈ cts, isComm op k = true → ctsOf k ≠ [] ∨ ∃ x, x ≠ Base.C ∧ 0 < (btsOf k).get x) :
    isEmptyNode (absorb cfg op b cts) = false := by
  obtain ⟨ns, e1, e⟩ := absorb_eq cfg op b cts
  have hn := ns_wf h e1
  have hwA := wf_absorbBts (cfg := cfg) (op := op) (ns := ns) hb
  have hpA := pos_absorbBts (cfg := cfg) (op := op) (ns := ns) pb
  have hwU := Counter.wf_updateList hwA (namesOf (flat op cts))
  have hpU := Counter.pos_updateList hpA (namesOf (flat op cts))
  have hwS := wf_simplifyBase (cfg := cfg) (op := op) (n := (restOf (flat op cts)).length) hwU
  have gU := Counter.get_updateList (absorbBts cfg op b ns) (namesOf (flat op cts))
  rw [e, isEmptyNode_comm (wf_simplifyBase hwS)]
  by_cases hr : restOf (flat op cts) = []
  swap
  · exact Or.inr hr
  left
  rw [hr, List.length_nil] at hwS ⊢
  apply simplifyBase_nonempty hwS pos_simplifyBase (Or.inr (Or.inr rfl))
  apply simplifyBase_nonempty hwU hpU (Or.inr (Or.inr rfl))
  by_cases hnm : namesOf (flat op cts) = []
  swap
  · obtain ⟨x, hx⟩ := List.exists_mem_of_ne_nil _ hnm
    refine ⟨x, ?_⟩
    rw [gU]
    have := hpA.nonneg x
    have := List.count_pos_iff.2 hx
    omega
  have hfl : flat op cts = [] := by
    by_contra hf
    rcases names_rest_nonempty hf with h1 | h1
    · exact h1 hnm
    · exact h1 hr
  -- all composites are same-kind nodes without composite terms
  have hall : ∀ k ∈ cts, isComm op k = true ∧ ctsOf k = [] := by
    intro k hk
    by_contra hk'
    apply flat_nonempty ⟨k, hk, ?_⟩ hfl
    by_cases hc : isComm op k = true
    · right; intro h2; exact hk' ⟨hc, h2⟩
    · left; simpa using hc
  have hx : (∃ x, 0 < b.get x) ∨ ∃ p ∈ ns, ∃ x, 0 < p.1.get x := by
    rcases hne with h1 | h1
    · exact Or.inl h1
    · right
      obtain ⟨k, hk⟩ := List.exists_mem_of_ne_nil _ h1
      obtain ⟨c, xs, rfl⟩ := isComm_iff.1 (hall k hk).1
      have h2 := (hall _ hk).2
      simp only [ctsOf] at h2
      subst h2
      have h3 := (isEmptyNode_comm (wf_comm.1 (h _ hk).2).1).1 (he _ hk)
      have h4 : c ∈ ns.map Prod.fst := by
        rw [e1]; exact List.mem_map.2 ⟨_, List.mem_filter.2 ⟨hk, (hall _ hk).1⟩, rfl⟩
      obtain ⟨p, hp, e3⟩ := List.mem_map.1 h4
      exact ⟨p, hp, by rw [e3]; exact h3.resolve_right (by simp)⟩
  have hA : ∃ x, 0 < (absorbBts cfg op b ns).get x := by
    rcases hop with h1 | h1
    · exact (absorbBts_nonempty hb pb hn (Or.inl h1) hx).1
    · by_cases hcn : cts = []
      · subst hcn
        have : ns = [] := by simpa using e1
        subst this
        simpa [absorbBts] using hx
      · obtain ⟨k, hk⟩ := List.exists_mem_of_ne_nil _ hcn
        have h2 := (h1 k hk (hall k hk).1).resolve_left (by simp [(hall k hk).2])
        have h4 : btsOf k ∈ ns.map Prod.fst := by
          rw [e1]; exact List.mem_map.2 ⟨_, List.mem_filter.2 ⟨hk, (hall _ hk).1⟩, rfl⟩
        obtain ⟨p, hp, e3⟩ := List.mem_map.1 h4
        obtain ⟨x, _, hx⟩ := absorbBts_solid (cfg := cfg) (op := op) hb pb hn (P := (· ≠ .C)) (by simp) (by decide) (Or.inr ⟨p, hp, by rw [e3]; exact h2⟩)
        exact ⟨x, hx⟩
  obtain ⟨x, hx⟩ := hA
  exact ⟨x, by rw [gU]; omega⟩

theorem isEmptyNode_base_change {k : KE} (h : ∀ op, isComm op k = false) : isEmptyNode k = false := by
  cases k with
  | comm o c cs => have := h o; simp [isComm] at this
  | base _ => rfl
  | change _ _ _ => rfl

theorem noEmpty_extract {k : KE} (hw : wf k = true) (h : noEmpty k = true) : noEmpty (extract k) = true :=
  allNodes_extract hw (fun _ => rfl) h

theorem constOnly_eq_false {k : KE} : constOnly k = false ↔ changes k ≠ [] ∨ ∃ x ∈ bases k, x ≠ Base.C := by
  simp only [constOnly, Bool.and_eq_false_iff, List.isEmpty_eq_false_iff, List.all_eq_false, decide_eq_true_eq]

theorem bases_absorb_solid {cfg : Cfg} {op : Op} {b : Counter} {cts : List KE} (hb : b.WF) (pb : b.Pos)
    (h : ∀ k ∈ cts, k.isBase = false ∧ wf k = true)
    {P : Base → Prop} (hC : ¬ P .C) (hW : P .WN) (hs : (∃ x, P x ∧ 0 < b.get x) ∨ ∃ k ∈ cts, ∃ x ∈ bases k, P x) :
    ∃ x ∈ bases (absorb cfg op b cts), P x := by
  obtain ⟨ns, e1, e⟩ := absorb_eq cfg op b cts
  have hn := ns_wf h e1
  have hwA := wf_absorbBts (cfg := cfg) (op := op) (ns := ns) hb
  have hpA := pos_absorbBts (cfg := cfg) (op := op) (ns := ns) pb
  have hwU := Counter.wf_updateList hwA (namesOf (flat op cts))
  have hpU := Counter.pos_updateList hpA (namesOf (flat op cts))
  have hwS := wf_simplifyBase (cfg := cfg) (op := op) (n := (restOf (flat op cts)).length) hwU
  have gU := Counter.get_updateList (absorbBts cfg op b ns) (namesOf (flat op cts))
  have fin : (∃ x, P x ∧ 0 < ((absorbBts cfg op b ns).updateList (namesOf (flat op cts))).get x) →
      ∃ x ∈ bases (absorb cfg op b cts), P x := by
    intro hx
    obtain ⟨x, hx, h1⟩ := simplifyBase_solid (cfg := cfg) (op := op) (n := (restOf (flat op cts)).length) hwS pos_simplifyBase hC hW
      (simplifyBase_solid hwU hpU hC hW hx)
    refine ⟨x, ?_, hx⟩
    rw [e]; simp only [bases, List.mem_append]; left
    exact (Counter.mem_elements (wf_simplifyBase hwS) x).2 h1
  rw [e]
  -- where the surviving kernel sits
  have hcase : ((∃ x, P x ∧ 0 < b.get x) ∨ ∃ p ∈ ns, ∃ x, P x ∧ 0 < p.1.get x) ∨
      ∃ k ∈ flat op cts, ∃ x ∈ bases k, P x := by
    rcases hs with h1 | ⟨k, hk, x, hx, hxC⟩
    · exact Or.inl (Or.inl h1)
    · by_cases hc : isComm op k = true
      · obtain ⟨c, xs, rfl⟩ := isComm_iff.1 hc
        simp only [bases, basesL_eq, List.mem_append, List.mem_flatMap] at hx
        rcases hx with hx | ⟨y, hy, hx⟩
        · left; right
          have h4 : c ∈ ns.map Prod.fst := by
            rw [e1]; exact List.mem_map.2 ⟨_, List.mem_filter.2 ⟨hk, hc⟩, rfl⟩
          obtain ⟨p, hp, e3⟩ := List.mem_map.1 h4
          exact ⟨p, hp, x, hxC, by rw [e3]; exact (Counter.mem_elements (wf_comm.1 (h _ hk).2).1 x).1 hx⟩
        · right; exact ⟨y, mem_flat.2 (Or.inr ⟨_, hk, hc, hy⟩), x, hx, hxC⟩
      · right; exact ⟨k, mem_flat.2 (Or.inl ⟨hk, by simpa using hc⟩), x, hx, hxC⟩
  rcases hcase with h1 | ⟨k, hk, x, hx, hxC⟩
  · rw [← e]; apply fin
    obtain ⟨x, hx, h2⟩ := absorbBts_solid (cfg := cfg) (op := op) hb pb hn hC hW h1
    exact ⟨x, hx, by rw [gU]; omega⟩
  · have hwk := (wf_of_mem_flat h k hk).2
    rw [← bases_extract hwk] at hx
    cases hb2 : (extract k).isBase with
    | true =>
      cases he : extract k with
      | base y =>
        rw [he] at hx
        simp only [bases, List.mem_singleton] at hx
        subst hx
        rw [← e]; apply fin
        refine ⟨x, hxC, ?_⟩
        have : x ∈ namesOf (flat op cts) := mem_namesOf.2 ⟨k, hk, he⟩
        have := List.count_pos_iff.2 this
        have := hpA.nonneg x
        rw [gU]; omega
      | comm _ _ _ => rw [he] at hb2; simp [isBase] at hb2
      | change _ _ _ => rw [he] at hb2; simp [isBase] at hb2
    | false =>
      refine ⟨x, ?_, hxC⟩
      simp only [bases, basesL_eq, List.mem_append, List.mem_flatMap]
      right
      exact ⟨extract k, mem_restOf.2 ⟨⟨k, hk, rfl⟩, hb2⟩, hx⟩

theorem bases_simplify_solid (cfg : Cfg) (k : KE) (hw : wf k = true) {P : Base → Prop} (hC : ¬ P .C) (hW : P .WN) (h : ∃ x ∈ bases k, P x) :
    ∃ x ∈ bases (simplify cfg k), P x := by
  induction k using KE.ind with
  | base b => exact h
  | comm o c cs ih =>
    have hw' := wf_comm.1 hw
    rw [simplify, simplifyL_eq]
    apply bases_absorb_solid hw'.1 hw'.2.1 (wf_mem_map_simplify hw'.2.2) hC hW
    obtain ⟨x, hx, hxC⟩ := h
    simp only [bases, basesL_eq, List.mem_append, List.mem_flatMap] at hx
    rcases hx with hx | ⟨y, hy, hx⟩
    · exact Or.inl ⟨x, hxC, (Counter.mem_elements hw'.1 x).1 hx⟩
    · exact Or.inr ⟨_, List.mem_map.2 ⟨y, hy, rfl⟩, ih y hy (hw'.2.2 y hy).2 ⟨x, hx, hxC⟩⟩
  | change c l r hl hr =>
    have hw' := wf_change.1 hw
    obtain ⟨x, hx, hxC⟩ := h
    simp only [bases, List.mem_append] at hx
    simp only [simplify, bases, List.mem_append, bases_extract (wf_simplify cfg l hw'.1),
      bases_extract (wf_simplify cfg r hw'.2)]
    rcases hx with hx | hx
    · obtain ⟨y, hy, h⟩ := hl hw'.1 ⟨x, hx, hxC⟩
      exact ⟨y, Or.inl hy, h⟩
    · obtain ⟨y, hy, h⟩ := hr hw'.2 ⟨x, hx, hxC⟩
      exact ⟨y, Or.inr hy, h⟩

/-- Simplification never reduces something else to constants. -/
theorem constOnly_simplify (cfg : Cfg) (k : KE) (hw : wf k = true) (h : constOnly k = false) :
    constOnly (simplify cfg k) = false := by
  rw [constOnly_eq_false] at h ⊢
  rcases h with h | h
  · left; intro e
    have := changes_simplify cfg k hw
    rw [e] at this
    exact h (this.symm.eq_nil)
  · exact Or.inr (bases_simplify_solid cfg k hw (P := (· ≠ .C)) (by simp) (by decide) h)

theorem noEmpty_simplify (cfg : Cfg) (k : KE) (hw : wf k = true) (he : noEmpty k = true)
    (hop : noConstProd k = true) : noEmpty (simplify cfg k) = true := by
  induction k using KE.ind with
  | base b => exact he
  | comm o c cs ih =>
    have hw' := wf_comm.1 hw
    simp only [noEmpty, allNodes, Bool.and_eq_true, allNodesL_iff, Bool.not_eq_true'] at he
    simp only [noConstProd, allNodes, Bool.and_eq_true, allNodesL_iff] at hop
    have hih : ∀ k ∈ cs, noEmpty (simplify cfg k) = true := by
      intro k hk
      exact ih k hk (hw'.2.2 k hk).2 (he.2 k hk) (hop.2 k hk)
    have hm := wf_mem_map_simplify (cfg := cfg) hw'.2.2
    have hne : isEmptyNode (absorb cfg o c (cs.map (simplify cfg))) = false := by
      apply absorb_nonempty hw'.1 hw'.2.1 hm
      · intro k hk
        obtain ⟨y, hy, rfl⟩ := List.mem_map.1 hk
        have := hih y hy
        cases hs : simplify cfg y with
        | base _ => rfl
        | change _ _ _ => rfl
        | comm o2 c2 cs2 =>
          rw [hs] at this
          simp only [noEmpty, allNodes, Bool.and_eq_true, Bool.not_eq_true'] at this
          exact this.1
      · rcases (isEmptyNode_comm hw'.1).1 he.1 with h1 | h1
        · exact Or.inl h1
        · right; simpa using h1
      · cases o with
        | sum => exact Or.inl rfl
        | prod =>
          right
          intro k hk hc
          obtain ⟨y, hy, rfl⟩ := List.mem_map.1 hk
          have hwy := (hw'.2.2 y hy).2
          rw [isComm_simplify] at hc
          have h2 := hop.1
          simp only [noConstProdNode, List.all_eq_true] at h2
          have h3 := h2 y hy
          rw [hc] at h3
          have h4 := constOnly_simplify cfg y hwy (by simpa using h3)
          rw [← isComm_simplify cfg] at hc
          obtain ⟨c', xs, e⟩ := isComm_iff.1 hc
          have hws := wf_simplify cfg y hwy
          rw [e] at h4 hws ⊢
          simp only [ctsOf, btsOf]
          by_cases hx : xs = []
          · right
            subst hx
            rw [constOnly_eq_false] at h4
            simp only [changes, changesL, bases, basesL, List.append_nil, ne_eq, not_true, false_or] at h4
            obtain ⟨x, hx, hxC⟩ := h4
            exact ⟨x, hxC, (Counter.mem_elements (wf_comm.1 hws).1 x).1 hx⟩
          · exact Or.inl hx
    rw [simplify, simplifyL_eq]
    obtain ⟨ns, e1, e⟩ := absorb_eq cfg o c (cs.map (simplify cfg))
    rw [e] at hne ⊢
    simp only [noEmpty, allNodes, Bool.and_eq_true, allNodesL_iff, hne, Bool.not_false, true_and]
    intro k hk
    obtain ⟨⟨x, hx, rfl⟩, _⟩ := mem_restOf.1 hk
    have hwx := (wf_of_mem_flat hm x hx).2
    apply noEmpty_extract hwx
    apply allNodes_mem_flat _ x hx
    intro y hy
    obtain ⟨z, hz, rfl⟩ := List.mem_map.1 hy
    exact hih z hz
  | change c l r hl hr =>
    have hw' := wf_change.1 hw
    simp only [noEmpty, allNodes, Bool.and_eq_true] at he
    simp only [noConstProd, allNodes, Bool.and_eq_true] at hop
    simp only [simplify, noEmpty, allNodes, Bool.and_eq_true]
    exact ⟨⟨rfl, noEmpty_extract (wf_simplify cfg l hw'.1) (hl hw'.1 he.1.2 hop.1.2)⟩,
      noEmpty_extract (wf_simplify cfg r hw'.2) (hr hw'.2 he.2 hop.2)⟩

theorem bases_ne_nil {k : KE} (hw : wf k = true) (he : noEmpty k = true) : bases k ≠ [] := by
  induction k using KE.ind with
  | base b => simp [bases]
  | comm o c cs ih =>
    simp only [noEmpty, allNodes, Bool.and_eq_true, allNodesL_iff, Bool.not_eq_true'] at he
    rw [isEmptyNode_comm (wf_comm.1 hw).1] at he
    rcases he.1 with h | h
    · rw [← Counter.elements_ne_nil (wf_comm.1 hw).1] at h
      simp [bases, h]
    · obtain ⟨y, hy⟩ := List.exists_mem_of_ne_nil _ h
      have := ih y hy ((wf_comm.1 hw).2.2 y hy).2 (he.2 y hy)
      simp only [bases, basesL_eq, ne_eq, List.append_eq_nil_iff, List.flatMap_eq_nil_iff, not_and, not_forall]
      exact fun _ => ⟨y, hy, this⟩
  | change c l r hl hr =>
    simp only [noEmpty, allNodes, Bool.and_eq_true] at he
    have := hl (wf_change.1 hw).1 he.1.2
    simp [bases, this]

theorem allNodes_imp {P Q : KE → Bool} (k : KE) (h : ∀ k, P k = true → Q k = true) (hk : allNodes P k = true) :
    allNodes Q k = true := by
  induction k using KE.ind with
  | base b => exact h _ hk
  | comm o c cs ih =>
    simp only [allNodes, Bool.and_eq_true, allNodesL_iff] at hk ⊢
    exact ⟨h _ hk.1, fun k hk' => ih k hk' (hk.2 k hk')⟩
  | change c l r hl hr =>
    simp only [allNodes, Bool.and_eq_true] at hk ⊢
    exact ⟨⟨h _ hk.1.1, hl hk.1.2⟩, hr hk.2⟩

theorem noConstProd_of_altProd {k : KE} (h : altProd k = true) : noConstProd k = true := by
  refine allNodes_imp k ?_ h
  intro k hk
  cases k with
  | comm o c cs =>
    cases o with
    | sum => rfl
    | prod =>
      simp only [altProdNode, List.all_eq_true] at hk
      simp only [noConstProdNode, List.all_eq_true]
      intro x hx
      have := hk x hx
      simp only [Bool.not_eq_true'] at this
      simp [this]
  | _ => rfl

theorem noConstProd_of_noC {k : KE} (hw : wf k = true) (he : noEmpty k = true) (h : Base.C ∉ bases k) :
    noConstProd k = true := by
  induction k using KE.ind with
  | base b => rfl
  | comm o c cs ih =>
    have hw' := wf_comm.1 hw
    simp only [noEmpty, allNodes, Bool.and_eq_true, allNodesL_iff] at he
    simp only [bases, basesL_eq, List.mem_append, List.mem_flatMap, not_or, not_exists, not_and] at h
    simp only [noConstProd, allNodes, Bool.and_eq_true, allNodesL_iff]
    refine ⟨?_, fun k hk => ih k hk (hw'.2.2 k hk).2 (he.2 k hk) (h.2 k hk)⟩
    cases o with
    | sum => rfl
    | prod =>
      simp only [noConstProdNode, List.all_eq_true]
      intro k hk
      have : constOnly k = false := by
        rw [constOnly_eq_false]; right
        obtain ⟨x, hx⟩ := List.exists_mem_of_ne_nil _ (bases_ne_nil (hw'.2.2 k hk).2 (he.2 k hk))
        exact ⟨x, hx, fun e => h.2 k hk (e ▸ hx)⟩
      simp [this]
  | change c l r hl hr =>
    have hw' := wf_change.1 hw
    simp only [noEmpty, allNodes, Bool.and_eq_true] at he
    simp only [bases, List.mem_append, not_or] at h
    simp only [noConstProd, allNodes, Bool.and_eq_true]
    exact ⟨⟨rfl, hl hw'.1 he.1.2 h.1⟩, hr hw'.2 he.2 h.2⟩

end KE
end GPyABCD
