import Verif.Spec.Growing
import Verif.Lemmas.Rules
import Verif.Lemmas.Construct
import Verif.Lemmas.Additive

namespace GPyABCD
namespace KE

/-! ## What one simplification pass leaves -/

theorem normal_child {cfg : Cfg} {o : Op} {b : Counter} {cs : List KE} (h : normal cfg (comm o b cs) = true) :
    ∀ x ∈ cs, normal cfg x = true ∧ isSingleton x = false ∧ isComm o x = false := by
  obtain ⟨hw, hc, hs, ha⟩ := normal_iff.1 h
  intro x hx
  simp only [allNodes, Bool.and_eq_true, allNodesL_iff] at hc
  simp only [allBelow, allNodesL_iff] at hs
  simp only [alternating, allNodes, Bool.and_eq_true, allNodesL_iff, altNode, List.all_eq_true, Bool.not_eq_true'] at ha
  have hsx := hs x hx
  have h1 : allBelow (fun n => !n.isSingleton) x = true ∧ isSingleton x = false := by
    cases x with
    | base b => exact ⟨rfl, rfl⟩
    | comm _ _ _ => simp only [allNodes, Bool.and_eq_true, Bool.not_eq_true'] at hsx; exact ⟨hsx.2, hsx.1⟩
    | change _ _ _ =>
      simp only [allNodes, Bool.and_eq_true] at hsx
      exact ⟨by simp only [allBelow, Bool.and_eq_true]; exact ⟨hsx.1.2, hsx.2⟩, rfl⟩
  exact ⟨normal_iff.2 ⟨((wf_comm.1 hw).2.2 x hx).2, hc.2 x hx, h1.1, ha.2 x hx⟩, h1.2, ha.1 x hx⟩

theorem normal_branch {cfg : Cfg} {c : CC} {l r : KE} (h : normal cfg (change c l r) = true) :
    (normal cfg l = true ∧ isSingleton l = false) ∧ normal cfg r = true ∧ isSingleton r = false := by
  obtain ⟨hw, hc, hs, ha⟩ := normal_iff.1 h
  simp only [allNodes, Bool.and_eq_true] at hc
  simp only [allBelow, Bool.and_eq_true] at hs
  simp only [alternating, allNodes, Bool.and_eq_true] at ha
  have hbb : ∀ {x : KE}, allNodes (fun n => !n.isSingleton) x = true →
      allBelow (fun n => !n.isSingleton) x = true ∧ isSingleton x = false := by
    intro x hbx
    cases x with
    | base b => exact ⟨rfl, rfl⟩
    | comm _ _ _ => simp only [allNodes, Bool.and_eq_true, Bool.not_eq_true'] at hbx; exact ⟨hbx.2, hbx.1⟩
    | change _ _ _ =>
      simp only [allNodes, Bool.and_eq_true] at hbx
      exact ⟨by simp only [allBelow, Bool.and_eq_true]; exact ⟨hbx.1.2, hbx.2⟩, rfl⟩
  exact ⟨⟨normal_iff.2 ⟨(wf_change.1 hw).1, hc.1.2, (hbb hs.1).1, ha.1.2⟩, (hbb hs.1).2⟩,
    normal_iff.2 ⟨(wf_change.1 hw).2, hc.2, (hbb hs.2).1, ha.2⟩, (hbb hs.2).2⟩

theorem normal_extract {cfg : Cfg} {k : KE} (h : normal cfg k = true) : normal cfg (extract k) = true := by
  have hw := (normal_iff.1 h).1
  rcases extract_cases hw with ⟨_, e⟩ | ⟨o, b, rfl, e⟩ | ⟨o, ct, rfl, e⟩
  · rw [e]; exact h
  · rw [e]; rfl
  · rw [e]; exact (normal_child h ct (by simp)).1

theorem normal_simplify_comm {cfg : Cfg} {o : Op} {b : Counter} {cs : List KE} (hb : b.WF) (pb : b.Pos)
    (h : ∀ k ∈ cs, k.isBase = false ∧ normal cfg (simplify cfg k) = true ∧ isWrapper (simplify cfg k) = false) :
    normal cfg (simplify cfg (comm o b cs)) = true := by
  have e : simplify cfg (comm o b cs) = simplify cfg (comm o b (cs.map (simplify cfg))) := by
    simp only [simplify, simplifyL_eq, List.map_map]
    congr 1
    apply List.map_congr_left
    intro k hk
    exact (simplify_of_normal (h k hk).2.1).symm
  rw [e]
  apply normal_mkC hb pb
  intro k hk
  obtain ⟨y, hy, rfl⟩ := List.mem_map.1 hk
  exact ⟨by rw [isBase_simplify]; exact (h y hy).1, (h y hy).2⟩

theorem normal_simplify_change {cfg : Cfg} {c : CC} {l r : KE} (hwl : wf l = true) (hwr : wf r = true)
    (hl : normal cfg (simplify cfg l) = true) (hr : normal cfg (simplify cfg r) = true) :
    normal cfg (simplify cfg (change c l r)) = true := by
  rw [normal_simplify_iff cfg _ (wf_change.2 ⟨hwl, hwr⟩)]
  simp only [simplify, alternating, allNodes, Bool.and_eq_true]
  exact ⟨⟨rfl, (normal_iff.1 (normal_extract hl)).2.2.2⟩, (normal_iff.1 (normal_extract hr)).2.2.2⟩

/-! ## When a node keeps two terms -/

theorem flat_cons_length (o : Op) (c : KE) (cs : List KE) :
    (restOf (flat o (c :: cs))).length = (restOf (flat o [c])).length + (restOf (flat o cs)).length := by
  by_cases h : isComm o c = true
  · simp only [flat, restOf, List.filter_cons, h, Bool.not_true, Bool.false_eq_true, if_false, if_true, List.filter_nil, List.flatMap_cons,
      List.flatMap_nil, List.append_nil, List.map_append, List.filter_append, List.length_append, List.nil_append]
    omega
  · simp only [flat, restOf, List.filter_cons, h, Bool.not_false, Bool.false_eq_true, if_false, if_true, List.filter_nil, List.flatMap_cons,
      List.flatMap_nil, List.append_nil, List.map_append, List.filter_append, List.length_append, List.nil_append, List.map_cons, List.map_nil,
      List.cons_append]
    split <;> simp <;> omega

/-- Nothing among the terms of a simplified node becomes a base term of it. -/
def Bare (o : Op) (s : KE) : Prop :=
  (isComm o s = true → ∀ x ∈ (btsOf s).elements, x = Base.C) ∧ ∀ x ∈ namesOf (flat o [s]), x = Base.C

/-- A term that does not become a base term stays a composite one. -/
theorem rest_of_bare {cfg : Cfg} {o : Op} {k : KE} (hw : wf k = true) (hb : k.isBase = false) (hn : isWrapper (simplify cfg k) = false)
    (hc : constOnly k = false) (h : Bare o (simplify cfg k)) : 1 ≤ (restOf (flat o [simplify cfg k])).length := by
  have hws := wf_simplify cfg k hw
  have hcs := constOnly_simplify cfg k hw hc
  have hbs : (simplify cfg k).isBase = false := by rw [isBase_simplify]; exact hb
  have hbel := allBelow_simplify cfg k hw
  generalize simplify cfg k = s at *
  apply List.length_pos_of_ne_nil
  by_cases ho : isComm o s = true
  · obtain ⟨c, cs, rfl⟩ := isComm_iff.1 ho
    have h1 := h.1 ho
    simp only [btsOf] at h1
    rcases constOnly_comm.1 hcs with ⟨x, hx, hne⟩ | ⟨y, hy, _⟩
    · exact absurd (h1 x hx) hne
    · apply List.ne_nil_of_mem (a := y)
      simp only [allBelow, allNodesL_iff] at hbel
      have hyb := ((wf_comm.1 hws).2.2 y hy)
      have hys : isSingleton y = false := by
        have := hbel y hy
        cases y with
        | base b => rfl
        | comm _ _ _ => simp only [allNodes, Bool.and_eq_true, Bool.not_eq_true'] at this; exact this.1
        | change _ _ _ => rfl
      refine mem_restOf.2 ⟨⟨y, mem_flat.2 (Or.inr ⟨_, by simp, ho, hy⟩), extract_of_not_singleton hyb.2 hys⟩, hyb.1⟩
  · have hfl : s ∈ flat o [s] := mem_flat.2 (Or.inl ⟨by simp, by simpa using ho⟩)
    rcases extract_cases' hws hn with ⟨_, e⟩ | ⟨b, e⟩
    · exact List.ne_nil_of_mem (mem_restOf.2 ⟨⟨s, hfl, e⟩, hbs⟩)
    · exfalso
      have hC := h.2 b (mem_namesOf.2 ⟨s, hfl, e⟩)
      subst hC
      rcases extract_cases hws with ⟨_, e'⟩ | ⟨o', b', rfl, e'⟩ | ⟨o', ct, rfl, e'⟩
      · rw [e] at e'; rw [← e'] at hbs; simp [isBase] at hbs
      · rw [e] at e'; obtain rfl := KE.base.inj e'
        revert hcs; cases o' <;> decide
      · simp [isWrapper, Counter.elements] at hn

/-- What is left of the terms of a node: the base terms and the composite terms after a pass. -/
theorem wrapper_absorb {cfg : Cfg} {o : Op} {b : Counter} {cts : List KE} (hb : b.WF) (pb : b.Pos)
    (h : ∀ k ∈ cts, k.isBase = false ∧ wf k = true) (hw : isWrapper (absorb cfg o b cts) = true) :
    (∀ x ∈ b.elements, o = .prod ∧ x = Base.C) ∧ (∀ s ∈ cts, Bare o s) ∧ (restOf (flat o cts)).length = 1 := by
  obtain ⟨ns, e1, e⟩ := absorb_eq cfg o b cts
  have hn := ns_wf h e1
  have hwA := wf_absorbBts (cfg := cfg) (op := o) (ns := ns) hb
  have hpA := pos_absorbBts (cfg := cfg) (op := o) (ns := ns) pb
  have hwU := Counter.wf_updateList hwA (namesOf (flat o cts))
  have hpU := Counter.pos_updateList hpA (namesOf (flat o cts))
  have hwS := wf_simplifyBase (cfg := cfg) (op := o) (n := (restOf (flat o cts)).length) hwU
  have gU := Counter.get_updateList (absorbBts cfg o b ns) (namesOf (flat o cts))
  rw [e] at hw
  obtain ⟨hlen, hemp⟩ : (restOf (flat o cts)).length = 1 ∧ ∀ x, ¬ 0 < (simplifyBase cfg o (simplifyBase cfg o
      ((absorbBts cfg o b ns).updateList (namesOf (flat o cts))) (restOf (flat o cts)).length) (restOf (flat o cts)).length).get x := by
    generalize restOf (flat o cts) = rs at *
    match rs, hw with
    | [], hw => simp [isWrapper] at hw
    | [r], hw =>
      simp only [isWrapper, decide_eq_true_eq] at hw
      refine ⟨rfl, fun x hx => ?_⟩
      have := (Counter.mem_elements (wf_simplifyBase hwS) x).2 hx
      rw [hw] at this; simp at this
    | _ :: _ :: _, hw => simp [isWrapper] at hw
  have hU : ∀ x, x ≠ Base.C → ¬ 0 < ((absorbBts cfg o b ns).updateList (namesOf (flat o cts))).get x := by
    intro x hx h0
    obtain ⟨y, _, hy⟩ := simplifyBase_solid (cfg := cfg) (op := o) (n := (restOf (flat o cts)).length) hwS pos_simplifyBase
      (P := (· ≠ .C)) (by simp) (by decide) (simplifyBase_solid hwU hpU (by simp) (by decide) ⟨x, hx, h0⟩)
    exact hemp y hy
  have hA : ∀ x, x ≠ Base.C → ¬ 0 < (absorbBts cfg o b ns).get x := by
    intro x hx h0
    refine hU x hx ?_
    rw [gU]; omega
  have hne : ¬ ((∃ x, x ≠ Base.C ∧ 0 < b.get x) ∨ ∃ p ∈ ns, ∃ x, x ≠ Base.C ∧ 0 < p.1.get x) := by
    intro hx
    obtain ⟨x, hx, h2⟩ := absorbBts_solid (cfg := cfg) (op := o) hb pb hn (P := (· ≠ .C)) (by simp) (by decide) hx
    exact hA x hx h2
  refine ⟨?_, ?_, hlen⟩
  · intro x hx
    have hx0 := (Counter.mem_elements hb x).1 hx
    have hxC : x = Base.C := by
      by_contra hc; exact hne (Or.inl ⟨x, hc, hx0⟩)
    cases o with
    | prod => exact ⟨rfl, hxC⟩
    | sum =>
      exfalso
      obtain ⟨⟨y, hy⟩, _⟩ := absorbBts_nonempty (cfg := cfg) (op := .sum) (ns := ns) hb pb hn (Or.inl rfl) (Or.inl ⟨x, hx0⟩)
      obtain ⟨z, hz⟩ := simplifyBase_nonempty (cfg := cfg) (op := .sum) (n := (restOf (flat .sum cts)).length) hwU hpU (Or.inl rfl) ⟨y, by rw [gU]; omega⟩
      obtain ⟨u, hu⟩ := simplifyBase_nonempty (cfg := cfg) (op := .sum) (n := (restOf (flat .sum cts)).length) hwS pos_simplifyBase (Or.inl rfl) ⟨z, hz⟩
      exact hemp u hu
  · intro s hs
    refine ⟨fun hc x hx => ?_, fun x hx => ?_⟩
    · by_contra hxC
      have h4 : btsOf s ∈ ns.map Prod.fst := by
        rw [e1]; exact List.mem_map.2 ⟨_, List.mem_filter.2 ⟨hs, hc⟩, rfl⟩
      obtain ⟨p, hp, e3⟩ := List.mem_map.1 h4
      obtain ⟨c, xs, rfl⟩ := isComm_iff.1 hc
      exact hne (Or.inr ⟨p, hp, x, hxC, by rw [e3]; exact (Counter.mem_elements (wf_comm.1 (h _ hs).2).1 x).1 hx⟩)
    · by_contra hxC
      obtain ⟨y, hy, he⟩ := mem_namesOf.1 hx
      have hy' : y ∈ flat o cts := by
        rcases mem_flat.1 hy with ⟨h1, h2⟩ | ⟨z, h1, h2, h3⟩
        · rw [List.mem_singleton] at h1; subst h1; exact mem_flat.2 (Or.inl ⟨hs, h2⟩)
        · rw [List.mem_singleton] at h1; subst h1; exact mem_flat.2 (Or.inr ⟨_, hs, h2, h3⟩)
      refine hU x hxC ?_
      have : x ∈ namesOf (flat o cts) := mem_namesOf.2 ⟨y, hy', he⟩
      have := List.count_pos_iff.2 this
      have := hpA.nonneg x
      rw [gU]; omega

theorem rest_length {cfg : Cfg} {o : Op} {cs : List KE}
    (h : ∀ k ∈ cs, k.isBase = false ∧ wf k = true ∧ isWrapper (simplify cfg k) = false ∧ constOnly k = false)
    (hb : ∀ k ∈ cs, Bare o (simplify cfg k)) : cs.length ≤ (restOf (flat o (cs.map (simplify cfg)))).length := by
  induction cs with
  | nil => simp
  | cons k ks ih =>
    obtain ⟨h1, h2, h3, h4⟩ := h k (by simp)
    have := rest_of_bare h2 h1 h3 h4 (hb k (by simp))
    have := ih (fun x hx => h x (by simp [hx])) (fun x hx => hb x (by simp [hx]))
    rw [List.map_cons, flat_cons_length, List.length_cons]
    omega

/-- A node with a base term that cannot go, or with two terms, does not become a one-composite wrapper. -/
theorem not_wrapper {cfg : Cfg} {o : Op} {b : Counter} {cs : List KE} (hb : b.WF) (pb : b.Pos)
    (h : ∀ k ∈ cs, k.isBase = false ∧ wf k = true ∧ isWrapper (simplify cfg k) = false ∧ constOnly k = false)
    (h2 : (∃ x ∈ b.elements, o = .sum ∨ x ≠ Base.C) ∨ 2 ≤ cs.length) : isWrapper (simplify cfg (comm o b cs)) = false := by
  rw [simplify, simplifyL_eq, ← Bool.not_eq_true]
  intro hw
  obtain ⟨h3, h4, h5⟩ := wrapper_absorb hb pb (wf_mem_map_simplify (fun k hk => ⟨(h k hk).1, (h k hk).2.1⟩)) hw
  rcases h2 with ⟨x, hx, hxo⟩ | h2
  · obtain ⟨rfl, rfl⟩ := h3 x hx
    simp at hxo
  · have := rest_length h (fun k hk => h4 _ (List.mem_map.2 ⟨k, hk, rfl⟩))
    omega

/-! ## Replacing a node -/

theorem nonconst_of_settled {cfg : Cfg} {k : KE} (h : settled cfg k = true) (hb : k.isBase = false) (hs : isSingleton k = false) :
    constOnly k = false := by
  by_contra hc
  rcases constOnly_settled h (by simpa using hc) with h1 | h1
  · rw [hb] at h1; simp at h1
  · rw [hs] at h1; simp at h1

/-- What is needed of a node that takes the place of `S`. -/
structure Fits (cfg : Cfg) (S new : KE) : Prop where
  normal : normal cfg (simplify cfg new) = true
  keeps : isSingleton S = false → isWrapper (simplify cfg new) = false ∧ constOnly new = false

/-- A term of a fully simplified node. -/
theorem child_fits {cfg : Cfg} {o : Op} {b : Counter} {cs : List KE} (h : settled cfg (comm o b cs) = true) (hn : normal cfg (comm o b cs) = true) :
    ∀ x ∈ cs, x.isBase = false ∧ wf x = true ∧ isWrapper (simplify cfg x) = false ∧ constOnly x = false ∧ normal cfg (simplify cfg x) = true := by
  intro x hx
  obtain ⟨h1, h2, _⟩ := normal_child hn x hx
  have hw := (wf_comm.1 (settled_iff.1 h).1).2.2 x hx
  refine ⟨hw.1, hw.2, ?_, nonconst_of_settled (settled_child h x hx).1 hw.1 h2, ?_⟩
  · rw [simplify_of_normal h1]; exact isSingleton_wrapper h2
  · rw [simplify_of_normal h1]; exact h1

theorem terms_left {cfg : Cfg} {o : Op} {b : Counter} {cs cs' : List KE} (h : settled cfg (comm o b cs) = true)
    (hs : isSingleton (comm o b cs) = false) (hl : cs.length = cs'.length) : (∃ x ∈ b.elements, o = .sum ∨ x ≠ Base.C) ∨ 2 ≤ cs'.length := by
  have h6 := two_terms h hs
  by_cases hb : b.elements = []
  · right; rw [hb] at h6; simpa [hl] using h6
  · left
    obtain ⟨x, hx⟩ := List.exists_mem_of_ne_nil _ hb
    cases o with
    | sum => exact ⟨x, hx, Or.inl rfl⟩
    | prod =>
      obtain ⟨hw, _, hcan, _⟩ := settled_iff.1 h
      have hw' := wf_comm.1 hw
      simp only [allNodes, Bool.and_eq_true] at hcan
      have hcn := hcan.1
      by_contra hc
      have hall : ∀ y ∈ b.elements, y = Base.C := fun y hy => by
        by_contra hne
        exact hc ⟨y, hy, .inr hne⟩
      have hC : 0 < b.get .C := (Counter.mem_elements hw'.1 _).1 (hall x hx ▸ hx)
      have hlen : (b.elements.length : Int) = b.get .C := by
        have := List.eq_replicate_of_mem hall
        have h1 := Counter.count_elements hw'.1 Base.C
        rw [this, List.count_replicate_self] at h1
        omega
      simp only [canonNode, Bool.and_eq_true, decide_eq_true_eq] at hcn
      by_cases hWN : 0 < b.get .WN
      · simp only [hWN, if_true, Bool.and_eq_true, decide_eq_true_eq] at hcn; omega
      · simp only [hWN, if_false, Bool.and_eq_true, decide_eq_true_eq, Bool.or_eq_true, List.isEmpty_iff] at hcn
        have hrest := hcn.2.2.resolve_left (by omega)
        rw [hrest.2] at h6
        simp only [List.length_nil] at h6
        omega

theorem repl_fits {cfg : Cfg} {S new k k' : KE} (h : Repl S new k k') (hk : settled cfg k = true) (hn : NoSig k) (ha : normal cfg k = true)
    (hS : wf S = true) (hw : wf new = true) (hnb : new.isBase = false) (hf : Fits cfg S new) :
    wf k' = true ∧ k'.isBase = false ∧ Fits cfg k k' := by
  induction h with
  | here => exact ⟨hw, hnb, hf⟩
  | @term o b l1 l2 y hSy =>
    obtain ⟨wb, pb, wc⟩ := wf_comm.1 (settled_iff.1 hk).1
    have hch := child_fits hk ha
    have hSs : isSingleton S = false := by
      rw [isSingleton_same hS (wc y (by simp)).2 hSy]; exact (settled_child hk y (by simp)).2
    obtain ⟨f1, f2⟩ := hf.keeps hSs
    have hall : ∀ x ∈ l1 ++ l2 ++ [new], x.isBase = false ∧ wf x = true ∧ isWrapper (simplify cfg x) = false ∧ constOnly x = false ∧
        normal cfg (simplify cfg x) = true := by
      intro x hx
      simp only [List.mem_append, List.mem_singleton] at hx
      rcases hx with (hx | hx) | rfl
      · exact hch x (by simp [hx])
      · exact hch x (by simp [hx])
      · exact ⟨hnb, hw, f1, f2, hf.normal⟩
    refine ⟨wf_comm.2 ⟨wb, pb, fun x hx => ⟨(hall x hx).1, (hall x hx).2.1⟩⟩, rfl, ?_, fun hs => ⟨?_, ?_⟩⟩
    · exact normal_simplify_comm wb pb (fun x hx => ⟨(hall x hx).1, (hall x hx).2.2.2.2, (hall x hx).2.2.1⟩)
    · exact not_wrapper wb pb (fun x hx => ⟨(hall x hx).1, (hall x hx).2.1, (hall x hx).2.2.1, (hall x hx).2.2.2.1⟩)
        (terms_left hk hs (by simp))
    · exact constOnly_comm.2 (Or.inr ⟨new, by simp, f2⟩)
  | @sub o b l1 l2 a a' _ ih =>
    obtain ⟨wb, pb, wc⟩ := wf_comm.1 (settled_iff.1 hk).1
    have hch := child_fits hk ha
    obtain ⟨a1, a2⟩ := settled_child hk a (by simp)
    obtain ⟨i1, i2, i3⟩ := ih a1 (hn.child (by simp)) (normal_child ha a (by simp)).1
    obtain ⟨f1, f2⟩ := i3.keeps a2
    have hall : ∀ x ∈ l1 ++ a' :: l2, x.isBase = false ∧ wf x = true ∧ isWrapper (simplify cfg x) = false ∧ constOnly x = false ∧
        normal cfg (simplify cfg x) = true := by
      intro x hx
      simp only [List.mem_append, List.mem_cons] at hx
      rcases hx with hx | rfl | hx
      · exact hch x (by simp [hx])
      · exact ⟨i2, i1, f1, f2, i3.normal⟩
      · exact hch x (by simp [hx])
    refine ⟨wf_comm.2 ⟨wb, pb, fun x hx => ⟨(hall x hx).1, (hall x hx).2.1⟩⟩, rfl, ?_, fun hs => ⟨?_, ?_⟩⟩
    · exact normal_simplify_comm wb pb (fun x hx => ⟨(hall x hx).1, (hall x hx).2.2.2.2, (hall x hx).2.2.1⟩)
    · exact not_wrapper wb pb (fun x hx => ⟨(hall x hx).1, (hall x hx).2.1, (hall x hx).2.2.1, (hall x hx).2.2.2.1⟩)
        (terms_left hk hs (by simp))
    · exact constOnly_comm.2 (Or.inr ⟨a', by simp, f2⟩)
  | @left c l l' r _ ih =>
    have hb := settled_branch hk
    have hnb' := normal_branch ha
    have hwk := wf_change.1 (settled_iff.1 hk).1
    obtain ⟨i1, _, i3⟩ := ih hb.1.1 (fun x hx => hn x (by simp [KE.bases, hx])) hnb'.1.1
    refine ⟨wf_change.2 ⟨i1, hwk.2⟩, rfl, normal_simplify_change i1 hwk.2 i3.normal ?_, fun _ => ⟨rfl, by simp [constOnly, changes]⟩⟩
    rw [simplify_of_normal hnb'.2.1]; exact hnb'.2.1
  | @right c l r r' _ ih =>
    have hb := settled_branch hk
    have hnb' := normal_branch ha
    have hwk := wf_change.1 (settled_iff.1 hk).1
    obtain ⟨i1, _, i3⟩ := ih hb.2.1 (fun x hx => hn x (by simp [KE.bases, hx])) hnb'.2.1
    refine ⟨wf_change.2 ⟨hwk.1, i1⟩, rfl, normal_simplify_change hwk.1 i1 ?_ i3.normal, fun _ => ⟨rfl, by simp [constOnly, changes]⟩⟩
    rw [simplify_of_normal hnb'.1.1]; exact hnb'.1.1
  | @leafL c b r _ =>
    exact ⟨wf_change.2 ⟨rfl, hw⟩, rfl, normal_simplify_change rfl hw rfl hf.normal, fun _ => ⟨rfl, by simp [constOnly, changes]⟩⟩
  | @leafR c b l _ =>
    have hnb' := normal_branch ha
    have hwk := wf_change.1 (settled_iff.1 hk).1
    refine ⟨wf_change.2 ⟨hwk.1, hw⟩, rfl, normal_simplify_change hwk.1 hw ?_ hf.normal, fun _ => ⟨rfl, by simp [constOnly, changes]⟩⟩
    rw [simplify_of_normal hnb'.1.1]; exact hnb'.1.1

/-! ## Results of the growing rules -/

/-- A node of a fully simplified tree, or the temporary node for a bare branch. -/
structure Ripe (cfg : Cfg) (S : KE) : Prop where
  settled : settled cfg S = true
  normal : normal cfg S = true
  noSig : NoSig S
  notBase : S.isBase = false

/-- What is needed of a term of a new node. -/
structure Part (cfg : Cfg) (k : KE) : Prop where
  notBase : k.isBase = false
  wf : wf k = true
  normal : KE.normal cfg (simplify cfg k) = true

/-- What is needed of it to remain a term. -/
structure Firm (cfg : Cfg) (k : KE) : Prop where
  notWrapper : isWrapper (simplify cfg k) = false
  nonconst : constOnly k = false

theorem Ripe.part {cfg : Cfg} {S : KE} (h : Ripe cfg S) : Part cfg S := by
  have e := simplify_of_normal h.normal
  exact ⟨h.notBase, (normal_iff.1 h.normal).1, by rw [e]; exact h.normal⟩

theorem Ripe.firm {cfg : Cfg} {S : KE} (h : Ripe cfg S) (hs : isSingleton S = false) : Firm cfg S := by
  refine ⟨?_, nonconst_of_settled h.settled h.notBase hs⟩
  rw [simplify_of_normal h.normal]; exact isSingleton_wrapper hs

theorem Ripe.child {cfg : Cfg} {o : Op} {b : Counter} {cs : List KE} (h : Ripe cfg (comm o b cs)) :
    ∀ x ∈ cs, Part cfg x ∧ Firm cfg x := fun x hx =>
  have hc := child_fits h.settled h.normal x hx
  ⟨⟨hc.1, hc.2.1, hc.2.2.2.2⟩, ⟨hc.2.2.1, hc.2.2.2.1⟩⟩

/-- Two passes fully simplify a node whose terms are fully simplified, wrappers among them. -/
theorem normal_twice {cfg : Cfg} {o : Op} {b : Counter} {cs : List KE} (hb : b.WF) (pb : b.Pos) (hc : ∀ x ∈ cs, Part cfg x) :
    normal cfg (simplify cfg (simplify cfg (comm o b cs))) = true := by
  have hw : wf (comm o b cs) = true := wf_comm.2 ⟨hb, pb, fun x hx => ⟨(hc x hx).notBase, (hc x hx).wf⟩⟩
  have hws := wf_simplify cfg _ hw
  have hbel := allBelow_simplify cfg _ hw
  rw [simplify, simplifyL_eq] at hws hbel ⊢
  obtain ⟨ns, _, e⟩ := absorb_eq cfg o b (cs.map (simplify cfg))
  rw [e] at hws hbel ⊢
  obtain ⟨w1, w2, w3⟩ := wf_comm.1 hws
  refine normal_simplify_comm w1 w2 (fun x hx => ⟨(w3 x hx).1, ?_⟩)
  have hsx : isSingleton x = false := by
    simp only [allBelow, allNodesL_iff] at hbel
    have := hbel x hx
    cases x with
    | base b => rfl
    | comm _ _ _ => simp only [allNodes, Bool.and_eq_true, Bool.not_eq_true'] at this; exact this.1
    | change _ _ _ => rfl
  have hnx : normal cfg x = true := by
    obtain ⟨⟨y, hy, rfl⟩, _⟩ := mem_restOf.1 hx
    apply normal_extract
    rcases mem_flat.1 hy with ⟨hy, _⟩ | ⟨z, hz, hzc, hy⟩
    · obtain ⟨u, hu, rfl⟩ := List.mem_map.1 hy
      exact (hc u hu).normal
    · obtain ⟨u, hu, rfl⟩ := List.mem_map.1 hz
      obtain ⟨c, xs, e3⟩ := isComm_iff.1 hzc
      have := (hc u hu).normal
      rw [e3] at hy this
      exact (normal_child this y hy).1
  rw [simplify_of_normal hnx]
  exact ⟨hnx, isSingleton_wrapper hsx⟩

theorem part_names (cfg : Cfg) (o : Op) {l : List Base} : Part cfg (mkL cfg o l []) := by
  have hw : wf (comm o (Counter.ofList l) []) = true := wf_comm.2 ⟨Counter.wf_ofList _, Counter.pos_ofList _, by simp⟩
  have hn : normal cfg (mkL cfg o l []) = true := by
    show normal cfg (simplify cfg (comm o (Counter.ofList l) [])) = true
    exact normal_simplify_comm (Counter.wf_ofList _) (Counter.pos_ofList _) (by simp)
  have e := simplify_of_normal hn
  exact ⟨isBase_mkL .., wf_simplify cfg _ hw, by rw [e]; exact hn⟩

theorem firm_names (cfg : Cfg) (o : Op) {l : List Base} (h : ∃ x ∈ l, x ≠ Base.C) : Firm cfg (mkL cfg o l []) := by
  obtain ⟨x, hx, hxo⟩ := h
  have hm : x ∈ (Counter.ofList l).elements := (Counter.elements_ofList l).symm.subset hx
  have hn : normal cfg (mkL cfg o l []) = true := by
    show normal cfg (simplify cfg (comm o (Counter.ofList l) [])) = true
    exact normal_simplify_comm (Counter.wf_ofList _) (Counter.pos_ofList _) (by simp)
  have hnw : isWrapper (mkL cfg o l []) = false := by
    show isWrapper (simplify cfg (comm o (Counter.ofList l) [])) = false
    exact not_wrapper (Counter.wf_ofList _) (Counter.pos_ofList _) (by simp) (Or.inl ⟨x, hm, Or.inr hxo⟩)
  refine ⟨by rw [simplify_of_normal hn]; exact hnw, ?_⟩
  exact constOnly_simplify cfg _ (wf_comm.2 ⟨Counter.wf_ofList _, Counter.pos_ofList _, by simp⟩) (constOnly_comm.2 (Or.inl ⟨x, hm, hxo⟩))

theorem fits_comm {cfg : Cfg} {S : KE} {o : Op} {b : Counter} {cs : List KE} (hb : b.WF) (pb : b.Pos) (hc : ∀ x ∈ cs, Part cfg x)
    (hs : isSingleton S = false → (∀ x ∈ cs, Firm cfg x) ∧ ((∃ x ∈ b.elements, o = .sum ∨ x ≠ Base.C) ∨ 2 ≤ cs.length) ∧
      constOnly (comm o b cs) = false) : Fits cfg S (simplify cfg (comm o b cs)) := by
  have hw : wf (comm o b cs) = true := wf_comm.2 ⟨hb, pb, fun x hx => ⟨(hc x hx).notBase, (hc x hx).wf⟩⟩
  refine ⟨normal_twice hb pb hc, fun hi => ⟨?_, constOnly_simplify cfg _ hw (hs hi).2.2⟩⟩
  have hn : normal cfg (simplify cfg (comm o b cs)) = true :=
    normal_simplify_comm hb pb (fun x hx => ⟨(hc x hx).notBase, (hc x hx).normal, ((hs hi).1 x hx).notWrapper⟩)
  rw [simplify_of_normal hn]
  exact not_wrapper hb pb (fun x hx => ⟨(hc x hx).notBase, (hc x hx).wf, ((hs hi).1 x hx).notWrapper, ((hs hi).1 x hx).nonconst⟩) (hs hi).2.1

theorem fits_change {cfg : Cfg} {S l r : KE} {c : CC} (hwl : wf l = true) (hwr : wf r = true) (hl : normal cfg (simplify cfg l) = true)
    (hr : normal cfg (simplify cfg r) = true) : Fits cfg S (mkChange cfg c l r) := by
  have hn : normal cfg (mkChange cfg c l r) = true := normal_simplify_change hwl hwr hl hr
  have e := simplify_of_normal hn
  exact ⟨by rw [e]; exact hn, fun _ => ⟨by rw [e]; rfl, by simp [mkChange, simplify, constOnly, changes]⟩⟩

/-- A node beside a base kernel. -/
theorem fits_beside {cfg : Cfg} {S : KE} {o : Op} {B : Base} (h : Ripe cfg S) (hB : o = .sum ∨ B ≠ Base.C) : Fits cfg S (mkL cfg o [B] [S]) := by
  have hm : B ∈ (Counter.ofList [B]).elements := (Counter.elements_ofList [B]).symm.subset (by simp)
  refine fits_comm (Counter.wf_ofList _) (Counter.pos_ofList _) (by simpa using h.part) (fun hs => ⟨by simpa using h.firm hs, Or.inl ⟨B, hm, hB⟩, ?_⟩)
  exact constOnly_comm.2 (Or.inr ⟨S, by simp, (h.firm hs).nonconst⟩)

/-- A node with base kernels added to its own. -/
theorem fits_more {cfg : Cfg} {o : Op} {b d : Counter} {c : List KE} {B : Base} (h : Ripe cfg (comm o b c)) (hd : d.WF) (pd : d.Pos)
    (hB : B ∈ d.elements) (hC : o = .sum ∨ B ≠ Base.C) : Fits cfg (comm o b c) (mkC cfg o (b.add d) c) := by
  obtain ⟨hb, pb, _⟩ := wf_comm.1 (normal_iff.1 h.normal).1
  have hel := Counter.elements_add hb hd pb pd
  refine fits_comm (Counter.wf_add hb hd) (Counter.pos_add _ _) (fun x hx => (h.child x hx).1)
    (fun hs => ⟨fun x hx => (h.child x hx).2, Or.inl ⟨B, hel.symm.subset (by simp [hB]), hC⟩, ?_⟩)
  rcases constOnly_comm.1 (h.firm hs).nonconst with ⟨x, hx, hne⟩ | hx
  · exact constOnly_comm.2 (Or.inl ⟨x, hel.symm.subset (by simp [hx]), hne⟩)
  · exact constOnly_comm.2 (Or.inr hx)

/-- A node with another composite term. -/
theorem fits_term {cfg : Cfg} {o : Op} {b : Counter} {c : List KE} {k : KE} (h : Ripe cfg (comm o b c)) (hk : Part cfg k) (hc : Firm cfg k) :
    Fits cfg (comm o b c) (mkC cfg o b (c ++ [k])) := by
  obtain ⟨hb, pb, _⟩ := wf_comm.1 (normal_iff.1 h.normal).1
  refine fits_comm hb pb ?_ (fun hs => ⟨?_, ?_, constOnly_comm.2 (Or.inr ⟨k, by simp, hc.nonconst⟩)⟩)
  · intro x hx
    rcases List.mem_append.1 hx with hx | hx
    · exact (h.child x hx).1
    · rw [List.mem_singleton] at hx; subst hx; exact hk
  · intro x hx
    rcases List.mem_append.1 hx with hx | hx
    · exact (h.child x hx).2
    · rw [List.mem_singleton] at hx; subst hx; exact hc
  · by_cases hcn : c = []
    · subst hcn
      rcases terms_left h.settled hs rfl with h1 | h1
      · exact Or.inl h1
      · simp at h1
    · right
      have := List.length_pos_of_ne_nil hcn
      simp; omega

/-- A base term combined with a new one by the other operation. -/
theorem fits_nested {cfg : Cfg} {o o' : Op} {b : Counter} {c : List KE} {a bt : Base} (h : Ripe cfg (comm o b c)) (hbt : bt ∈ b.elements)
    (hne : isSingleton (comm o b c) = false → a ≠ Base.C ∨ bt ≠ Base.C) :
    Fits cfg (comm o b c) (mkC cfg o (b.pos.sub (Counter.ofList [bt])) (c ++ [mkL cfg o' [a, bt] []])) := by
  obtain ⟨hb, pb, _⟩ := wf_comm.1 (normal_iff.1 h.normal).1
  have hel := Counter.elements_sub_one hb pb hbt
  have hp : Part cfg (mkL cfg o' [a, bt] []) := part_names cfg o'
  have hnc : isSingleton (comm o b c) = false → Firm cfg (mkL cfg o' [a, bt] []) := by
    intro hs
    apply firm_names
    rcases hne hs with h1 | h1
    · exact ⟨a, by simp, h1⟩
    · exact ⟨bt, by simp, h1⟩
  rw [Counter.pos_eq_self pb]
  refine fits_comm (Counter.wf_sub hb (Counter.wf_ofList _)) (Counter.pos_sub _ _) ?_
    (fun hs => ⟨?_, ?_, constOnly_comm.2 (Or.inr ⟨_, List.mem_append_right _ (List.mem_singleton.2 rfl), (hnc hs).nonconst⟩)⟩)
  · intro x hx
    rcases List.mem_append.1 hx with hx | hx
    · exact (h.child x hx).1
    · rw [List.mem_singleton] at hx; subst hx; exact hp
  · intro x hx
    rcases List.mem_append.1 hx with hx | hx
    · exact (h.child x hx).2
    · rw [List.mem_singleton] at hx; subst hx; exact hnc hs
  · by_cases hcn : c = []
    · subst hcn
      left
      have h6 := two_terms h.settled hs
      have hl := hel.length_eq
      simp only [List.length_nil, List.length_cons, Nat.add_zero] at h6 hl
      obtain ⟨x, hx⟩ := List.exists_mem_of_ne_nil (l := (b.sub (Counter.ofList [bt])).elements) (by intro e; rw [e] at hl; simp at hl; omega)
      refine ⟨x, hx, ?_⟩
      cases o with
      | sum => exact Or.inl rfl
      | prod => exact Or.inr (settled_prod_noC h.settled h.noSig hs x (hel.subset (List.mem_cons_of_mem _ hx)))
    · right
      have := List.length_pos_of_ne_nil hcn
      simp only [List.length_append, List.length_singleton]; omega

theorem fits_oneChange {cfg : Cfg} {S : KE} {c : CC} {B : Base} (h : Ripe cfg S) : ∀ new ∈ oneChange cfg S c (some (base B)), Fits cfg S new := by
  intro new hnew
  have hp := h.part
  simp only [oneChange] at hnew
  split at hnew
  · rw [List.mem_singleton] at hnew; subst hnew
    exact fits_change hp.wf hp.wf hp.normal hp.normal
  · simp only [List.mem_cons, List.not_mem_nil, or_false] at hnew
    rcases hnew with rfl | rfl
    · exact fits_change hp.wf rfl hp.normal rfl
    · exact fits_change rfl hp.wf rfl hp.normal

theorem fits_times {cfg : Cfg} {S : KE} {B : Base} (h : Ripe cfg S) (hB : B ≠ Base.C) : ∀ new ∈ multiply cfg S (base B), Fits cfg S new := by
  intro new hnew
  rw [multiply, List.mem_cons] at hnew
  have hone : B ∈ (Counter.ofList [B]).elements := (Counter.elements_ofList [B]).symm.subset (by simp)
  cases S with
  | base b => have := h.notBase; simp [isBase] at this
  | comm o b c =>
    obtain ⟨hb, pb, _⟩ := wf_comm.1 (normal_iff.1 h.normal).1
    cases o with
    | sum =>
      simp only [mulRes, mulNested, mulNestedAt, List.mem_map] at hnew
      rcases hnew with rfl | ⟨bt, hbt, rfl⟩
      · exact fits_beside h (Or.inr hB)
      · exact fits_nested h hbt (fun _ => Or.inl hB)
    | prod =>
      simp only [mulRes, mulNested, List.not_mem_nil, or_false, Counter.pos_eq_self pb] at hnew
      subst hnew
      exact fits_more h (Counter.wf_ofList _) (Counter.pos_ofList _) hone (Or.inr hB)
  | change c l r =>
    simp only [mulRes, mulNested, List.not_mem_nil, or_false] at hnew
    subst hnew
    exact fits_beside h (Or.inr hB)

theorem fits_plus {cfg : Cfg} {S : KE} {B : Base} (h : Ripe cfg S) : ∀ new ∈ add cfg S (base B), Fits cfg S new := by
  intro new hnew
  rw [add, List.mem_cons] at hnew
  have hone : B ∈ (Counter.ofList [B]).elements := (Counter.elements_ofList [B]).symm.subset (by simp)
  cases S with
  | base b => have := h.notBase; simp [isBase] at this
  | comm o b c =>
    obtain ⟨hb, pb, _⟩ := wf_comm.1 (normal_iff.1 h.normal).1
    cases o with
    | prod =>
      simp only [addRes, addNested, addNestedAt, List.mem_map] at hnew
      rcases hnew with rfl | ⟨bt, hbt, rfl⟩
      · exact fits_beside h (Or.inl rfl)
      · exact fits_nested h hbt (fun hs => Or.inr (settled_prod_noC h.settled h.noSig hs bt hbt))
    | sum =>
      simp only [addRes, addNested, List.not_mem_nil, or_false, Counter.pos_eq_self pb] at hnew
      subst hnew
      exact fits_more h (Counter.wf_ofList _) (Counter.pos_ofList _) hone (Or.inl rfl)
  | change c l r =>
    simp only [addRes, addNested, List.not_mem_nil, or_false] at hnew
    subst hnew
    exact fits_beside h (Or.inl rfl)

/-- Two factors. -/
theorem fits_pair {cfg : Cfg} {S k : KE} (h : Ripe cfg S) (hk : Part cfg k) (hc : Firm cfg k) : Fits cfg S (mkL cfg .prod [] [S, k]) := by
  refine fits_comm (Counter.wf_ofList _) (Counter.pos_ofList _) ?_ (fun hs => ⟨?_, Or.inr (by simp), constOnly_comm.2 (Or.inr ⟨k, by simp, hc.nonconst⟩)⟩)
  · intro x hx
    simp only [List.mem_cons, List.not_mem_nil, or_false] at hx
    rcases hx with rfl | rfl
    · exact h.part
    · exact hk
  · intro x hx
    simp only [List.mem_cons, List.not_mem_nil, or_false] at hx
    rcases hx with rfl | rfl
    · exact h.firm hs
    · exact hc

theorem fits_shifted {cfg : Cfg} {S : KE} {B : Base} (h : Ripe cfg S) (hB : B ≠ Base.C) :
    ∀ new ∈ multiply cfg S (mkL cfg .sum [B, .C] []), Fits cfg S new := by
  intro new hnew
  have hp : Part cfg (mkL cfg .sum [B, .C] []) := part_names cfg .sum
  have hc : Firm cfg (mkL cfg .sum [B, .C] []) := firm_names cfg .sum ⟨B, by simp, hB⟩
  obtain ⟨d, cs, e⟩ : ∃ d cs, mkL cfg .sum [B, .C] [] = comm .sum d cs := isComm_iff.1 (by rw [isComm_mkL]; rfl)
  rw [e] at hp hc hnew
  rw [multiply, List.mem_cons] at hnew
  cases S with
  | base b => have := h.notBase; simp [isBase] at this
  | comm o b c =>
    obtain ⟨hb, pb, _⟩ := wf_comm.1 (normal_iff.1 h.normal).1
    cases o with
    | sum =>
      simp only [mulRes, mulNested, List.not_mem_nil, or_false] at hnew
      subst hnew
      exact fits_pair h hp hc
    | prod =>
      simp only [mulRes, mulNested, List.not_mem_nil, or_false, Counter.pos_eq_self pb] at hnew
      subst hnew
      exact fits_term h hp hc
  | change c l r =>
    simp only [mulRes, mulNested, List.not_mem_nil, or_false] at hnew
    subst hnew
    exact fits_pair h hp hc

theorem fits_higher {cfg : Cfg} {S : KE} (h : Ripe cfg S) (hSE : ∀ x ∈ bases S, x ≠ Base.SE) : ∀ new ∈ higherCurves cfg S, Fits cfg S new := by
  intro new hnew
  have hk : ∀ ct ∈ higherKers cfg, Part cfg ct ∧ Firm cfg ct := by
    intro ct hct
    simp only [higherKers, List.mem_cons, List.not_mem_nil, or_false] at hct
    rcases hct with rfl | rfl
    · exact ⟨part_names cfg .prod, firm_names cfg .prod ⟨.LIN, by simp, by decide⟩⟩
    · exact ⟨part_names cfg .prod, firm_names cfg .prod ⟨.LIN, by simp, by decide⟩⟩
  cases S with
  | base b => simp [higherCurves] at hnew
  | comm o b c =>
    obtain ⟨hb, pb, _⟩ := wf_comm.1 (normal_iff.1 h.normal).1
    have hno : b.has .SE = false := by
      by_contra hh
      rw [Bool.not_eq_false] at hh
      exact hSE .SE (bases_mem_comm.2 (Or.inl ((Counter.mem_elements hb _).2 ((Counter.Pos.has_iff_get hb pb _).1 hh)))) rfl
    cases o with
    | sum =>
      simp only [higherCurves, Counter.pos_eq_self pb, hno, Bool.false_eq_true, if_false] at hnew
      obtain ⟨ct, hct, rfl⟩ := List.mem_map.1 hnew
      exact fits_term h (hk ct hct).1 (hk ct hct).2
    | prod =>
      simp only [higherCurves, Counter.pos_eq_self pb, hno, Bool.false_eq_true, if_false, List.map_cons, List.map_nil, List.cons_append, List.nil_append,
        List.mem_cons, List.not_mem_nil, or_false] at hnew
      have key : ∀ (x : Base) (n : Int), 0 < n → x ≠ Base.C → Fits cfg (comm .prod b c) (mkC cfg .prod (b.add [(x, n)]) c) := by
        intro x n hn hx
        refine fits_more h (by simp [Counter.WF]) ?_ (B := x) ?_ (Or.inr hx)
        · intro p hp; simp only [List.mem_singleton] at hp; subst hp; exact hn
        · simp only [Counter.elements, List.flatMap_cons, List.flatMap_nil, List.append_nil, List.mem_replicate]
          exact ⟨by omega, trivial⟩
      rcases hnew with rfl | rfl | rfl
      · exact key _ _ (by omega) (by decide)
      · exact key _ _ (by omega) (by decide)
      · split
        · exact key _ _ (by omega) (by decide)
        · exact key _ _ (by omega) (by decide)
  | change c l r =>
    have hb := normal_branch h.normal
    have hw := wf_change.1 (normal_iff.1 h.normal).1
    have el := simplify_of_normal hb.1.1
    have er := simplify_of_normal hb.2.1
    simp only [higherCurves, List.mem_append] at hnew
    rcases hnew with hnew | hnew
    · split at hnew
      · obtain ⟨ct, hct, rfl⟩ := List.mem_map.1 hnew
        exact fits_change (hk ct hct).1.wf hw.2 (hk ct hct).1.normal (by rw [er]; exact hb.2.1)
      · simp at hnew
    · split at hnew
      · obtain ⟨ct, hct, rfl⟩ := List.mem_map.1 hnew
        exact fits_change hw.1 (hk ct hct).1.wf (by rw [el]; exact hb.1.1) (hk ct hct).1.normal
      · simp at hnew

theorem fits_rule {cfg : Cfg} {o : Orders} (ho : ∀ B ∈ o.noC, B ≠ Base.C) {n : RuleName} (hg : n.growing cfg = true) {S : KE} (h : Ripe cfg S)
    (hSE : cfg.includeSE = false → ∀ x ∈ bases S, x ≠ Base.SE) : ∀ new ∈ n.rule cfg o S, Fits cfg S new := by
  intro new hnew
  have hp := h.part
  cases n with
  | plus_base => obtain ⟨B, hB, h1⟩ := List.mem_flatMap.1 hnew; exact fits_plus h new h1
  | times_base => obtain ⟨B, hB, h1⟩ := List.mem_flatMap.1 hnew; exact fits_times h (ho B hB) new h1
  | times_shifted_base => obtain ⟨B, hB, h1⟩ := List.mem_flatMap.1 hnew; exact fits_shifted h (ho B hB) new h1
  | change_new_base =>
    obtain ⟨B, hB, h1⟩ := List.mem_flatMap.1 hnew
    rw [bothChanges_some, List.mem_append] at h1
    rcases h1 with h1 | h1
    · exact fits_oneChange h new h1
    · exact fits_oneChange h new h1
  | change_same =>
    simp only [RuleName.rule, bothChanges, List.flatMap_cons, List.flatMap_nil, List.append_nil, List.cons_append,
      List.nil_append, List.mem_cons, List.not_mem_nil, or_false] at hnew
    rcases hnew with rfl | rfl
    · exact fits_change hp.wf hp.wf hp.normal hp.normal
    · exact fits_change hp.wf hp.wf hp.normal hp.normal
  | change_window_constant => exact fits_oneChange h new hnew
  | change_window_linear => exact fits_oneChange h new hnew
  | change_point_linear => exact fits_oneChange h new hnew
  | try_higher_curves => exact fits_higher h (hSE (by simpa [RuleName.growing] using hg)) new hnew
  | replace_base => simp [RuleName.growing] at hg
  | replace_with_singleton => simp [RuleName.growing] at hg
  | remove_some_term => simp [RuleName.growing] at hg

/-! ## Expansion -/

theorem traverse_ripe {cfg : Cfg} {k : KE} (hk : Ripe cfg k) : ∀ {p : List Step} {S : KE}, (p, S) ∈ traverse cfg k → Ripe cfg S := by
  have sub : ∀ {x : KE}, settled cfg x = true → normal cfg x = true → NoSig x → x.isBase = false → Ripe cfg x :=
    fun h1 h2 h4 h5 => ⟨h1, h2, h4, h5⟩
  have leaf : ∀ b : Base, b.isSigmoid = false → Ripe cfg (comm .sum [(b, 1)] []) := by
    intro b hb
    refine ⟨settled_leaf cfg b, ?_, ?_, rfl⟩
    · obtain ⟨h1, _, h3, h4⟩ := settled_iff.1 (settled_leaf cfg b)
      exact normal_iff.2 ⟨h1, h3, h4, rfl⟩
    · intro x hx; simp [KE.bases, basesL, Counter.elements] at hx; subst hx; exact hb
  induction k using KE.ind with
  | base b => intro p S h; simp [traverse] at h
  | comm o b cs ih =>
    intro p S h
    simp only [traverse, List.mem_cons, Prod.mk.injEq] at h
    rcases h with ⟨_, rfl⟩ | h
    · exact hk
    · obtain ⟨l1, a, l2, q, rfl, _, h2⟩ := mem_traverseL.1 h
      obtain ⟨n1, n2, _⟩ := normal_child hk.normal a (by simp)
      exact ih a (by simp) (sub (settled_child hk.settled a (by simp)).1 n1 (hk.noSig.child (by simp))
        ((wf_comm.1 (normal_iff.1 hk.normal).1).2.2 a (by simp)).1) h2
  | change c l r hl hr =>
    intro p S h
    have hb := settled_branch hk.settled
    have hn := normal_branch hk.normal
    rcases mem_traverse_change.1 h with ⟨_, rfl⟩ | ⟨b, rfl, _, rfl⟩ | ⟨q, _, h⟩ | ⟨b, rfl, _, rfl⟩ | ⟨q, _, h⟩
    · exact hk
    · exact leaf b (hk.noSig b (by simp [KE.bases]))
    · refine hl (sub hb.1.1 hn.1.1 (fun x hx => hk.noSig x (by simp [KE.bases, hx])) ?_) h
      cases l with
      | base b => simp [traverse] at h
      | comm _ _ _ => rfl
      | change _ _ _ => rfl
    · exact leaf b (hk.noSig b (by simp [KE.bases]))
    · refine hr (sub hb.2.1 hn.2.1 (fun x hx => hk.noSig x (by simp [KE.bases, hx])) ?_) h
      cases r with
      | base b => simp [traverse] at h
      | comm _ _ _ => rfl
      | change _ _ _ => rfl

theorem standardiseF_alternating {cfg : Cfg} : ∀ (n : Nat) {k r : KE}, wf k = true → normal cfg (simplify cfg k) = true → standardiseF cfg n k = some r →
    alternating r = true ∧ isWrapper r = false := by
  intro n
  induction n with
  | zero => intro k r _ _ h; simp [standardiseF] at h
  | succ n ih =>
    intro k r hw hs h
    have hws := wf_simplify cfg k hw
    simp only [standardiseF] at h
    split at h
    · rename_i he
      rw [Option.some.injEq] at h; subst h
      rw [extractsSelf_eq hws, Bool.not_eq_true'] at he
      exact ⟨(normal_iff.1 hs).2.2.2, isSingleton_wrapper he⟩
    · split at h
      · rw [Option.some.injEq] at h; subst h
        rw [mkL_one]; exact ⟨rfl, rfl⟩
      · have hn := normal_extract hs
        exact ih (wf_extract hws) (by rw [simplify_of_normal hn]; exact hn) h

/-- Growing rules keep expressions fully simplified. -/
theorem alternating_expand {cfg : Cfg} {o : Orders} (ho : ∀ B ∈ o.noC, B ≠ Base.C) {rules : List RuleName} (hr : ∀ n ∈ rules, n.growing cfg = true) {k : KE}
    (hk : Ripe cfg k) (hSE : cfg.includeSE = false → ∀ x ∈ bases k, x ≠ Base.SE) {r : KE} (h : r ∈ expandNamed cfg o rules k) :
    alternating r = true ∧ isWrapper r = false := by
  obtain ⟨p, S, hp, rule, hrule, new, hnew, rfl⟩ := mem_expand h
  obtain ⟨n, hn, rfl⟩ := List.mem_map.1 hrule
  have hw := (normal_iff.1 hk.normal).1
  have hS := traverse_node hw hp
  have hSr := traverse_ripe hk hp
  have hrr := rr_rule ho n hS.1 hSr.notBase new hnew
  have hf := fits_rule ho (hr n hn) hSr (fun hi x hx => hSE hi x (hS.2.1 x hx)) new hnew
  obtain ⟨w1, w2, f⟩ := repl_fits (repl_of_traverse (new := new) hp) hk.settled hk.noSig hk.normal hS.1 hrr.wf hrr.notBase hf
  obtain ⟨x, hx, _⟩ := standardiseF_ind (cfg := cfg) (fun _ => True) (fun _ _ _ => trivial) (fun _ _ _ => trivial) (fun _ _ _ => trivial)
    (nodes (replaceAt k p new) + 1) _ w1 w2 trivial (by omega)
  rw [standardise, nodes'_eq, hx]
  exact standardiseF_alternating _ w1 f.normal hx

end KE
end GPyABCD
