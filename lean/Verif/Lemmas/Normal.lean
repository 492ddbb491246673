import Verif.Lemmas.Simplify

namespace GPyABCD

namespace Counter

theorem put_self {c : Counter} {b : Base} {v : Int} (h : c.has b = true) (hv : c.get b = v) : c.put b v = c := by
  induction c with
  | nil => simp at h
  | cons p r ih =>
    obtain ⟨k, w⟩ := p
    simp only [put]
    by_cases hk : k = b
    · subst hk; simp only [get_cons, if_true] at hv; simp [hv]
    · rw [if_neg hk]
      rw [has_cons, if_neg hk] at h
      rw [get_cons, if_neg hk] at hv
      rw [ih h hv]

theorem put_new {c : Counter} {b : Base} {v : Int} (h : c.has b = false) : c.put b v = c ++ [(b, v)] := by
  induction c with
  | nil => rfl
  | cons p r ih =>
    obtain ⟨k, w⟩ := p
    rw [has_cons] at h
    by_cases hk : k = b
    · simp [hk] at h
    · rw [if_neg hk] at h
      simp only [put]
      rw [if_neg hk, ih h]; rfl

end Counter

namespace KE

theorem simplifyBase_canon {cfg : Cfg} {op : Op} {c : Counter} {cs : List KE} (hw : c.WF) (hp : c.Pos)
    (h : canonNode cfg (comm op c cs) = true) : simplifyBase cfg op c cs.length = c := by
  have hh := Counter.Pos.has_iff_get hw hp
  have h0 := hp.nonneg
  have hpos := Counter.pos_eq_self hp
  cases op with
  | sum =>
    simp only [canonNode, Bool.and_eq_true, decide_eq_true_eq, Bool.or_eq_true, Bool.not_eq_true'] at h
    obtain ⟨⟨h1, h2⟩, h3⟩ := h
    simp only [simplifyBase, simplifyBaseSum]
    have e1 : (if c.get .WN > 1 then c.put .WN 1 else c : Counter) = c := if_neg (by omega)
    have e2 : (if c.get .C > 1 then c.put .C 1 else c : Counter) = c := if_neg (by omega)
    simp only [e1, e2]
    split
    · rename_i hl
      have hl' : cfg.linOffset = true ∧ 0 < c.get .LIN := by simpa using hl
      have hC : c.get .C = 0 := by
        rcases h3 with h3 | h3
        · simp [hl'] at h3
        · exact h3
      have : c.has .C = false := by
        by_contra hne
        have := (hh .C).1 (by simpa using hne); omega
      rw [Counter.put_new this]
      unfold Counter.pos at *
      rw [List.filter_append, hpos]; simp
    · exact hpos
  | prod =>
    simp only [canonNode, Bool.and_eq_true, decide_eq_true_eq] at h
    obtain ⟨h1, h2⟩ := h
    simp only [simplifyBase, simplifyBaseProd]
    by_cases hWN : 0 < c.get .WN
    · rw [if_pos (by omega)]
      rw [if_pos hWN] at h2
      simp only [Bool.and_eq_true, decide_eq_true_eq] at h2
      rw [Counter.put_self ((hh _).2 hWN) (by omega)]
      have : List.filter (fun p => decide (p.1 = Base.WN) || decide (p.1 = Base.LIN) || p.1.isSigmoid) c = c := by
        rw [List.filter_eq_self]
        rintro ⟨b, v⟩ hb
        have hg := Counter.get_of_mem hw hb
        have hv := hp _ hb
        simp only at hv
        cases b <;> simp [Base.isSigmoid] <;> omega
      rw [this]; exact hpos
    · rw [if_neg (by omega)]
      rw [if_neg hWN] at h2
      simp only [Bool.and_eq_true, Bool.or_eq_true, decide_eq_true_eq, List.isEmpty_iff] at h2
      obtain ⟨⟨h3, h4⟩, h5⟩ := h2
      have hc1 : (if c.get .C > 0 then
          c.put .C (if c.total + (cs.length : Int) - sigmoidCount c ≠ c.get .C then 0 else 1) else c : Counter) = c := by
        by_cases hC : 0 < c.get .C
        · rw [if_pos (by omega)]
          obtain ⟨⟨⟨h6, h7⟩, h8⟩, h9⟩ := h5.resolve_left (by omega)
          subst h9
          have ht := Counter.total_eq hw
          have hs := sigmoidCount_def c
          have := h0 .WN
          rw [if_neg (by simp; omega)]
          exact Counter.put_self ((hh _).2 hC) (by omega)
        · rw [if_neg (by omega)]
      simp only [hc1]
      rw [if_neg (by omega)]
      exact hpos

theorem extract_of_not_singleton {k : KE} (hw : wf k = true) (h : isSingleton k = false) : extract k = k := by
  rcases extract_cases hw with ⟨_, e⟩ | ⟨o, b, rfl, e⟩ | ⟨o, ct, rfl, e⟩
  · exact e
  · simp [isSingleton, Counter.elements] at h
  · simp [isSingleton, Counter.elements] at h

theorem flat_of_alt {op : Op} {cs : List KE} (h : ∀ k ∈ cs, isComm op k = false) : flat op cs = cs := by
  unfold flat
  have h1 : cs.filter (isComm op) = [] := by
    rw [List.filter_eq_nil_iff]; intro k hk; simp [h k hk]
  have h2 : cs.filter (fun k => !isComm op k) = cs := by
    rw [List.filter_eq_self]; intro k hk; simp [h k hk]
  rw [h1, h2]; simp

theorem restOf_of_plain {cs : List KE} (hw : ∀ k ∈ cs, k.isBase = false ∧ wf k = true)
    (h : ∀ k ∈ cs, isSingleton k = false) : restOf cs = cs ∧ namesOf cs = [] := by
  have e : cs.map extract = cs := by
    conv_rhs => rw [← List.map_id cs]
    exact List.map_congr_left (fun k hk => extract_of_not_singleton (hw k hk).2 (h k hk))
  constructor
  · unfold restOf; rw [e, List.filter_eq_self]; intro k hk; simp [(hw k hk).1]
  · unfold namesOf; rw [e, List.filterMap_eq_nil_iff]
    intro k hk
    cases k with
    | base b => have := (hw _ hk).1; simp [isBase] at this
    | comm _ _ _ => rfl
    | change _ _ _ => rfl

theorem absorb_normal {cfg : Cfg} {op : Op} {c : Counter} {cs : List KE} (hw : c.WF) (hp : c.Pos)
    (hcs : ∀ k ∈ cs, k.isBase = false ∧ wf k = true)
    (hs : ∀ k ∈ cs, isSingleton k = false) (ha : ∀ k ∈ cs, isComm op k = false)
    (hc : canonNode cfg (comm op c cs) = true) : absorb cfg op c cs = comm op c cs := by
  obtain ⟨ns, e1, e⟩ := absorb_eq cfg op c cs
  have hf : cs.filter (isComm op) = [] := by
    rw [List.filter_eq_nil_iff]; intro k hk; simp [ha k hk]
  rw [hf] at e1
  have hns : ns = [] := by simpa using e1
  subst hns
  rw [e, flat_of_alt ha, (restOf_of_plain hcs hs).1, (restOf_of_plain hcs hs).2]
  simp only [absorbBts, Counter.updateList, List.foldl_nil]
  rw [simplifyBase_canon hw hp hc, simplifyBase_canon hw hp hc]

theorem normal_iff {cfg : Cfg} {k : KE} : normal cfg k = true ↔
    wf k = true ∧ allNodes (canonNode cfg) k = true ∧ allBelow (fun n => !n.isSingleton) k = true ∧
      alternating k = true := by
  simp [normal, and_assoc]

/-- Fully normal including the root not being a one-term wrapper, at every node. -/
theorem simplify_of_all {cfg : Cfg} (k : KE) (hw : wf k = true) (hc : allNodes (canonNode cfg) k = true)
    (hs : allBelow (fun n => !n.isSingleton) k = true) (ha : alternating k = true) : simplify cfg k = k := by
  induction k using KE.ind with
  | base b => rfl
  | comm o c cs ih =>
    have hw' := wf_comm.1 hw
    simp only [allNodes, Bool.and_eq_true, allNodesL_iff] at hc
    simp only [allBelow, allNodesL_iff] at hs
    simp only [alternating, allNodes, Bool.and_eq_true, allNodesL_iff] at ha
    have hb : ∀ k ∈ cs, allBelow (fun n => !n.isSingleton) k = true ∧ isSingleton k = false := by
      intro k hk
      have := hs k hk
      cases k <;> simp_all [allNodes, allBelow, isSingleton]
    rw [simplify, simplifyL_eq]
    have e : cs.map (simplify cfg) = cs := by
      conv_rhs => rw [← List.map_id cs]
      exact List.map_congr_left (fun k hk => ih k hk (hw'.2.2 k hk).2 (hc.2 k hk) (hb k hk).1 (ha.2 k hk))
    rw [e]
    apply absorb_normal hw'.1 hw'.2.1 hw'.2.2 (fun k hk => (hb k hk).2) _ hc.1
    intro k hk
    have := ha.1
    simp only [altNode, List.all_eq_true] at this
    simpa using this k hk
  | change c l r hl hr =>
    have hw' := wf_change.1 hw
    simp only [allNodes, Bool.and_eq_true] at hc
    simp only [allBelow, Bool.and_eq_true] at hs
    simp only [alternating, allNodes, Bool.and_eq_true] at ha
    have hb : ∀ k, allNodes (fun n => !n.isSingleton) k = true →
        allBelow (fun n => !n.isSingleton) k = true ∧ isSingleton k = false := by
      intro k this
      cases k <;> simp_all [allNodes, allBelow, isSingleton]
    rw [simplify, hl hw'.1 hc.1.2 (hb l hs.1).1 ha.1.2, hr hw'.2 hc.2 (hb r hs.2).1 ha.2,
      extract_of_not_singleton hw'.1 (hb l hs.1).2, extract_of_not_singleton hw'.2 (hb r hs.2).2]

theorem simplify_of_normal {cfg : Cfg} {k : KE} (h : normal cfg k = true) : simplify cfg k = k := by
  rw [normal_iff] at h; exact simplify_of_all k h.1 h.2.1 h.2.2.1 h.2.2.2

theorem canonNode_simplifyBase (cfg : Cfg) (op : Op) (c : Counter) (cs : List KE) (hw : c.WF) (hp : c.Pos) :
    canonNode cfg (comm op (simplifyBase cfg op c cs.length) cs) = true := by
  have h0 := hp.nonneg
  have := h0 .WN; have := h0 .C; have := h0 .LIN; have := h0 .SE; have := h0 .PER
  cases op with
  | sum =>
    simp only [canonNode, simplifyBase, get_simplifyBaseSum hw, Bool.and_eq_true, decide_eq_true_eq,
      Bool.or_eq_true, Bool.not_eq_true', Bool.and_eq_false_iff, decide_eq_false_iff_not]
    refine ⟨⟨by omega, ?_⟩, ?_⟩
    · split <;> omega
    · by_cases h : cfg.linOffset = true
      · by_cases h2 : 0 < c.get .LIN
        · right; simp [h, h2]
        · left; right; omega
      · left; left; simpa using h
  | prod =>
    by_cases hWN : 0 < c.get .WN
    · simp [canonNode, simplifyBase, get_simplifyBaseProd_WN hw h0 hWN, Base.isSigmoid]
    · have hz : c.get .WN = 0 := by omega
      simp only [canonNode, simplifyBase, get_simplifyBaseProd_noWN hw h0 hz, Bool.and_eq_true, decide_eq_true_eq,
        Bool.or_eq_true, List.isEmpty_iff]
      refine ⟨by omega, ?_⟩
      rw [if_neg (by omega)]
      simp only [Bool.and_eq_true, decide_eq_true_eq, Bool.or_eq_true, List.isEmpty_iff]
      refine ⟨⟨by omega, by split <;> omega⟩, ?_⟩
      by_cases hq : c.get .LIN = 0 ∧ c.get .SE = 0 ∧ c.get .PER = 0 ∧ cs.length = 0
      · right; exact ⟨⟨⟨hq.1, by omega⟩, hq.2.2.1⟩, List.length_eq_zero_iff.1 hq.2.2.2⟩
      · left; rw [if_neg hq]

theorem canon_simplify (cfg : Cfg) (k : KE) (hw : wf k = true) :
    allNodes (canonNode cfg) (simplify cfg k) = true :=
  allNodes_simplify cfg (fun _ => rfl) (fun _ _ _ => rfl) (canonNode_simplifyBase cfg) k hw

theorem normal_simplify_iff (cfg : Cfg) (k : KE) (hw : wf k = true) :
    normal cfg (simplify cfg k) = true ↔ alternating (simplify cfg k) = true := by
  rw [normal_iff]
  exact ⟨fun h => h.2.2.2, fun h => ⟨wf_simplify cfg k hw, canon_simplify cfg k hw, allBelow_simplify cfg k hw, h⟩⟩

/-! ### Node count -/

theorem nodesL_eq (cs : List KE) : nodesL cs = (cs.map nodes).sum := by
  induction cs with
  | nil => rfl
  | cons k ks ih => simp [nodesL, ih]

theorem nodes_extract_le {k : KE} (h : wf k = true) : nodes (extract k) ≤ nodes k := by
  rcases extract_cases h with ⟨_, e⟩ | ⟨o, b, rfl, e⟩ | ⟨o, ct, rfl, e⟩
  · exact Nat.le_of_eq (by rw [e])
  · rw [e]; simp [nodes]
  · rw [e]; simp [nodes, nodesL]

theorem sum_map_filter_le {α : Type} (f : α → Nat) (p : α → Bool) (l : List α) :
    ((l.filter p).map f).sum ≤ (l.map f).sum := by
  induction l with
  | nil => simp
  | cons a l ih => simp only [List.filter_cons]; split <;> simp <;> omega

theorem nodes_flat {op : Op} (cs : List KE) :
    ((flat op cs).map nodes).sum + (cs.filter (isComm op)).length = (cs.map nodes).sum := by
  induction cs with
  | nil => rfl
  | cons k ks ih =>
    by_cases hk : isComm op k = true
    · obtain ⟨c, xs, rfl⟩ := isComm_iff.1 hk
      simp only [flat, List.map_append, List.sum_append] at ih
      simp only [flat, List.filter_cons_of_pos hk, List.map_append, List.sum_append, List.flatMap_cons,
        List.map_cons, List.sum_cons, List.length_cons, ctsOf, nodes, nodesL_eq]
      rw [List.filter_cons_of_neg (by simp [hk])]
      omega
    · have hk' : isComm op k = false := by simpa using hk
      have e1 : flat op (k :: ks) = k :: flat op ks := by simp [flat, hk']
      rw [e1, List.filter_cons_of_neg hk]
      simp only [List.map_cons, List.sum_cons]
      omega

theorem sum_map_le {α : Type} {f g : α → Nat} {l : List α} (h : ∀ a ∈ l, f a ≤ g a) :
    (l.map f).sum ≤ (l.map g).sum := by
  induction l with
  | nil => simp
  | cons a l ih =>
    have := h a (by simp)
    have := ih (fun x hx => h x (by simp [hx]))
    simp; omega

theorem sum_map_lt {α : Type} {f g : α → Nat} {l : List α} (h : ∀ a ∈ l, f a ≤ g a) {x : α} (hx : x ∈ l)
    (hlt : f x < g x) : (l.map f).sum < (l.map g).sum := by
  induction l with
  | nil => simp at hx
  | cons a l ih =>
    have h1 := h a (by simp)
    have h2 := sum_map_le (f := f) (g := g) (l := l) (fun x hx => h x (by simp [hx]))
    rcases List.mem_cons.1 hx with rfl | hx
    · simp; omega
    · have := ih (fun x hx => h x (by simp [hx])) hx
      simp; omega

theorem nodes_rest_le {cs : List KE} (h : ∀ k ∈ cs, wf k = true) :
    ((restOf cs).map nodes).sum ≤ (cs.map nodes).sum := by
  unfold restOf
  refine Nat.le_trans (sum_map_filter_le nodes _ _) ?_
  rw [List.map_map]
  exact sum_map_le (fun k hk => nodes_extract_le (h k hk))

theorem nodes_absorb_le {cfg : Cfg} {op : Op} {b : Counter} {cts : List KE}
    (h : ∀ k ∈ cts, k.isBase = false ∧ wf k = true) :
    nodes (absorb cfg op b cts) + (cts.filter (isComm op)).length ≤ (cts.map nodes).sum + 1 := by
  obtain ⟨ns, e1, e⟩ := absorb_eq cfg op b cts
  rw [e, nodes, nodesL_eq]
  have h1 := nodes_rest_le (cs := flat op cts) (fun k hk => (wf_of_mem_flat h k hk).2)
  have h2 := nodes_flat (op := op) cts
  omega

theorem nodes_simplify_le (cfg : Cfg) (k : KE) (hw : wf k = true) : nodes (simplify cfg k) ≤ nodes k := by
  induction k using KE.ind with
  | base b => exact Nat.le_refl _
  | comm o c cs ih =>
    rw [wf_comm] at hw
    have h1 := nodes_absorb_le (cfg := cfg) (op := o) (b := c) (wf_mem_map_simplify (cfg := cfg) hw.2.2)
    rw [simplify, simplifyL_eq, nodes, nodesL_eq]
    rw [List.map_map] at h1
    have h2 : (cs.map (nodes ∘ simplify cfg)).sum ≤ (cs.map nodes).sum :=
      sum_map_le (fun k hk => ih k hk (hw.2.2 k hk).2)
    omega
  | change c l r hl hr =>
    rw [wf_change] at hw
    have h1 := nodes_extract_le (wf_simplify cfg l hw.1)
    have h2 := nodes_extract_le (wf_simplify cfg r hw.2)
    have h3 := hl hw.1
    have h4 := hr hw.2
    simp only [simplify, nodes]; omega

/-- Simplification strictly reduces the number of nodes of an expression that is not alternating. -/
theorem nodes_simplify_lt (cfg : Cfg) (k : KE) (hw : wf k = true) (ha : alternating k = false) :
    nodes (simplify cfg k) < nodes k := by
  induction k using KE.ind with
  | base b => simp [alternating, allNodes, altNode] at ha
  | comm o c cs ih =>
    rw [wf_comm] at hw
    have h1 := nodes_absorb_le (cfg := cfg) (op := o) (b := c) (wf_mem_map_simplify (cfg := cfg) hw.2.2)
    rw [simplify, simplifyL_eq, nodes, nodesL_eq]
    rw [List.map_map] at h1
    have h2 : (cs.map (nodes ∘ simplify cfg)).sum ≤ (cs.map nodes).sum :=
      sum_map_le (fun k hk => nodes_simplify_le cfg k (hw.2.2 k hk).2)
    by_cases hn : altNode (comm o c cs) = true
    · have h3 : ∃ k ∈ cs, alternating k = false := by
        by_contra hne
        have : alternating (comm o c cs) = true := by
          simp only [alternating, allNodes, Bool.and_eq_true, allNodesL_iff]
          refine ⟨hn, fun k hk => ?_⟩
          by_contra hk'
          exact hne ⟨k, hk, by simpa [alternating] using hk'⟩
        simp [this] at ha
      obtain ⟨k, hk, hka⟩ := h3
      have : (cs.map (nodes ∘ simplify cfg)).sum < (cs.map nodes).sum :=
        sum_map_lt (fun k hk => nodes_simplify_le cfg k (hw.2.2 k hk).2) hk (ih k hk (hw.2.2 k hk).2 hka)
      omega
    · have h3 : ∃ k ∈ cs, isComm o k = true := by
        by_contra hne
        apply hn
        simp only [altNode, List.all_eq_true]
        intro k hk
        by_contra hk'
        exact hne ⟨k, hk, by simpa using hk'⟩
      obtain ⟨k, hk, hkc⟩ := h3
      have h4 : simplify cfg k ∈ (cs.map (simplify cfg)).filter (isComm o) := by
        rw [List.mem_filter]
        exact ⟨List.mem_map.2 ⟨k, hk, rfl⟩, by rw [isComm_simplify]; exact hkc⟩
      have := List.length_pos_of_mem h4
      omega
  | change c l r hl hr =>
    rw [wf_change] at hw
    have h1 := nodes_extract_le (wf_simplify cfg l hw.1)
    have h2 := nodes_extract_le (wf_simplify cfg r hw.2)
    have h3 := nodes_simplify_le cfg l hw.1
    have h4 := nodes_simplify_le cfg r hw.2
    simp only [alternating, allNodes, altNode, Bool.true_and, Bool.and_eq_false_iff] at ha
    simp only [simplify, nodes]
    rcases ha with ha | ha
    · have := hl hw.1 ha; omega
    · have := hr hw.2 ha; omega

theorem nodes_same {a b : KE} (h : Same a b) : nodes a = nodes b := by
  induction a using KE.ind generalizing b with
  | base _ => cases h; rfl
  | comm o c cs ih =>
    cases h with
    | @comm _ _ _ _ ds _ hc hf hp =>
      simp only [nodes, nodesL_eq]
      have : ∀ {xs ys : List KE}, List.Forall₂ Same xs ys → (∀ x ∈ xs, x ∈ cs) →
          xs.map nodes = ys.map nodes := by
        intro xs ys hxy
        induction hxy with
        | nil => intro _; rfl
        | cons h1 _ ih2 =>
          intro hm
          simp only [List.map_cons]
          rw [ih _ (hm _ (by simp)) h1, ih2 (fun x hx => hm x (by simp [hx]))]
      rw [this hf (fun x hx => hx), (hp.map nodes).sum_nat]
  | change c l r hl hr =>
    cases h with
    | change h1 h2 => simp only [nodes, hl h1, hr h2]

end KE
end GPyABCD
