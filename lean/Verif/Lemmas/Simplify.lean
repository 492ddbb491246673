import Verif.Lemmas.Absorb
import Mathlib.Data.List.Perm.Subperm

namespace GPyABCD

namespace Counter

theorem elements_updateList {c : Counter} (hc : c.WF) (hp : c.Pos) (l : List Base) :
    (c.updateList l).elements.Perm (c.elements ++ l) := by
  rw [List.perm_iff_count]; intro b
  have := hp.nonneg b
  rw [count_elements (wf_updateList hc l), get_updateList, List.count_append, count_elements hc]; omega

theorem elements_updateMap {c m : Counter} (hc : c.WF) (hp : c.Pos) (hm : m.WF) (pm : m.Pos) :
    (c.updateMap m).elements.Perm (c.elements ++ m.elements) := by
  rw [List.perm_iff_count]; intro b
  have := hp.nonneg b; have := pm.nonneg b
  rw [count_elements (wf_updateMap hc m), get_updateMap c hm, List.count_append, count_elements hc,
    count_elements hm]; omega

theorem elements_subperm {c d : Counter} (hc : c.WF) (hd : d.WF) (h : ∀ b, c.get b ≤ d.get b) :
    c.elements.Subperm d.elements := by
  rw [List.subperm_ext_iff]; intro b _
  rw [count_elements hc, count_elements hd]; have := h b; omega

theorem elements_eq_nil {c : Counter} (hp : c.Pos) : c.elements = [] ↔ c = [] := by
  constructor
  · intro h
    cases c with
    | nil => rfl
    | cons p r =>
      have h1 := hp p (by simp)
      unfold elements at h
      rw [List.flatMap_cons, List.append_eq_nil_iff, List.replicate_eq_nil_iff] at h
      omega
  · rintro rfl; rfl

theorem total_nonneg {c : Counter} (hp : c.Pos) : 0 ≤ c.total := by
  rw [← length_elements hp]; omega

theorem total_eq_one {c : Counter} (hp : c.Pos) (h : c.total = 1) : ∃ b, c = [(b, 1)] := by
  cases c with
  | nil => simp [total] at h
  | cons p r =>
    obtain ⟨b, v⟩ := p
    have h1 := hp (b, v) (by simp)
    have h2 : 0 ≤ total r := total_nonneg (fun p h => hp p (by simp [h]))
    simp only [total, List.map_cons, List.sum_cons] at h h2
    have hv : v = 1 := by simp at h1; omega
    have hr : (r.map Prod.snd).sum = 0 := by omega
    cases r with
    | nil => exact ⟨b, by rw [hv]⟩
    | cons q r =>
      have h3 := hp q (by simp)
      have h4 : 0 ≤ total r := total_nonneg (fun p h => hp p (by simp [h]))
      simp only [total] at h4
      simp only [List.map_cons, List.sum_cons] at hr
      omega

theorem total_eq_zero {c : Counter} (hp : c.Pos) : c.total = 0 ↔ c = [] := by
  rw [← length_elements hp, ← elements_eq_nil hp]
  constructor
  · intro h; exact List.length_eq_zero_iff.1 (by omega)
  · intro h; rw [h]; rfl

end Counter

namespace KE

/-! ### extraction -/

theorem extract_cases {k : KE} (h : wf k = true) :
    (isSingleton k = false ∧ extract k = k) ∨
    (∃ o b, k = comm o [(b, 1)] [] ∧ extract k = base b) ∨
    (∃ o ct, k = comm o [] [ct] ∧ extract k = ct) := by
  cases k with
  | base b => left; simp [isSingleton, extract]
  | change c l r => left; simp [isSingleton, extract]
  | comm o c cs =>
    rw [wf_comm] at h
    obtain ⟨hw, hp, hcs⟩ := h
    have hl := Counter.length_elements hp
    by_cases h1 : c.total = 1 ∧ cs = []
    · right; left
      obtain ⟨b, rfl⟩ := Counter.total_eq_one hp h1.1
      exact ⟨o, b, by rw [h1.2], by rw [h1.2]; rfl⟩
    · by_cases h2 : c.total = 0 ∧ ∃ ct, cs = [ct]
      · right; right
        obtain ⟨h2, ct, rfl⟩ := h2
        rw [Counter.total_eq_zero hp] at h2
        subst h2
        exact ⟨o, ct, rfl, rfl⟩
      · left
        constructor
        · simp only [isSingleton, decide_eq_false_iff_not]
          intro hs
          cases cs with
          | nil => simp at hs; exact h1 ⟨by omega, rfl⟩
          | cons a as =>
            cases as with
            | nil => simp at hs; exact h2 ⟨by rw [← hl, hs]; rfl, a, rfl⟩
            | cons _ _ => simp at hs; omega
        · cases cs with
          | nil =>
            simp only [extract]
            split
            · exact if_neg (fun h3 => h1 ⟨h3, rfl⟩)
            · rename_i h; simp at h
            · rfl
          | cons a as =>
            cases as with
            | nil => simp only [extract]; exact if_neg (fun h3 => h2 ⟨h3, _, rfl⟩)
            | cons _ _ => simp only [extract]; split <;> simp_all

theorem wf_extract {k : KE} (h : wf k = true) : wf (extract k) = true := by
  rcases extract_cases h with ⟨_, e⟩ | ⟨o, b, rfl, e⟩ | ⟨o, ct, rfl, e⟩
  · rw [e]; exact h
  · rw [e]; rfl
  · rw [e]; exact ((wf_comm.1 h).2.2 ct (by simp)).2

/-! ### The result of a node simplification -/

/-- Names extracted from one-term composites. -/
def namesOf (cs : List KE) : List Base :=
  (cs.map extract).filterMap (fun k => match k with | base b => some b | _ => none)

/-- Remaining composites after extraction. -/
def restOf (cs : List KE) : List KE := (cs.map extract).filter (fun k => !k.isBase)

/-- Composite list after flattening same-kind composites. -/
def flat (op : Op) (cs : List KE) : List KE :=
  cs.filter (fun k => !isComm op k) ++ (cs.filter (isComm op)).flatMap ctsOf

theorem absorb_eq (cfg : Cfg) (op : Op) (b : Counter) (cts : List KE) :
    ∃ ns : List (Counter × Nat), ns.map Prod.fst = (cts.filter (isComm op)).map btsOf ∧
      absorb cfg op b cts = comm op
        (simplifyBase cfg op (simplifyBase cfg op ((absorbBts cfg op b ns).updateList (namesOf (flat op cts)))
          (restOf (flat op cts)).length) (restOf (flat op cts)).length)
        (restOf (flat op cts)) := by
  obtain ⟨ns, h1, h2⟩ := absorbHomogeneous_eq cfg op b cts
  refine ⟨ns, h1, ?_⟩
  unfold absorb
  rw [h2]
  rfl

theorem wf_absorbBts {cfg : Cfg} {op : Op} {ns : List (Counter × Nat)} {b : Counter} (hb : b.WF) :
    (absorbBts cfg op b ns).WF := by
  induction ns generalizing b with
  | nil => exact hb
  | cons p r ih => obtain ⟨hb', n⟩ := p; exact ih (wf_simplifyBase (Counter.wf_updateMap hb _))

theorem pos_absorbBts {cfg : Cfg} {op : Op} {ns : List (Counter × Nat)} {b : Counter} (hb : b.Pos) :
    (absorbBts cfg op b ns).Pos := by
  induction ns generalizing b with
  | nil => exact hb
  | cons p r ih => obtain ⟨hb', n⟩ := p; exact ih pos_simplifyBase

theorem mem_flat {op : Op} {cs : List KE} {k : KE} :
    k ∈ flat op cs ↔ (k ∈ cs ∧ isComm op k = false) ∨ ∃ h ∈ cs, isComm op h = true ∧ k ∈ ctsOf h := by
  simp [flat, and_assoc]

theorem mem_restOf {cs : List KE} {k : KE} : k ∈ restOf cs ↔ (∃ x ∈ cs, extract x = k) ∧ k.isBase = false := by
  simp [restOf]

theorem mem_namesOf {cs : List KE} {b : Base} : b ∈ namesOf cs ↔ ∃ x ∈ cs, extract x = base b := by
  simp only [namesOf, List.mem_filterMap, List.mem_map]
  constructor
  · rintro ⟨a, ⟨x, hx, rfl⟩, h⟩
    refine ⟨x, hx, ?_⟩
    cases he : extract x <;> simp [he] at h
    rw [h]
  · rintro ⟨x, hx, h⟩; exact ⟨base b, ⟨x, hx, h⟩, rfl⟩

theorem wf_of_mem_flat {op : Op} {cs : List KE} (h : ∀ k ∈ cs, k.isBase = false ∧ wf k = true) :
    ∀ k ∈ flat op cs, k.isBase = false ∧ wf k = true := by
  intro k hk
  rcases mem_flat.1 hk with ⟨h1, _⟩ | ⟨x, hx, _, hk⟩
  · exact h k h1
  · cases x with
    | comm o c xs => exact (wf_comm.1 (h _ hx).2).2.2 k hk
    | base b => simp [ctsOf] at hk
    | change _ _ _ => simp [ctsOf] at hk

theorem wf_absorb {cfg : Cfg} {op : Op} {b : Counter} {cts : List KE} (hb : b.WF)
    (h : ∀ k ∈ cts, k.isBase = false ∧ wf k = true) : wf (absorb cfg op b cts) = true := by
  obtain ⟨ns, _, e⟩ := absorb_eq cfg op b cts
  rw [e, wf_comm]
  refine ⟨wf_simplifyBase (wf_simplifyBase (Counter.wf_updateList (wf_absorbBts hb) _)), pos_simplifyBase, ?_⟩
  intro k hk
  obtain ⟨⟨x, hx, rfl⟩, hb⟩ := mem_restOf.1 hk
  exact ⟨hb, wf_extract (wf_of_mem_flat h x hx).2⟩

theorem isBase_simplify (cfg : Cfg) (k : KE) : (simplify cfg k).isBase = k.isBase := by
  cases k <;> simp [simplify, isBase, absorb]

theorem isComm_simplify (cfg : Cfg) (op : Op) (k : KE) : isComm op (simplify cfg k) = isComm op k := by
  cases k <;> simp [simplify, isComm, absorb]

theorem wf_simplify (cfg : Cfg) (k : KE) (h : wf k = true) : wf (simplify cfg k) = true := by
  induction k using KE.ind with
  | base b => rfl
  | comm o c cs ih =>
    rw [wf_comm] at h
    rw [simplify]
    apply wf_absorb h.1
    intro k hk
    rw [simplifyL_eq] at hk
    obtain ⟨x, hx, rfl⟩ := List.mem_map.1 hk
    exact ⟨by rw [isBase_simplify]; exact (h.2.2 x hx).1, ih x hx (h.2.2 x hx).2⟩
  | change c l r hl hr =>
    rw [wf_change] at h
    rw [simplify, wf_change]
    exact ⟨wf_extract (hl h.1), wf_extract (hr h.2)⟩

/-- Anything true of every node of an expression is true of every node of its extraction. -/
theorem allNodes_extract {P : KE → Bool} {k : KE} (hw : wf k = true) (hP : ∀ b, P (base b) = true)
    (h : allNodes P k = true) : allNodes P (extract k) = true := by
  rcases extract_cases hw with ⟨_, e⟩ | ⟨o, b, rfl, e⟩ | ⟨o, ct, rfl, e⟩
  · rw [e]; exact h
  · rw [e]; exact hP b
  · rw [e]; simp [allNodes, allNodesL] at h; exact h.2

theorem allNodes_mem_flat {P : KE → Bool} {op : Op} {cs : List KE} (h : ∀ k ∈ cs, allNodes P k = true) :
    ∀ k ∈ flat op cs, allNodes P k = true := by
  intro k hk
  rcases mem_flat.1 hk with ⟨h1, _⟩ | ⟨x, hx, _, hk⟩
  · exact h k h1
  · cases x with
    | comm o c xs =>
      have := h _ hx
      simp only [allNodes, Bool.and_eq_true, allNodesL_iff] at this
      exact this.2 k hk
    | base b => simp [ctsOf] at hk
    | change _ _ _ => simp [ctsOf] at hk

/-- A node predicate established by `simplify_base_terms` holds at every node after `simplify`. -/
theorem allNodes_simplify (cfg : Cfg) {P : KE → Bool} (hb : ∀ b, P (base b) = true)
    (hch : ∀ c l r, P (change c l r) = true)
    (hc : ∀ op c cs, c.WF → c.Pos → P (comm op (simplifyBase cfg op c cs.length) cs) = true)
    (k : KE) (hw : wf k = true) : allNodes P (simplify cfg k) = true := by
  induction k using KE.ind with
  | base b => exact hb b
  | comm o c cs ih =>
    rw [wf_comm] at hw
    rw [simplify, simplifyL_eq]
    obtain ⟨ns, _, e⟩ := absorb_eq cfg o c (cs.map (simplify cfg))
    rw [e, allNodes, Bool.and_eq_true, allNodesL_iff]
    refine ⟨hc _ _ _ (wf_simplifyBase (Counter.wf_updateList (wf_absorbBts hw.1) _)) pos_simplifyBase, ?_⟩
    intro k hk
    obtain ⟨⟨x, hx, rfl⟩, _⟩ := mem_restOf.1 hk
    have hwx : ∀ k ∈ cs.map (simplify cfg), k.isBase = false ∧ wf k = true := by
      intro k hk
      obtain ⟨y, hy, rfl⟩ := List.mem_map.1 hk
      exact ⟨by rw [isBase_simplify]; exact (hw.2.2 y hy).1, wf_simplify cfg y (hw.2.2 y hy).2⟩
    refine allNodes_extract (wf_of_mem_flat hwx x hx).2 hb ?_
    apply allNodes_mem_flat _ x hx
    intro k hk
    obtain ⟨y, hy, rfl⟩ := List.mem_map.1 hk
    exact ih y hy (hw.2.2 y hy).2
  | change c l r hl hr =>
    rw [wf_change] at hw
    rw [simplify, allNodes, Bool.and_eq_true, Bool.and_eq_true]
    exact ⟨⟨hch _ _ _, allNodes_extract (wf_simplify cfg l hw.1) hb (hl hw.1)⟩,
      allNodes_extract (wf_simplify cfg r hw.2) hb (hr hw.2)⟩

/-! ### No singletons below the root -/

theorem allNodes_of_allBelow {P : KE → Bool} {k : KE} (h1 : P k = true) (h2 : allBelow P k = true) :
    allNodes P k = true := by
  cases k <;> simp_all [allNodes, allBelow]

theorem allNodes_extract_of_below {P : KE → Bool} (hP : ∀ k, isSingleton k = false → P k = true) {k : KE}
    (hw : wf k = true) (h : allBelow P k = true) : allNodes P (extract k) = true := by
  rcases extract_cases hw with ⟨hs, e⟩ | ⟨o, b, rfl, e⟩ | ⟨o, ct, rfl, e⟩
  · rw [e]; exact allNodes_of_allBelow (hP k hs) h
  · rw [e]; exact hP _ rfl
  · rw [e]; simp [allBelow, allNodesL] at h; exact h

theorem allBelow_mem_flat {P : KE → Bool} {op : Op} {cs : List KE} (h : ∀ k ∈ cs, allBelow P k = true) :
    ∀ k ∈ flat op cs, allBelow P k = true := by
  intro k hk
  rcases mem_flat.1 hk with ⟨h1, _⟩ | ⟨x, hx, _, hk⟩
  · exact h k h1
  · cases x with
    | comm o c xs =>
      have := h _ hx
      simp only [allBelow, allNodesL_iff] at this
      have := this k hk
      cases k <;> simp_all [allNodes, allBelow]
    | base b => simp [ctsOf] at hk
    | change _ _ _ => simp [ctsOf] at hk

theorem allBelow_simplify (cfg : Cfg) (k : KE) (hw : wf k = true) :
    allBelow (fun n => !n.isSingleton) (simplify cfg k) = true := by
  have hP : ∀ k : KE, isSingleton k = false → (fun n : KE => !n.isSingleton) k = true := by
    intro k h; simp [h]
  induction k using KE.ind with
  | base b => rfl
  | comm o c cs ih =>
    rw [wf_comm] at hw
    rw [simplify, simplifyL_eq]
    obtain ⟨ns, _, e⟩ := absorb_eq cfg o c (cs.map (simplify cfg))
    rw [e, allBelow, allNodesL_iff]
    intro k hk
    obtain ⟨⟨x, hx, rfl⟩, _⟩ := mem_restOf.1 hk
    have hwx : ∀ k ∈ cs.map (simplify cfg), k.isBase = false ∧ wf k = true := by
      intro k hk
      obtain ⟨y, hy, rfl⟩ := List.mem_map.1 hk
      exact ⟨by rw [isBase_simplify]; exact (hw.2.2 y hy).1, wf_simplify cfg y (hw.2.2 y hy).2⟩
    refine allNodes_extract_of_below hP (wf_of_mem_flat hwx x hx).2 ?_
    apply allBelow_mem_flat _ x hx
    intro k hk
    obtain ⟨y, hy, rfl⟩ := List.mem_map.1 hk
    exact ih y hy (hw.2.2 y hy).2
  | change c l r hl hr =>
    rw [wf_change] at hw
    rw [simplify, allBelow, Bool.and_eq_true]
    exact ⟨allNodes_extract_of_below hP (wf_simplify cfg l hw.1) (hl hw.1),
      allNodes_extract_of_below hP (wf_simplify cfg r hw.2) (hr hw.2)⟩

/-! ### Nothing is introduced -/

theorem get_simplifyBase_le {cfg : Cfg} {op : Op} {c : Counter} {n : Nat} (hc : c.WF) (hp : c.Pos) (b : Base) :
    (simplifyBase cfg op c n).get b ≤ c.get b := by
  have h0 := hp.nonneg
  have := h0 b
  cases op with
  | sum =>
    simp only [simplifyBase]
    rw [get_simplifyBaseSum hc]
    cases b <;> simp <;> omega
  | prod =>
    simp only [simplifyBase]
    by_cases hw : 0 < c.get .WN
    · rw [get_simplifyBaseProd_WN hc h0 hw]
      split
      · rename_i e; subst e; omega
      · split <;> omega
    · rw [get_simplifyBaseProd_noWN hc h0 (by have := h0 .WN; omega)]
      cases b <;> simp <;> omega

theorem elements_simplifyBase {cfg : Cfg} {op : Op} {c : Counter} {n : Nat} (hc : c.WF) (hp : c.Pos) :
    (simplifyBase cfg op c n).elements.Subperm c.elements :=
  Counter.elements_subperm (wf_simplifyBase hc) hc (get_simplifyBase_le hc hp)

theorem elements_absorbBts {cfg : Cfg} {op : Op} {ns : List (Counter × Nat)} {b : Counter} (hb : b.WF) (pb : b.Pos)
    (hn : ∀ p ∈ ns, p.1.WF ∧ p.1.Pos) :
    (absorbBts cfg op b ns).elements.Subperm (b.elements ++ (ns.map Prod.fst).flatMap Counter.elements) := by
  induction ns generalizing b with
  | nil => simp only [absorbBts, List.map_nil, List.flatMap_nil, List.append_nil]; exact List.Subperm.refl _
  | cons p r ih =>
    obtain ⟨hb', n⟩ := p
    have h1 := (hn (hb', n) (by simp))
    have hwu := Counter.wf_updateMap hb hb'
    have hpu := Counter.pos_updateMap pb h1.2
    refine (ih (wf_simplifyBase hwu) pos_simplifyBase (fun p hp => hn p (by simp [hp]))).trans ?_
    rw [List.map_cons, List.flatMap_cons, ← List.append_assoc]
    refine List.Subperm.append ?_ (List.Subperm.refl _)
    exact (elements_simplifyBase hwu hpu).trans (Counter.elements_updateMap hb pb h1.1 h1.2).subperm

theorem bases_extract {k : KE} (h : wf k = true) : bases (extract k) = bases k := by
  rcases extract_cases h with ⟨_, e⟩ | ⟨o, b, rfl, e⟩ | ⟨o, ct, rfl, e⟩
  · rw [e]
  · rw [e]; rfl
  · rw [e]; simp [bases, basesL, Counter.elements]

theorem changes_extract {k : KE} (h : wf k = true) : changes (extract k) = changes k := by
  rcases extract_cases h with ⟨_, e⟩ | ⟨o, b, rfl, e⟩ | ⟨o, ct, rfl, e⟩
  · rw [e]
  · rw [e]; rfl
  · rw [e]; simp [changes, changesL]

theorem bases_names_rest {cs : List KE} (h : ∀ k ∈ cs, wf k = true) :
    (namesOf cs ++ (restOf cs).flatMap bases).Perm (cs.flatMap bases) := by
  induction cs with
  | nil => exact List.Perm.refl _
  | cons k ks ih =>
    have ih := ih (fun x hx => h x (by simp [hx]))
    rw [List.flatMap_cons, ← bases_extract (h k (by simp))]
    cases he : extract k with
    | base b =>
      have e1 : namesOf (k :: ks) = b :: namesOf ks := by simp [namesOf, he]
      have e2 : restOf (k :: ks) = restOf ks := by simp [restOf, he, isBase]
      rw [e1, e2]; exact ih.cons b
    | comm o c xs =>
      have e1 : namesOf (k :: ks) = namesOf ks := by simp [namesOf, he]
      have e2 : restOf (k :: ks) = comm o c xs :: restOf ks := by simp [restOf, he, isBase]
      rw [e1, e2, List.flatMap_cons]
      exact List.Perm.trans (List.perm_append_comm_assoc _ _ _) (ih.append_left _)
    | change c l r =>
      have e1 : namesOf (k :: ks) = namesOf ks := by simp [namesOf, he]
      have e2 : restOf (k :: ks) = change c l r :: restOf ks := by simp [restOf, he, isBase]
      rw [e1, e2, List.flatMap_cons]
      exact List.Perm.trans (List.perm_append_comm_assoc _ _ _) (ih.append_left _)

theorem changes_rest {cs : List KE} (h : ∀ k ∈ cs, wf k = true) :
    ((restOf cs).flatMap changes) = (cs.flatMap changes) := by
  induction cs with
  | nil => rfl
  | cons k ks ih =>
    have ih := ih (fun x hx => h x (by simp [hx]))
    rw [List.flatMap_cons, ← changes_extract (h k (by simp)), ← ih]
    cases he : extract k with
    | base b =>
      have e2 : restOf (k :: ks) = restOf ks := by simp [restOf, he, isBase]
      rw [e2]; rfl
    | comm o c xs =>
      have e2 : restOf (k :: ks) = comm o c xs :: restOf ks := by simp [restOf, he, isBase]
      rw [e2, List.flatMap_cons]
    | change c l r =>
      have e2 : restOf (k :: ks) = change c l r :: restOf ks := by simp [restOf, he, isBase]
      rw [e2, List.flatMap_cons]

/-- Flattening keeps every base kernel occurrence: those of the flattened nodes' own base terms go to
the parent. -/
theorem bases_flat {op : Op} (cs : List KE) :
    (((cs.filter (isComm op)).map btsOf).flatMap Counter.elements ++ (flat op cs).flatMap bases).Perm
      (cs.flatMap bases) := by
  induction cs with
  | nil => exact List.Perm.refl _
  | cons k ks ih =>
    rw [List.flatMap_cons]
    by_cases hk : isComm op k = true
    · obtain ⟨c, xs, rfl⟩ := isComm_iff.1 hk
      have e1 : (flat op (comm op c xs :: ks)).flatMap bases =
          (ks.filter (fun k => !isComm op k)).flatMap bases ++ (xs.flatMap bases ++
            ((ks.filter (isComm op)).flatMap ctsOf).flatMap bases) := by
        simp [flat, hk, ctsOf]
      have e2 : (flat op ks).flatMap bases = (ks.filter (fun k => !isComm op k)).flatMap bases ++
            ((ks.filter (isComm op)).flatMap ctsOf).flatMap bases := by
        simp [flat]
      rw [e1, List.filter_cons_of_pos hk, List.map_cons, List.flatMap_cons, bases, basesL_eq]
      rw [e2] at ih
      show (c.elements ++ _ ++ _).Perm _
      rw [List.append_assoc, List.append_assoc]
      apply List.Perm.append_left
      refine List.Perm.trans ?_ (ih.append_left (xs.flatMap bases))
      refine List.Perm.trans (List.Perm.append_left _ (List.perm_append_comm_assoc _ _ _)) ?_
      exact List.perm_append_comm_assoc _ _ _
    · have hk' : isComm op k = false := by simpa using hk
      have e1 : flat op (k :: ks) = k :: flat op ks := by simp [flat, hk']
      rw [e1, List.filter_cons_of_neg hk, List.flatMap_cons]
      exact List.Perm.trans (List.perm_append_comm_assoc _ _ _) (ih.append_left _)

theorem changes_flat {op : Op} (cs : List KE) :
    ((flat op cs).flatMap changes).Perm (cs.flatMap changes) := by
  induction cs with
  | nil => exact List.Perm.refl _
  | cons k ks ih =>
    rw [List.flatMap_cons]
    by_cases hk : isComm op k = true
    · obtain ⟨c, xs, rfl⟩ := isComm_iff.1 hk
      have e1 : (flat op (comm op c xs :: ks)).flatMap changes =
          (ks.filter (fun k => !isComm op k)).flatMap changes ++ (xs.flatMap changes ++
            ((ks.filter (isComm op)).flatMap ctsOf).flatMap changes) := by
        simp [flat, hk, ctsOf]
      have e2 : (flat op ks).flatMap changes = (ks.filter (fun k => !isComm op k)).flatMap changes ++
            ((ks.filter (isComm op)).flatMap ctsOf).flatMap changes := by
        simp [flat]
      rw [e1, changes, changesL_eq]
      rw [e2] at ih
      refine List.Perm.trans ?_ (ih.append_left (xs.flatMap changes))
      exact List.perm_append_comm_assoc _ _ _
    · have hk' : isComm op k = false := by simpa using hk
      have e1 : flat op (k :: ks) = k :: flat op ks := by simp [flat, hk']
      rw [e1, List.flatMap_cons]
      exact ih.append_left _

theorem subperm_flatMap {α β : Type} {f g : α → List β} : ∀ {l : List α}, (∀ a ∈ l, (f a).Subperm (g a)) →
    (l.flatMap f).Subperm (l.flatMap g)
  | [], _ => List.Subperm.refl _
  | a :: l, h => by
    rw [List.flatMap_cons, List.flatMap_cons]
    exact (h a (by simp)).append (subperm_flatMap (fun x hx => h x (by simp [hx])))

theorem perm_flatMap {α β : Type} {f g : α → List β} : ∀ {l : List α}, (∀ a ∈ l, (f a).Perm (g a)) →
    (l.flatMap f).Perm (l.flatMap g)
  | [], _ => List.Perm.refl _
  | a :: l, h => by
    rw [List.flatMap_cons, List.flatMap_cons]
    exact (h a (by simp)).append (perm_flatMap (fun x hx => h x (by simp [hx])))

theorem wf_mem_map_simplify {cfg : Cfg} {cs : List KE} (h : ∀ k ∈ cs, k.isBase = false ∧ wf k = true) :
    ∀ k ∈ cs.map (simplify cfg), k.isBase = false ∧ wf k = true := by
  intro k hk
  obtain ⟨y, hy, rfl⟩ := List.mem_map.1 hk
  exact ⟨by rw [isBase_simplify]; exact (h y hy).1, wf_simplify cfg y (h y hy).2⟩

theorem ns_wf {op : Op} {cs : List KE} {ns : List (Counter × Nat)} (h : ∀ k ∈ cs, k.isBase = false ∧ wf k = true)
    (e : ns.map Prod.fst = (cs.filter (isComm op)).map btsOf) : ∀ p ∈ ns, p.1.WF ∧ p.1.Pos := by
  intro p hp
  have : p.1 ∈ ns.map Prod.fst := List.mem_map.2 ⟨p, hp, rfl⟩
  rw [e] at this
  obtain ⟨k, hk, e2⟩ := List.mem_map.1 this
  obtain ⟨hk1, hk2⟩ := List.mem_filter.1 hk
  obtain ⟨c, xs, rfl⟩ := isComm_iff.1 hk2
  have := wf_comm.1 (h _ hk1).2
  rw [← e2]; exact ⟨this.1, this.2.1⟩

theorem bases_absorb {cfg : Cfg} {op : Op} {b : Counter} {cts : List KE} (hb : b.WF) (pb : b.Pos)
    (h : ∀ k ∈ cts, k.isBase = false ∧ wf k = true) :
    (bases (absorb cfg op b cts)).Subperm (b.elements ++ cts.flatMap bases) := by
  obtain ⟨ns, e1, e⟩ := absorb_eq cfg op b cts
  rw [e, bases, basesL_eq]
  have hn := ns_wf h e1
  have hwA := wf_absorbBts (cfg := cfg) (op := op) (ns := ns) hb
  have hpA := pos_absorbBts (cfg := cfg) (op := op) (ns := ns) pb
  have hwU := Counter.wf_updateList hwA (namesOf (flat op cts))
  have hpU := Counter.pos_updateList hpA (namesOf (flat op cts))
  have s1 := elements_simplifyBase (cfg := cfg) (op := op) (n := (restOf (flat op cts)).length)
    (wf_simplifyBase (cfg := cfg) (op := op) (n := (restOf (flat op cts)).length) hwU) pos_simplifyBase
  have s2 := elements_simplifyBase (cfg := cfg) (op := op) (n := (restOf (flat op cts)).length) hwU hpU
  have s3 := (Counter.elements_updateList hwA hpA (namesOf (flat op cts))).subperm
  have s4 := elements_absorbBts (cfg := cfg) (op := op) hb pb hn
  refine ((s1.trans (s2.trans s3)).append (List.Subperm.refl _)).trans ?_
  rw [List.append_assoc]
  have p1 := bases_names_rest (cs := flat op cts) (fun k hk => (wf_of_mem_flat h k hk).2)
  refine (s4.append p1.subperm).trans ?_
  rw [List.append_assoc, e1]
  exact ((bases_flat cts).append_left _).subperm

theorem bases_simplify (cfg : Cfg) (k : KE) (hw : wf k = true) : (bases (simplify cfg k)).Subperm (bases k) := by
  induction k using KE.ind with
  | base b => exact List.Subperm.refl _
  | comm o c cs ih =>
    rw [wf_comm] at hw
    rw [simplify, simplifyL_eq]
    refine (bases_absorb hw.1 hw.2.1 (wf_mem_map_simplify hw.2.2)).trans ?_
    rw [bases, basesL_eq, List.flatMap_map]
    exact (List.Subperm.refl _).append (subperm_flatMap (fun x hx => ih x hx (hw.2.2 x hx).2))
  | change c l r hl hr =>
    rw [wf_change] at hw
    rw [simplify, bases, bases, bases_extract (wf_simplify cfg l hw.1), bases_extract (wf_simplify cfg r hw.2)]
    exact (hl hw.1).append (hr hw.2)

theorem changes_simplify (cfg : Cfg) (k : KE) (hw : wf k = true) : (changes (simplify cfg k)).Perm (changes k) := by
  induction k using KE.ind with
  | base b => exact List.Perm.refl _
  | comm o c cs ih =>
    rw [wf_comm] at hw
    rw [simplify, simplifyL_eq]
    have h := wf_mem_map_simplify (cfg := cfg) hw.2.2
    obtain ⟨ns, e1, e⟩ := absorb_eq cfg o c (cs.map (simplify cfg))
    rw [e, changes, changesL_eq, changes_rest (fun k hk => (wf_of_mem_flat h k hk).2)]
    refine (changes_flat _).trans ?_
    rw [List.flatMap_map, changes, changesL_eq]
    exact perm_flatMap (fun x hx => ih x hx (hw.2.2 x hx).2)
  | change c l r hl hr =>
    rw [wf_change] at hw
    rw [simplify, changes, changes, changes_extract (wf_simplify cfg l hw.1),
      changes_extract (wf_simplify cfg r hw.2)]
    exact ((hl hw.1).append (hr hw.2)).cons _

end KE
end GPyABCD
