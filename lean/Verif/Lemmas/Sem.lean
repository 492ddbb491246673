import Verif.Spec.Sem
import Verif.Lemmas.Construct
import Mathlib.Algebra.Group.Pointwise.Set.BigOperators
import Mathlib.Algebra.BigOperators.Group.List.Basic

/-!
Abstract part of C02: which algebraic laws of the base families make simplification meaning preserving.
The auxiliary denotation `den'` multiplies every product by the constant family, which changes nothing
on non-empty expressions because every family is closed under scaling.
-/

namespace GPyABCD
open scoped Pointwise
open KE

/-- Algebraic laws of the families. -/
structure Laws (I : Interp) : Prop where
  wn_add : I.F .WN + I.F .WN = I.F .WN
  c_add : I.F .C + I.F .C = I.F .C
  c_base : ∀ b, I.F .C * I.F b = I.F b
  c_dist : ∀ A B : Fam, I.F .C * A = A → I.F .C * B = B → I.F .C * (A + B) = A + B
  c_zero : I.F .C * (0 : Fam) = 0
  c_chg : ∀ (c : CC) (A B : Fam), I.F .C * A = A → I.F .C * B = B → I.F .C * I.chg c A B = I.chg c A B
  se_mul : I.F .SE * I.F .SE = I.F .SE
  wn_wn : I.F .WN * I.F .WN = I.F .WN
  wn_se : I.F .WN * I.F .SE = I.F .WN
  wn_per : I.F .WN * I.F .PER = I.F .WN

/-- Relations between families compatible with all constructions. -/
structure Cong (I : Interp) (R : Fam → Fam → Prop) : Prop where
  refl : ∀ A, R A A
  trans : ∀ {A B C}, R A B → R B C → R A C
  add : ∀ {A A' B B'}, R A A' → R B B' → R (A + B) (A' + B')
  mul : ∀ {A A' B B'}, R A A' → R B B' → R (A * B) (A' * B')
  chg : ∀ {c A A' B B'}, R A A' → R B B' → R (I.chg c A B) (I.chg c A' B')

theorem Cong.eq (I : Interp) : Cong I (· = ·) :=
  ⟨fun _ => rfl, fun h h' => h.trans h', fun h h' => by rw [h, h'], fun h h' => by rw [h, h'],
    fun h h' => by rw [h, h']⟩

/-- Sum, or product times the constant family. -/
def opFold' (I : Interp) : Op → List Fam → Fam
  | .sum, l => l.sum
  | .prod, l => I.F .C * l.prod

theorem opFold'_perm (I : Interp) (o : Op) {l m : List Fam} (h : l.Perm m) : opFold' I o l = opFold' I o m := by
  cases o with
  | sum => exact h.sum_eq
  | prod => simp only [opFold', h.prod_eq]

theorem opFold'_cong {I : Interp} {R : Fam → Fam → Prop} (hR : Cong I R) (o : Op) {l m : List Fam}
    (h : List.Forall₂ R l m) : R (opFold' I o l) (opFold' I o m) := by
  cases o with
  | sum =>
    simp only [opFold']
    induction h with
    | nil => exact hR.refl _
    | cons h1 _ ih => simpa using hR.add h1 ih
  | prod =>
    simp only [opFold']
    refine hR.mul (hR.refl _) ?_
    induction h with
    | nil => exact hR.refl _
    | cons h1 _ ih => simpa using hR.mul h1 ih

theorem opFold'_nest {I : Interp} (hI : Laws I) (o : Op) (l m : List Fam) :
    opFold' I o (opFold' I o l :: m) = opFold' I o (l ++ m) := by
  cases o with
  | sum => simp [opFold']
  | prod =>
    simp only [opFold', List.prod_cons, List.prod_append]
    rw [mul_assoc, ← mul_assoc (I.F .C) (I.F .C), hI.c_base]

theorem opFold'_one {I : Interp} (o : Op) {X : Fam} (h : I.F .C * X = X) : opFold' I o [X] = X := by
  cases o with
  | sum => simp [opFold']
  | prod => simpa [opFold'] using h

theorem opFold'_base {I : Interp} {R : Fam → Fam → Prop} (hI : Laws I) (hR : Cong I R) (o : Op) {l l' m : List Fam}
    (h : R (opFold' I o l) (opFold' I o l')) : R (opFold' I o (l ++ m)) (opFold' I o (l' ++ m)) := by
  rw [← opFold'_nest hI, ← opFold'_nest hI]
  apply opFold'_cong hR
  refine List.Forall₂.cons h ?_
  induction m with
  | nil => exact List.Forall₂.nil
  | cons a m ih => exact List.Forall₂.cons (hR.refl _) ih

theorem closed_opFold' {I : Interp} (hI : Laws I) (o : Op) {l : List Fam} (h : ∀ X ∈ l, I.F .C * X = X) :
    I.F .C * opFold' I o l = opFold' I o l := by
  cases o with
  | sum =>
    simp only [opFold']
    induction l with
    | nil => simpa using hI.c_zero
    | cons a l ih =>
      rw [List.sum_cons]
      exact hI.c_dist _ _ (h a (by simp)) (ih (fun X hX => h X (by simp [hX])))
  | prod => simp only [opFold']; rw [← mul_assoc, hI.c_base]

/-- `opFold` and `opFold'` agree on non-empty lists of scalable families. -/
theorem opFold_eq {I : Interp} (o : Op) {l : List Fam} (hl : l ≠ []) (h : ∀ X ∈ l, I.F .C * X = X) :
    opFold o l = opFold' I o l := by
  cases o with
  | sum => rfl
  | prod =>
    cases l with
    | nil => simp at hl
    | cons a l => simp only [opFold, opFold', List.prod_cons]; rw [← mul_assoc, h a (by simp)]

namespace KE

mutual
/-- `den` with products multiplied by the constant family. -/
def den' (I : Interp) : KE → Fam
  | base b => I.F b
  | comm o c cs => opFold' I o (c.elements.map I.F ++ denL' I cs)
  | change c l r => I.chg c (den' I l) (den' I r)
/-- The families of a list of expressions. -/
def denL' (I : Interp) : List KE → List Fam
  | [] => []
  | k :: ks => den' I k :: denL' I ks
end

theorem denL_eq (I : Interp) (cs : List KE) : denL I cs = cs.map (den I) := by
  induction cs with
  | nil => rfl
  | cons k ks ih => simp [denL, ih]

theorem denL'_eq (I : Interp) (cs : List KE) : denL' I cs = cs.map (den' I) := by
  induction cs with
  | nil => rfl
  | cons k ks ih => simp [denL', ih]

variable {I : Interp}

theorem closed_den' (hI : Laws I) (k : KE) : I.F .C * den' I k = den' I k := by
  induction k using KE.ind with
  | base b => exact hI.c_base b
  | comm o c cs ih =>
    simp only [den', denL'_eq]
    apply closed_opFold' hI
    intro X hX
    rcases List.mem_append.1 hX with h | h
    · obtain ⟨b, _, rfl⟩ := List.mem_map.1 h; exact hI.c_base b
    · obtain ⟨k, hk, rfl⟩ := List.mem_map.1 h; exact ih k hk
  | change c l r hl hr => exact hI.c_chg c _ _ hl hr

theorem den_eq_den' (hI : Laws I) (k : KE) (h : noEmpty k = true) : den I k = den' I k := by
  induction k using KE.ind with
  | base b => rfl
  | comm o c cs ih =>
    simp only [noEmpty, allNodes, Bool.and_eq_true, allNodesL_iff, Bool.not_eq_true'] at h
    have e : cs.map (den I) = cs.map (den' I) := List.map_congr_left (fun k hk => ih k hk (h.2 k hk))
    simp only [den, den', denL_eq, denL'_eq, e]
    apply opFold_eq
    · intro hn
      have := h.1
      simp only [List.append_eq_nil_iff, List.map_eq_nil_iff] at hn
      simp [isEmptyNode, hn.1, hn.2] at this
    · intro X hX
      rcases List.mem_append.1 hX with h | h
      · obtain ⟨b, _, rfl⟩ := List.mem_map.1 h; exact hI.c_base b
      · obtain ⟨k, hk, rfl⟩ := List.mem_map.1 h; exact closed_den' hI k
  | change c l r hl hr =>
    simp only [noEmpty, allNodes, Bool.and_eq_true] at h
    simp only [den, den', hl h.1.2, hr h.2]

theorem den'_extract (hI : Laws I) {k : KE} (h : wf k = true) : den' I (extract k) = den' I k := by
  rcases extract_cases h with ⟨_, e⟩ | ⟨o, b, rfl, e⟩ | ⟨o, ct, rfl, e⟩
  · rw [e]
  · rw [e]; simp [den', denL', Counter.elements, opFold'_one _ (hI.c_base b)]
  · rw [e]; simp [den', denL', Counter.elements, opFold'_one _ (closed_den' hI ct)]

theorem den'_names_rest (hI : Laws I) {cs : List KE} (h : ∀ k ∈ cs, wf k = true) :
    ((namesOf cs).map I.F ++ (restOf cs).map (den' I)).Perm (cs.map (den' I)) := by
  induction cs with
  | nil => simp [namesOf, restOf]
  | cons k ks ih =>
    have ih := ih (fun x hx => h x (by simp [hx]))
    have hk := den'_extract hI (h k (by simp))
    cases he : extract k with
    | base b =>
      have e1 : namesOf (k :: ks) = b :: namesOf ks := by simp [namesOf, he]
      have e2 : restOf (k :: ks) = restOf ks := by simp [restOf, he, isBase]
      rw [e1, e2, List.map_cons, List.map_cons, ← hk, he]
      exact ih.cons _
    | comm o c cs =>
      have e1 : namesOf (k :: ks) = namesOf ks := by simp [namesOf, he]
      have e2 : restOf (k :: ks) = comm o c cs :: restOf ks := by simp [restOf, he, isBase]
      rw [e1, e2, List.map_cons, List.map_cons, ← hk, he]
      exact List.perm_middle.trans (ih.cons _)
    | change c l r =>
      have e1 : namesOf (k :: ks) = namesOf ks := by simp [namesOf, he]
      have e2 : restOf (k :: ks) = change c l r :: restOf ks := by simp [restOf, he, isBase]
      rw [e1, e2, List.map_cons, List.map_cons, ← hk, he]
      exact List.perm_middle.trans (ih.cons _)

/-- Absorbing same-kind composites, in terms of families. -/
theorem den'_flat (hI : Laws I) (op : Op) (cs : List KE) (m : List Fam) :
    opFold' I op (m ++ ((cs.filter (isComm op)).map btsOf).flatMap (fun c => c.elements.map I.F) ++
      (flat op cs).map (den' I)) = opFold' I op (m ++ cs.map (den' I)) := by
  induction cs generalizing m with
  | nil => simp [flat]
  | cons k ks ih =>
    by_cases hk : isComm op k = true
    · obtain ⟨c, xs, rfl⟩ := isComm_iff.1 hk
      have e : opFold' I op (m ++ (comm op c xs :: ks).map (den' I)) =
          opFold' I op ((m ++ c.elements.map I.F ++ xs.map (den' I)) ++ ks.map (den' I)) := by
        rw [List.map_cons]
        rw [opFold'_perm I op (List.perm_middle), den', opFold'_nest hI, denL'_eq]
        apply opFold'_perm
        rw [← List.append_assoc]
        exact (List.perm_append_comm.trans (by rw [List.append_assoc])).append_right _
      rw [e, ← ih]
      apply opFold'_perm
      have hf : flat op (comm op c xs :: ks) = ks.filter (fun k => !isComm op k) ++ (xs ++ (ks.filter (isComm op)).flatMap ctsOf) := by
        simp [flat, isComm, ctsOf]
      rw [hf, List.filter_cons_of_pos hk]
      simp only [flat, List.map_cons, List.flatMap_cons, btsOf, List.map_append, List.append_assoc]
      apply List.Perm.append_left
      apply List.Perm.append_left
      rw [← List.append_assoc, ← List.append_assoc, ← List.append_assoc (xs.map (den' I)), ← List.append_assoc (xs.map (den' I) ++ _)]
      apply List.Perm.append_right
      rw [List.append_assoc]
      exact List.perm_append_comm.trans (by rw [List.append_assoc]; exact List.perm_append_comm)
    · have hk' : isComm op k = false := by simpa using hk
      have hf : flat op (k :: ks) = k :: flat op ks := by simp [flat, hk']
      rw [hf, List.filter_cons_of_neg hk, List.map_cons, List.map_cons]
      rw [opFold'_perm I op (List.perm_middle (l₁ := m))]
      have := ih (den' I k :: m)
      simp only [List.cons_append] at this
      rw [← this]
      apply opFold'_perm
      exact List.perm_middle

/-- Compatibility of `R` with base-term simplification, for counters using only allowed kernels. -/
def BaseOK (cfg : Cfg) (I : Interp) (R : Fam → Fam → Prop) (ok : Base → Prop) : Prop :=
  ∀ (op : Op) (c : Counter) (n : Nat), c.WF → c.Pos → (∀ b, 0 < c.get b → ok b) →
    R (opFold' I op ((simplifyBase cfg op c n).elements.map I.F)) (opFold' I op (c.elements.map I.F))

theorem get_pos_of_simplifyBase {cfg : Cfg} {op : Op} {c : Counter} {n : Nat} (hc : c.WF) (hp : c.Pos) {b : Base}
    (h : 0 < (simplifyBase cfg op c n).get b) : 0 < c.get b := by
  have := get_simplifyBase_le (cfg := cfg) (op := op) (n := n) hc hp b
  omega

theorem absorbBts_rel {cfg : Cfg} {R : Fam → Fam → Prop} {ok : Base → Prop} (hI : Laws I) (hR : Cong I R)
    (hB : BaseOK cfg I R ok) {op : Op} : ∀ {ns : List (Counter × Nat)} {b : Counter}, b.WF → b.Pos →
      (∀ p ∈ ns, p.1.WF ∧ p.1.Pos) → (∀ x, 0 < b.get x → ok x) → (∀ p ∈ ns, ∀ x, 0 < p.1.get x → ok x) →
      R (opFold' I op ((absorbBts cfg op b ns).elements.map I.F))
        (opFold' I op (b.elements.map I.F ++ (ns.map Prod.fst).flatMap (fun c => c.elements.map I.F))) ∧
      (∀ x, 0 < (absorbBts cfg op b ns).get x → ok x)
  | [], b, _, _, _, ho, _ => by simpa [absorbBts] using ⟨hR.refl _, ho⟩
  | (hb, m) :: ns, b, hw, hp, hns, ho, hon => by
    obtain ⟨w1, p1⟩ := hns (hb, m) (by simp)
    have wU := Counter.wf_updateMap hw hb
    have pU := Counter.pos_updateMap hp p1
    have oU : ∀ x, 0 < (b.updateMap hb).get x → ok x := by
      intro x hx
      rw [Counter.get_updateMap b w1] at hx
      by_cases h1 : 0 < b.get x
      · exact ho x h1
      · exact hon (hb, m) (by simp) x (by simp only at hx ⊢; omega)
    have ih := absorbBts_rel hI hR hB (op := op) (ns := ns) (b := simplifyBase cfg op (b.updateMap hb) (m + 1))
      (wf_simplifyBase wU) pos_simplifyBase (fun p hp => hns p (by simp [hp]))
      (fun x hx => oU x (get_pos_of_simplifyBase wU pU hx)) (fun p hp => hon p (by simp [hp]))
    simp only [absorbBts]
    refine ⟨?_, ih.2⟩
    refine hR.trans ih.1 ?_
    refine hR.trans (opFold'_base hI hR op (hB op _ _ wU pU oU)) ?_
    have := (Counter.elements_updateMap hw hp w1 p1).map I.F
    rw [opFold'_perm I op (this.append_right _)]
    simp only [List.map_append, List.map_cons, List.flatMap_cons, List.append_assoc]
    exact hR.refl _

theorem den'_absorb {cfg : Cfg} {R : Fam → Fam → Prop} {ok : Base → Prop} (hI : Laws I) (hR : Cong I R)
    (hB : BaseOK cfg I R ok) {op : Op} {b : Counter} {cts : List KE} (hb : b.WF) (pb : b.Pos)
    (h : ∀ k ∈ cts, k.isBase = false ∧ wf k = true) (ho : ∀ x, 0 < b.get x → ok x)
    (hoc : ∀ k ∈ cts, ∀ x ∈ bases k, ok x) :
    R (den' I (absorb cfg op b cts)) (opFold' I op (b.elements.map I.F ++ cts.map (den' I))) := by
  obtain ⟨ns, e1, e⟩ := absorb_eq cfg op b cts
  have hn := ns_wf h e1
  have hon : ∀ p ∈ ns, ∀ x, 0 < p.1.get x → ok x := by
    intro p hp x hx
    have h4 : p.1 ∈ ns.map Prod.fst := List.mem_map.2 ⟨p, hp, rfl⟩
    rw [e1] at h4
    obtain ⟨k, hk, e4⟩ := List.mem_map.1 h4
    obtain ⟨hk, hc⟩ := List.mem_filter.1 hk
    obtain ⟨c, xs, rfl⟩ := isComm_iff.1 hc
    apply hoc _ hk x
    simp only [bases, List.mem_append]
    left; rw [Counter.mem_elements (wf_comm.1 (h _ hk).2).1]
    rw [← e4] at hx; exact hx
  have hA := absorbBts_rel hI hR hB (op := op) hb pb hn ho hon
  have hwA := wf_absorbBts (cfg := cfg) (op := op) (ns := ns) hb
  have hpA := pos_absorbBts (cfg := cfg) (op := op) (ns := ns) pb
  have hwU := Counter.wf_updateList hwA (namesOf (flat op cts))
  have hpU := Counter.pos_updateList hpA (namesOf (flat op cts))
  have oU : ∀ x, 0 < ((absorbBts cfg op b ns).updateList (namesOf (flat op cts))).get x → ok x := by
    intro x hx
    rw [Counter.get_updateList] at hx
    by_cases h1 : 0 < (absorbBts cfg op b ns).get x
    · exact hA.2 x h1
    · have : x ∈ namesOf (flat op cts) := by
        rw [← List.count_pos_iff]; omega
      obtain ⟨y, hy, e5⟩ := mem_namesOf.1 this
      have hb' : x ∈ bases y := by
        rw [← bases_extract (wf_of_mem_flat h y hy).2, e5]; simp [bases]
      rcases mem_flat.1 hy with ⟨hy, _⟩ | ⟨z, hz, hc, hy⟩
      · exact hoc y hy x hb'
      · obtain ⟨c, xs, rfl⟩ := isComm_iff.1 hc
        apply hoc _ hz
        simp only [bases, basesL_eq, List.mem_append, List.mem_flatMap]
        exact Or.inr ⟨y, hy, hb'⟩
  rw [e, den', denL'_eq]
  have s1 := hB op _ (restOf (flat op cts)).length hwU hpU oU
  have s2 := hB op _ (restOf (flat op cts)).length
    (wf_simplifyBase (cfg := cfg) (op := op) (n := (restOf (flat op cts)).length) hwU) pos_simplifyBase
    (fun x hx => oU x (get_pos_of_simplifyBase hwU hpU hx))
  refine hR.trans (opFold'_base hI hR op (hR.trans s2 s1)) ?_
  have p1 := (Counter.elements_updateList hwA hpA (namesOf (flat op cts))).map I.F
  rw [opFold'_perm I op (p1.append_right _), List.map_append, List.append_assoc]
  rw [opFold'_perm I op ((den'_names_rest hI (fun k hk => (wf_of_mem_flat h k hk).2)).append_left _)]
  refine hR.trans (opFold'_base hI hR op hA.1) ?_
  rw [e1, den'_flat hI]
  exact hR.refl _

/-- Simplification relates the families of an expression, if base-term simplification does. -/
theorem den'_simplify {cfg : Cfg} {R : Fam → Fam → Prop} {ok : Base → Prop} (hI : Laws I) (hR : Cong I R)
    (hB : BaseOK cfg I R ok) (k : KE) (hw : wf k = true) (ho : ∀ x ∈ bases k, ok x) :
    R (den' I (simplify cfg k)) (den' I k) := by
  induction k using KE.ind with
  | base b => exact hR.refl _
  | comm o c cs ih =>
    have hw' := wf_comm.1 hw
    simp only [bases, basesL_eq, List.mem_append, List.mem_flatMap, Counter.mem_elements hw'.1] at ho
    rw [simplify, simplifyL_eq, den', denL'_eq]
    refine hR.trans (den'_absorb hI hR hB hw'.1 hw'.2.1 (wf_mem_map_simplify hw'.2.2)
      (fun x hx => ho x (Or.inl hx)) ?_) ?_
    · intro k hk x hx
      obtain ⟨y, hy, rfl⟩ := List.mem_map.1 hk
      exact ho x (Or.inr ⟨y, hy, (bases_simplify cfg y (hw'.2.2 y hy).2).subset hx⟩)
    · apply opFold'_cong hR
      apply List.rel_append
      · exact List.forall₂_same.2 (fun _ _ => hR.refl _)
      · rw [List.map_map, List.forall₂_map_left_iff, List.forall₂_map_right_iff, List.forall₂_same]
        exact fun k hk => ih k hk (hw'.2.2 k hk).2 (fun x hx => ho x (Or.inr ⟨k, hk, hx⟩))
  | change c l r hl hr =>
    have hw' := wf_change.1 hw
    simp only [bases, List.mem_append] at ho
    simp only [simplify, den']
    rw [den'_extract hI (wf_simplify cfg l hw'.1), den'_extract hI (wf_simplify cfg r hw'.2)]
    exact hR.chg (hl hw'.1 (fun x hx => ho x (Or.inl hx))) (hr hw'.2 (fun x hx => ho x (Or.inr hx)))

/-! ### Base-term simplification -/

/-- Occurrences of every base kernel, in a fixed order. -/
def blocks (n : Base → ℕ) : List Base :=
  List.replicate (n .WN) .WN ++ (List.replicate (n .C) .C ++ (List.replicate (n .LIN) .LIN ++
  (List.replicate (n .SE) .SE ++ (List.replicate (n .PER) .PER ++ (List.replicate (n .S) .S ++
  (List.replicate (n .Sr) .Sr ++ (List.replicate (n .SI) .SI ++ List.replicate (n .SIr) .SIr)))))))

theorem elements_blocks {c : Counter} (hc : c.WF) : c.elements.Perm (blocks (fun b => (c.get b).toNat)) := by
  rw [List.perm_iff_count]
  intro b
  rw [Counter.count_elements hc]
  cases b <;> simp [blocks, List.count_append, List.count_replicate]

theorem sum_elements {c : Counter} (hc : c.WF) (I : Interp) : (c.elements.map I.F).sum =
    (c.get .WN).toNat • I.F .WN + ((c.get .C).toNat • I.F .C + ((c.get .LIN).toNat • I.F .LIN +
    ((c.get .SE).toNat • I.F .SE + ((c.get .PER).toNat • I.F .PER + ((c.get .S).toNat • I.F .S +
    ((c.get .Sr).toNat • I.F .Sr + ((c.get .SI).toNat • I.F .SI + (c.get .SIr).toNat • I.F .SIr))))))) := by
  rw [((elements_blocks hc).map I.F).sum_eq]
  simp [blocks, List.sum_replicate]

theorem prod_elements {c : Counter} (hc : c.WF) (I : Interp) : (c.elements.map I.F).prod =
    I.F .WN ^ (c.get .WN).toNat * (I.F .C ^ (c.get .C).toNat * (I.F .LIN ^ (c.get .LIN).toNat *
    (I.F .SE ^ (c.get .SE).toNat * (I.F .PER ^ (c.get .PER).toNat * (I.F .S ^ (c.get .S).toNat *
    (I.F .Sr ^ (c.get .Sr).toNat * (I.F .SI ^ (c.get .SI).toNat * I.F .SIr ^ (c.get .SIr).toNat))))))) := by
  rw [((elements_blocks hc).map I.F).prod_eq]
  simp [blocks, List.prod_replicate]

theorem pow_idem {A : Fam} (h : A * A = A) : ∀ {n : ℕ}, 0 < n → A ^ n = A
  | 1, _ => pow_one A
  | n + 2, _ => by rw [pow_succ, pow_idem h (Nat.succ_pos n), h]

theorem nsmul_idem {A : Fam} (h : A + A = A) : ∀ {n : ℕ}, 0 < n → n • A = A
  | 1, _ => one_nsmul A
  | n + 2, _ => by rw [succ_nsmul, nsmul_idem h (Nat.succ_pos n), h]

theorem mul_pow_absorb {A B : Fam} (h : A * B = A) : ∀ n : ℕ, A * B ^ n = A
  | 0 => by simp
  | n + 1 => by rw [pow_succ, ← mul_assoc, mul_pow_absorb h n, h]

/-- Sums of base kernels keep their family when simplified, unless a constant beside an offset-linear
kernel is dropped. -/
theorem sum_simplifyBase (hI : Laws I) {cfg : Cfg} {c : Counter} (hc : c.WF) (hp : c.Pos)
    (h : cfg.linOffset = false ∨ c.get .C = 0 ∨ c.get .LIN = 0) :
    ((simplifyBaseSum cfg c).elements.map I.F).sum = (c.elements.map I.F).sum := by
  have h0 := hp.nonneg
  have hw := wf_simplifyBase (cfg := cfg) (op := .sum) (n := 0) hc
  rw [sum_elements (c := simplifyBaseSum cfg c) hw, sum_elements hc]
  have g := fun b => get_simplifyBaseSum (cfg := cfg) hc b
  have e1 : ((simplifyBaseSum cfg c).get .WN).toNat • I.F .WN = (c.get .WN).toNat • I.F .WN := by
    simp only [g]
    by_cases hz : 0 < c.get .WN
    · rw [nsmul_idem hI.wn_add (by omega), nsmul_idem hI.wn_add (by omega)]
    · congr 1; omega
  have e2 : ((simplifyBaseSum cfg c).get .C).toNat • I.F .C = (c.get .C).toNat • I.F .C := by
    rw [g]
    have := h0 .C
    by_cases hz : 0 < c.get .C
    · have : ¬ (cfg.linOffset = true ∧ 0 < c.get .LIN) := by
        rintro ⟨h1, h2⟩; rcases h with h | h | h
        · simp [h1] at h
        · omega
        · omega
      simp only [if_neg this]
      rw [nsmul_idem hI.c_add (by omega), nsmul_idem hI.c_add (by omega)]
    · have h1 : c.get .C = 0 := by omega
      simp [h1]
  have e3 : ∀ b, b ≠ .WN → b ≠ .C → ((simplifyBaseSum cfg c).get b).toNat = (c.get b).toNat := by
    intro b h1 h2
    rw [g]
    have := h0 b
    cases b <;> first | contradiction | (simp only; omega)
  rw [e1, e2, e3 .LIN (by decide) (by decide), e3 .SE (by decide) (by decide), e3 .PER (by decide) (by decide),
    e3 .S (by decide) (by decide), e3 .Sr (by decide) (by decide), e3 .SI (by decide) (by decide),
    e3 .SIr (by decide) (by decide)]

/-- Products of base kernels, times a constant, keep their family when simplified. -/
theorem prod_simplifyBase (hI : Laws I) {c : Counter} {n : Nat} (hc : c.WF) (hp : c.Pos) :
    I.F .C * ((simplifyBaseProd c n).elements.map I.F).prod = I.F .C * (c.elements.map I.F).prod := by
  have h0 := hp.nonneg
  have hw := wf_simplifyBase (cfg := .default) (op := .prod) (n := n) hc
  rw [prod_elements (c := simplifyBaseProd c n) hw, prod_elements hc]
  have hC : ∀ (m : ℕ) (X : Fam), I.F .C * (I.F .C ^ m * X) = I.F .C * X := by
    intro m X; rw [← mul_assoc, mul_pow_absorb (hI.c_base .C)]
  have hC' : ∀ (m : ℕ) (W X : Fam), I.F .C * (W * (I.F .C ^ m * X)) = I.F .C * (W * X) := by
    intro m W X
    rw [mul_left_comm, hC, mul_left_comm]
  rw [hC', hC']
  by_cases hz : 0 < c.get .WN
  · have g := fun b => get_simplifyBaseProd_WN (n := n) hc h0 hz b
    simp only [g]
    simp only [reduceCtorEq, if_true, if_false, Base.isSigmoid, or_true, or_self, or_false, Bool.false_eq_true,
      Int.toNat_zero, Int.toNat_one, pow_one, pow_zero, one_mul]
    rw [pow_idem hI.wn_wn (by omega)]
    have hS : ∀ (m : ℕ) (L X : Fam), I.F .WN * (L * (I.F .SE ^ m * X)) = I.F .WN * (L * X) := by
      intro m L X
      rw [mul_left_comm, ← mul_assoc (I.F .WN), mul_pow_absorb hI.wn_se, mul_left_comm]
    have hP : ∀ (m : ℕ) (L X : Fam), I.F .WN * (L * (I.F .PER ^ m * X)) = I.F .WN * (L * X) := by
      intro m L X
      rw [mul_left_comm, ← mul_assoc (I.F .WN), mul_pow_absorb hI.wn_per, mul_left_comm]
    rw [hS, hP]
  · have hz' : c.get .WN = 0 := by have := h0 .WN; omega
    have g := fun b => get_simplifyBaseProd_noWN (n := n) hc h0 hz' b
    have e1 : I.F .SE ^ (min (c.get .SE) 1).toNat = I.F .SE ^ (c.get .SE).toNat := by
      by_cases hs : 0 < c.get .SE
      · rw [pow_idem hI.se_mul (by omega), pow_idem hI.se_mul (by omega)]
      · congr 1; have := h0 .SE; omega
    simp only [g, hz', e1]

theorem add_nsmul_absorb {A B : Fam} (h : A + B = A) : ∀ n : ℕ, A + n • B = A
  | 0 => by simp
  | n + 1 => by rw [succ_nsmul, ← add_assoc, add_nsmul_absorb h n, h]

/-- Nor then, if the family of LIN has room for a constant. -/
theorem sum_simplifyBase_safe (hI : Laws I) {cfg : Cfg} {c : Counter} (hc : c.WF) (hp : c.Pos)
    (h : cfg.linOffset = false ∨ c.get .C = 0 ∨ c.get .LIN = 0 ∨ I.F .LIN + I.F .C = I.F .LIN) :
    ((simplifyBaseSum cfg c).elements.map I.F).sum = (c.elements.map I.F).sum := by
  by_cases h' : cfg.linOffset = false ∨ c.get .C = 0 ∨ c.get .LIN = 0
  · exact sum_simplifyBase hI hc hp h'
  have hx : I.F .LIN + I.F .C = I.F .LIN := by
    rcases h with h | h | h | h
    · exact absurd (Or.inl h) h'
    · exact absurd (Or.inr (Or.inl h)) h'
    · exact absurd (Or.inr (Or.inr h)) h'
    · exact h
  simp only [not_or] at h'
  have hL : 0 < c.get .LIN := by have := hp.nonneg .LIN; omega
  have hw' := wf_simplifyBase (cfg := cfg) (op := .sum) (n := 0) hc
  rw [sum_elements (c := simplifyBaseSum cfg c) hw', sum_elements hc]
  have g := fun b => get_simplifyBaseSum (cfg := cfg) hc b
  have e1 : ((simplifyBaseSum cfg c).get .WN).toNat • I.F .WN = (c.get .WN).toNat • I.F .WN := by
    simp only [g]
    by_cases hz : 0 < c.get .WN
    · rw [nsmul_idem hI.wn_add (by omega), nsmul_idem hI.wn_add (by omega)]
    · congr 1; omega
  have e2 : ((simplifyBaseSum cfg c).get .C).toNat • I.F .C = 0 := by
    rw [g]; simp [hL, h'.1]
  have e3 : ∀ b, b ≠ .WN → b ≠ .C → ((simplifyBaseSum cfg c).get b).toNat = (c.get b).toNat := by
    intro b h1 h2
    rw [g]
    have := hp.nonneg b
    cases b <;> first | contradiction | (simp only; omega)
  rw [e1, e2, e3 .LIN (by decide) (by decide), e3 .SE (by decide) (by decide), e3 .PER (by decide) (by decide),
    e3 .S (by decide) (by decide), e3 .Sr (by decide) (by decide), e3 .SI (by decide) (by decide),
    e3 .SIr (by decide) (by decide)]
  have e4 : ∀ X : Fam, (c.get .C).toNat • I.F .C + ((c.get .LIN).toNat • I.F .LIN + X) = (c.get .LIN).toNat • I.F .LIN + X := by
    intro X
    obtain ⟨m, hm⟩ : ∃ m, (c.get .LIN).toNat = m + 1 := ⟨(c.get .LIN).toNat - 1, by omega⟩
    rw [hm, succ_nsmul, ← add_assoc, add_comm (_ • I.F .C), add_assoc (m • I.F .LIN), add_nsmul_absorb hx]
  rw [e4, zero_add]

/-- What makes it safe to drop constants beside LIN. -/
def LinSafe (I : Interp) (cfg : Cfg) (l : List Base) : Prop :=
  cfg.linOffset = false ∨ Base.C ∉ l ∨ Base.LIN ∉ l ∨ I.F .LIN + I.F .C = I.F .LIN

theorem LinSafe.sub {cfg : Cfg} {l m : List Base} (h : l ⊆ m) : LinSafe I cfg m → LinSafe I cfg l := by
  rintro (h1 | h1 | h1 | h1)
  · exact Or.inl h1
  · exact Or.inr (Or.inl fun h2 => h1 (h h2))
  · exact Or.inr (Or.inr (Or.inl fun h2 => h1 (h h2)))
  · exact Or.inr (Or.inr (Or.inr h1))

theorem LinSafe.perm {cfg : Cfg} {l m : List Base} (h : l.Perm m) : LinSafe I cfg l ↔ LinSafe I cfg m :=
  ⟨.sub h.symm.subset, .sub h.subset⟩

theorem baseOK_eq (hI : Laws I) (cfg : Cfg) (l : List Base) (h : LinSafe I cfg l) : BaseOK cfg I (· = ·) (· ∈ l) := by
  intro op c n hw hp ho
  cases op with
  | sum =>
    simp only [opFold', simplifyBase]
    apply sum_simplifyBase_safe hI hw hp
    rcases h with h | h | h | h
    · exact Or.inl h
    · right; left; by_contra h1; exact h (ho .C (by have := hp.nonneg .C; omega))
    · right; right; left; by_contra h1; exact h (ho .LIN (by have := hp.nonneg .LIN; omega))
    · exact Or.inr (Or.inr (Or.inr h))
  | prod => exact prod_simplifyBase hI hw hp

/-- Simplification preserves the family, given the laws. -/
theorem den_simplify (hI : Laws I) (cfg : Cfg) (k : KE) (hw : wf k = true) (he : noEmpty k = true)
    (he' : noEmpty (simplify cfg k) = true) (h : LinSafe I cfg (bases k)) :
    den I (simplify cfg k) = den I k := by
  rw [den_eq_den' hI _ he, den_eq_den' hI _ he']
  exact den'_simplify hI (Cong.eq I) (ok := fun b => b ∈ bases k) (baseOK_eq hI cfg _ h) k hw (fun x hx => hx)

theorem Cong.sub (I : Interp) (hchg : ∀ {c A A' B B'}, A ⊆ A' → B ⊆ B' → I.chg c A B ⊆ I.chg c A' B') :
    Cong I (· ⊆ ·) :=
  ⟨fun _ => subset_rfl, fun h h' => h.trans h', fun h h' => Set.add_subset_add h h',
    fun h h' => Set.mul_subset_mul h h', hchg⟩

theorem baseOK_sub (hI : Laws I) (cfg : Cfg) (h0F : ∀ n : ℕ, (0 : Cov) ∈ n • I.F .C) : BaseOK cfg I (· ⊆ ·) (fun _ => True) := by
  intro op c n hw hp _
  cases op with
  | prod => exact (prod_simplifyBase hI (n := n) hw hp).subset
  | sum =>
    simp only [opFold', simplifyBase]
    by_cases h : cfg.linOffset = false ∨ c.get .C = 0 ∨ c.get .LIN = 0
    · exact (sum_simplifyBase hI hw hp h).subset
    · -- the constant is dropped: its family contains zero
      simp only [not_or] at h
      have hL : 0 < c.get .LIN := by have := hp.nonneg .LIN; omega
      have hw' := wf_simplifyBase (cfg := cfg) (op := .sum) (n := 0) hw
      rw [sum_elements (c := simplifyBaseSum cfg c) hw', sum_elements hw]
      have g := fun b => get_simplifyBaseSum (cfg := cfg) hw b
      have e1 : ((simplifyBaseSum cfg c).get .WN).toNat • I.F .WN = (c.get .WN).toNat • I.F .WN := by
        simp only [g]
        by_cases hz : 0 < c.get .WN
        · rw [nsmul_idem hI.wn_add (by omega), nsmul_idem hI.wn_add (by omega)]
        · congr 1; omega
      have e2 : ((simplifyBaseSum cfg c).get .C).toNat • I.F .C = 0 := by
        rw [g]; simp [hL, h.1]
      have e3 : ∀ b, b ≠ .WN → b ≠ .C → ((simplifyBaseSum cfg c).get b).toNat = (c.get b).toNat := by
        intro b h1 h2
        rw [g]
        have := hp.nonneg b
        cases b <;> first | contradiction | (simp only; omega)
      rw [e1, e2, e3 .LIN (by decide) (by decide), e3 .SE (by decide) (by decide), e3 .PER (by decide) (by decide),
        e3 .S (by decide) (by decide), e3 .Sr (by decide) (by decide), e3 .SI (by decide) (by decide),
        e3 .SIr (by decide) (by decide)]
      apply Set.add_subset_add_left
      apply Set.add_subset_add_right
      simpa using h0F _

end KE
end GPyABCD
