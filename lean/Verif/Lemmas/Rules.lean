import Verif.Lemmas.Expand

/-! What the production rules return, and what expansion does with it. -/

namespace GPyABCD
open List

namespace KE

theorem constOnly_comm {o : Op} {b : Counter} {cs : List KE} : constOnly (comm o b cs) = false ↔
    (∃ x ∈ b.elements, x ≠ Base.C) ∨ ∃ k ∈ cs, constOnly k = false := by
  rw [constOnly_eq_false]
  simp only [bases, changes, basesL_eq, changesL_eq, ne_eq, List.flatMap_eq_nil_iff, not_forall, List.mem_append, List.mem_flatMap]
  constructor
  · rintro (⟨k, hk, h⟩ | ⟨x, hx | ⟨k, hk, hx⟩, hC⟩)
    · exact Or.inr ⟨k, hk, constOnly_eq_false.2 (Or.inl h)⟩
    · exact Or.inl ⟨x, hx, hC⟩
    · exact Or.inr ⟨k, hk, constOnly_eq_false.2 (Or.inr ⟨x, hx, hC⟩)⟩
  · rintro (⟨x, hx, hC⟩ | ⟨k, hk, h⟩)
    · exact Or.inr ⟨x, Or.inl hx, hC⟩
    · rcases constOnly_eq_false.1 h with h | ⟨x, hx, hC⟩
      · exact Or.inl ⟨k, hk, h⟩
      · exact Or.inr ⟨x, Or.inr ⟨k, hk, hx⟩, hC⟩

/-- No sigmoidal base kernel. -/
def NoSig (k : KE) : Prop := ∀ x ∈ bases k, x.isSigmoid = false

theorem settled_child_nonconst {cfg : Cfg} {o : Op} {b : Counter} {cs : List KE} (h : settled cfg (comm o b cs) = true) :
    ∀ k ∈ cs, constOnly k = false := by
  intro k hk
  have hs := settled_child h k hk
  by_contra hc
  rcases constOnly_settled hs.1 (by simpa using hc) with h1 | h1
  · have := ((wf_comm.1 (settled_iff.1 h).1).2.2 k hk).1; rw [h1] at this; simp at this
  · rw [hs.2] at h1; simp at h1

/-- A simplified product of several factors holds no constant. -/
theorem settled_prod_noC {cfg : Cfg} {b : Counter} {cs : List KE} (h : settled cfg (comm .prod b cs) = true)
    (hn : NoSig (comm .prod b cs)) (hs : isSingleton (comm .prod b cs) = false) : ∀ x ∈ b.elements, x ≠ Base.C := by
  obtain ⟨hw, _, hcan, _⟩ := settled_iff.1 h
  have hw' := wf_comm.1 hw
  simp only [allNodes, Bool.and_eq_true] at hcan
  have hcn := hcan.1
  have g0 := hw'.2.1.nonneg
  rintro x hx rfl
  have hC : 0 < b.get .C := (Counter.mem_elements hw'.1 _).1 hx
  have hnsig : ∀ s : Base, s.isSigmoid = true → b.get s = 0 := by
    intro s hs'
    have := g0 s
    by_contra hne
    have h1 := (Counter.mem_elements hw'.1 s).2 (by omega)
    have := hn s (bases_mem_comm.2 (Or.inl h1))
    rw [hs'] at this; simp at this
  simp only [canonNode, Bool.and_eq_true, decide_eq_true_eq] at hcn
  by_cases hWN : 0 < b.get .WN
  · simp only [hWN, if_true, Bool.and_eq_true, decide_eq_true_eq] at hcn; omega
  · simp only [hWN, if_false, Bool.and_eq_true, decide_eq_true_eq, Bool.or_eq_true, List.isEmpty_iff] at hcn
    have hC1 := hcn.2.1.2
    have hrest := hcn.2.2.resolve_left (by omega)
    have hWN0 : b.get .WN = 0 := by have := g0 .WN; omega
    have hall : ∀ y ∈ b.elements, y = .C := by
      intro y hy
      have hy' := (Counter.mem_elements hw'.1 y).1 hy
      cases y with
      | C => rfl
      | WN => omega
      | LIN => omega
      | SE => omega
      | PER => omega
      | S => have := hnsig .S rfl; omega
      | Sr => have := hnsig .Sr rfl; omega
      | SI => have := hnsig .SI rfl; omega
      | SIr => have := hnsig .SIr rfl; omega
    have hlen : b.elements.length = b.elements.count .C := by
      rw [eq_comm, List.count_eq_length]; intro y hy; exact (hall y hy).symm
    rw [Counter.count_elements hw'.1] at hlen
    have : isSingleton (comm .prod b cs) = true := by
      simp only [isSingleton, hrest.2, List.length_nil, decide_eq_true_eq]; omega
    rw [hs] at this; simp at this

/-- A product that keeps one of several terms of a simplified one is not constant. -/
theorem nonconst_keep {cfg : Cfg} {b b' : Counter} {cs cs' : List KE} (h : settled cfg (comm .prod b cs) = true)
    (hn : NoSig (comm .prod b cs)) (hs : isSingleton (comm .prod b cs) = false)
    (hk : (∃ x ∈ b.elements, x ∈ b'.elements) ∨ ∃ k ∈ cs, k ∈ cs') {o : Op} : constOnly (comm o b' cs') = false := by
  rcases hk with ⟨x, hx, hx'⟩ | ⟨k, hk, hk'⟩
  · exact constOnly_comm.2 (Or.inl ⟨x, hx', settled_prod_noC h hn hs x hx⟩)
  · exact constOnly_comm.2 (Or.inr ⟨k, hk', settled_child_nonconst h k hk⟩)

theorem two_terms {cfg : Cfg} {o : Op} {b : Counter} {cs : List KE} (h : settled cfg (comm o b cs) = true)
    (hs : isSingleton (comm o b cs) = false) : 2 ≤ b.elements.length + cs.length := by
  have he := (noEmpty_comm.1 (settled_iff.1 h).2.1).1
  simp only [isSingleton, decide_eq_false_iff_not] at hs
  have : 0 < b.elements.length + cs.length := by
    rcases he with h | h
    · have := List.length_pos_of_ne_nil h; omega
    · have := List.length_pos_of_ne_nil h; omega
  omega

/-- What is needed of a rule result `R` at node `S`; `E` are the base kernels it may bring in. -/
structure RR (cfg : Cfg) (S : KE) (E : List Base) (R : KE) : Prop where
  wf : wf R = true
  notBase : R.isBase = false
  bases : ∀ x ∈ bases R, x ∈ KE.bases S ∨ x ∈ E
  op : settled cfg S = true → NoSig S → operand R = true ∧ (isSingleton S = false → isComm .prod R = true → constOnly R = false)

theorem RR.simplify {cfg : Cfg} {S R : KE} {E : List Base} (h : RR cfg S E R) : RR cfg S E (KE.simplify cfg R) := by
  refine ⟨wf_simplify cfg R h.wf, by rw [isBase_simplify]; exact h.notBase,
    fun x hx => h.bases x ((bases_simplify cfg R h.wf).subset hx), fun hs hn => ?_⟩
  obtain ⟨h1, h2⟩ := h.op hs hn
  refine ⟨operand_simplify cfg h1, fun hi hc => ?_⟩
  rw [isComm_simplify] at hc
  exact constOnly_simplify cfg R h.wf (h2 hi hc)

theorem RR.mono {cfg : Cfg} {S R : KE} {E E' : List Base} (h : RR cfg S E R) (hE : E ⊆ E') : RR cfg S E' R :=
  ⟨h.wf, h.notBase, fun x hx => (h.bases x hx).imp_right (fun h => hE h), h.op⟩

/-- A sum or product of some of the terms of `S` and new ones. -/
theorem rr_comm {cfg : Cfg} {S : KE} {E : List Base} {o : Op} {b : Counter} {cs : List KE} (hb : b.WF) (pb : b.Pos)
    (hc : ∀ k ∈ cs, k.isBase = false ∧ wf k = true)
    (hbe : ∀ x ∈ b.elements, x ∈ bases S ∨ x ∈ E) (hbc : ∀ k ∈ cs, ∀ x ∈ bases k, x ∈ bases S ∨ x ∈ E)
    (hop : settled cfg S = true → NoSig S → (b.elements ≠ [] ∨ cs ≠ []) ∧
      (∀ k ∈ cs, operand k = true ∧ (o = .prod → isComm .prod k = true → constOnly k = false)) ∧
      (isSingleton S = false → o = .prod → constOnly (comm o b cs) = false)) :
    RR cfg S E (comm o b cs) := by
  refine ⟨wf_comm.2 ⟨hb, pb, hc⟩, rfl, ?_, ?_⟩
  · intro x hx
    rcases bases_mem_comm.1 hx with h | ⟨k, hk, h⟩
    · exact hbe x h
    · exact hbc k hk x h
  · intro hs hn
    obtain ⟨h1, h2, h3⟩ := hop hs hn
    refine ⟨operand_comm.2 ⟨hb, pb, h1, fun k hk => ⟨(hc k hk).1, h2 k hk⟩⟩, fun hi hcm => ?_⟩
    simp only [isComm, decide_eq_true_eq] at hcm
    exact h3 hi hcm

theorem rr_change {cfg : Cfg} {S l r : KE} {E : List Base} {c : CC} (hl : wf l = true) (hr : wf r = true)
    (hbl : ∀ x ∈ bases l, x ∈ bases S ∨ x ∈ E) (hbr : ∀ x ∈ bases r, x ∈ bases S ∨ x ∈ E)
    (hop : settled cfg S = true → operand l = true ∧ operand r = true) : RR cfg S E (mkChange cfg c l r) := by
  refine RR.simplify ⟨wf_change.2 ⟨hl, hr⟩, rfl, ?_, ?_⟩
  · intro x hx
    simp only [KE.bases, List.mem_append] at hx
    rcases hx with h | h
    · exact hbl x h
    · exact hbr x h
  · intro hs _
    exact ⟨operand_change.2 (hop hs), fun _ h => by simp [isComm] at h⟩

theorem rr_names {cfg : Cfg} {S : KE} {E : List Base} {l : List Base} (hl : l ≠ []) (h : l ⊆ E) :
    RR cfg S E (mkL cfg .sum l []) := by
  refine RR.simplify (rr_comm (Counter.wf_ofList l) (Counter.pos_ofList l) (by simp)
    (fun x hx => Or.inr (h ((Counter.elements_ofList l).subset hx))) (by simp) (fun _ _ => ⟨Or.inl (ofList_ne_nil hl), by simp, by simp⟩))

/-- A join of `S` with another operand. -/
theorem rr_join {cfg : Cfg} {S k R : KE} {E : List Base} {o : Op} (hj : RawJoin o S k R) (hk : operand k = true) (hE : bases k ⊆ E)
    (hc : o = .prod → ∃ x ∈ bases k, x ≠ Base.C) : RR cfg S E (KE.simplify cfg R) := by
  have hp := bases_joins hj.joins
  refine RR.simplify ⟨hj.wf, ?_, ?_, ?_⟩
  · obtain ⟨_, b, cs, rfl, _⟩ := hj; rfl
  · intro x hx
    rcases List.mem_append.1 (hp.subset hx) with h | h
    · exact Or.inl h
    · exact Or.inr (hE h)
  · intro hs _
    refine ⟨operand_joins hj (operand_of_settled hs) hk, fun _ hcm => ?_⟩
    have ho : o = .prod := by
      obtain ⟨_, b, cs, rfl, _⟩ := hj
      simpa [isComm] using hcm
    obtain ⟨x, hx, hxC⟩ := hc ho
    exact constOnly_eq_false.2 (Or.inr ⟨x, hp.symm.subset (List.mem_append_right _ hx), hxC⟩)

theorem bases_child {o : Op} {b : Counter} {cs : List KE} {k : KE} (hk : k ∈ cs) : ∀ x ∈ bases k, x ∈ bases (comm o b cs) :=
  fun _ hx => bases_mem_comm.2 (Or.inr ⟨k, hk, hx⟩)

theorem rr_nested {cfg : Cfg} {o o' : Op} {b : Counter} {c : List KE} {a bt : Base} {E : List Base} (hw : wf (comm o b c) = true)
    (ho : o' ≠ o) (hbt : bt ∈ b.elements) (ha : a ∈ E) :
    RR cfg (comm o b c) E (mkC cfg o (b.pos.sub (Counter.ofList [bt])) (c ++ [mkL cfg o' [a, bt] []])) := by
  obtain ⟨hb, pb, hc⟩ := wf_comm.1 hw
  have hpb := Counter.pos_eq_self pb
  have hel := Counter.elements_sub_one hb pb hbt
  have hwn : ∀ l : List Base, wf (mkL cfg o' l []) = true := fun l =>
    wf_simplify cfg _ (wf_comm.2 ⟨Counter.wf_ofList l, Counter.pos_ofList l, by simp⟩)
  have hsolid : bt ≠ .C → constOnly (mkL cfg o' [a, bt] []) = false := by
    intro hne
    have hm : bt ∈ (Counter.ofList [a, bt]).elements := (Counter.elements_ofList [a, bt]).symm.subset (by simp)
    have hw2 : wf (comm o' (Counter.ofList [a, bt]) []) = true := wf_comm.2 ⟨Counter.wf_ofList _, Counter.pos_ofList _, by simp⟩
    exact constOnly_simplify cfg _ hw2 (constOnly_comm.2 (Or.inl ⟨bt, hm, hne⟩))
  refine RR.simplify (rr_comm (Counter.wf_sub (Counter.wf_pos hb) (Counter.wf_ofList _)) (Counter.pos_sub _ _) ?_ ?_ ?_ ?_)
  · intro k hk
    rcases List.mem_append.1 hk with hk | hk
    · exact hc k hk
    · simp only [List.mem_singleton] at hk; subst hk; exact ⟨isBase_mkL .., hwn _⟩
  · rw [hpb]; intro x hx
    exact Or.inl (bases_mem_comm.2 (Or.inl (hel.subset (List.mem_cons_of_mem _ hx))))
  · intro k hk x hx
    rcases List.mem_append.1 hk with hk | hk
    · exact Or.inl (bases_child hk x hx)
    · simp only [List.mem_singleton] at hk; subst hk
      have := bases_mkL_names hx
      simp only [List.mem_cons, List.not_mem_nil, or_false] at this
      rcases this with rfl | rfl
      · exact Or.inr ha
      · exact Or.inl (bases_mem_comm.2 (Or.inl hbt))
  · intro hs hn
    have hopd := operand_comm.1 (nested_operand (cfg := cfg) (a := a) (bt := bt) (operand_of_settled hs) ho)
    refine ⟨Or.inr (by simp), fun k hk => (hopd.2.2.2 k hk).2, ?_⟩
    rintro hi rfl
    exact constOnly_comm.2 (Or.inr ⟨_, List.mem_append_right _ (List.mem_singleton.2 rfl), hsolid (settled_prod_noC hs hn hi bt hbt)⟩)

/-- `swap_base` on a sum or product: the counters. -/
theorem swap_elements {b : Counter} (hb : b.WF) (pb : b.Pos) {p : Base × Int} (hp : p ∈ b) (B : Base) :
    (b.add (swapDict p.1 B)).WF ∧ (b.add (swapDict p.1 B)).Pos ∧
    ∃ rest, (b.add (swapDict p.1 B)).elements.Perm (B :: rest) ∧ rest ⊆ b.elements ∧ b.elements.length ≤ rest.length + 1 := by
  have hg := Counter.get_of_mem hb hp
  have hp0 := pb p hp
  have hws : (swapDict p.1 B).WF := Counter.wf_put (by simp [Counter.WF]) _ _
  have hgs : ∀ x, (swapDict p.1 B).get x = if B = x then 1 else if p.1 = x then -1 else 0 := by
    intro x; rw [swapDict, Counter.get_put]; simp [Counter.get]
  refine ⟨Counter.wf_add hb hws, Counter.pos_add _ _, ?_⟩
  have hcount : ∀ x, (b.add (swapDict p.1 B)).elements.count x = (b.get x + (swapDict p.1 B).get x).toNat := by
    intro x
    rw [Counter.count_elements (Counter.wf_add hb hws), Counter.get_add hb hws]
    omega
  by_cases hpB : p.1 = B
  · refine ⟨b.elements, ?_, List.Subset.refl _, by omega⟩
    rw [List.perm_iff_count]; intro x
    rw [hcount, List.count_cons, Counter.count_elements hb, hgs]
    have := pb.nonneg x
    by_cases h1 : B = x
    · simp [h1]; omega
    · have : p.1 ≠ x := by rw [hpB]; exact h1
      simp [h1, this]
  · have hmem : p.1 ∈ b.elements := (Counter.mem_elements hb _).2 (by omega)
    refine ⟨b.elements.erase p.1, ?_, List.erase_subset, by rw [List.length_erase_of_mem hmem]; omega⟩
    rw [List.perm_iff_count]; intro x
    rw [hcount, List.count_cons, List.count_erase, Counter.count_elements hb, hgs]
    have := pb.nonneg x
    by_cases h1 : B = x
    · subst h1; simp [hpB]; omega
    · by_cases h2 : p.1 = x
      · subst h2; simp [h1]; omega
      · simp [h1, h2]

theorem remove_elements {b : Counter} (hb : b.WF) (pb : b.Pos) {p : Base × Int} (hp : p ∈ b) :
    (b.add [(p.1, -1)]).WF ∧ (b.add [(p.1, -1)]).Pos ∧ (p.1 :: (b.add [(p.1, -1)]).elements).Perm b.elements := by
  have hg := Counter.get_of_mem hb hp
  have hp0 := pb p hp
  have hws : Counter.WF [(p.1, (-1 : Int))] := by simp [Counter.WF]
  refine ⟨Counter.wf_add hb hws, Counter.pos_add _ _, ?_⟩
  rw [List.perm_iff_count]; intro x
  rw [List.count_cons, Counter.count_elements (Counter.wf_add hb hws), Counter.count_elements hb,
    Counter.get_add hb hws]
  have hx := pb.nonneg x
  simp only [Counter.get]
  by_cases h2 : p.1 = x
  · subst h2; simp; omega
  · simp [h2]; omega

theorem rr_swap {cfg : Cfg} {S : KE} {B : Base} {E : List Base} (hw : wf S = true) (hnb : S.isBase = false) (hB : B ∈ E) :
    ∀ new ∈ swapBase cfg S B, RR cfg S E new := by
  intro new hnew
  cases S with
  | base b => simp [isBase] at hnb
  | comm o b c =>
    obtain ⟨hb, pb, hc⟩ := wf_comm.1 hw
    rw [swapBase, Counter.pos_eq_self pb] at hnew
    obtain ⟨p, hp, rfl⟩ := List.mem_map.1 hnew
    obtain ⟨h1, h2, rest, h3, h4, h5⟩ := swap_elements hb pb hp B
    have hBin : B ∈ (b.add (swapDict p.1 B)).elements := h3.symm.subset (by simp)
    refine RR.simplify (rr_comm h1 h2 hc ?_ ?_ ?_)
    · intro x hx
      rcases List.mem_cons.1 (h3.subset hx) with rfl | hx
      · exact Or.inr hB
      · exact Or.inl (bases_mem_comm.2 (Or.inl (h4 hx)))
    · intro k hk x hx; exact Or.inl (bases_child hk x hx)
    · intro hs hn
      have hopd := operand_comm.1 (operand_of_settled hs)
      refine ⟨Or.inl (List.ne_nil_of_mem hBin), fun k hk => (hopd.2.2.2 k hk).2, ?_⟩
      rintro hi rfl
      have h6 := two_terms hs hi
      refine nonconst_keep hs hn hi ?_
      by_cases hr : rest = []
      · right
        have : c ≠ [] := by rintro rfl; subst hr; simp at h5 h6; omega
        obtain ⟨k, hk⟩ := List.exists_mem_of_ne_nil _ this
        exact ⟨k, hk, hk⟩
      · left
        obtain ⟨x, hx⟩ := List.exists_mem_of_ne_nil _ hr
        exact ⟨x, h4 hx, h3.symm.subset (List.mem_cons_of_mem _ hx)⟩
  | change c l r =>
    have hw' := wf_change.1 hw
    simp only [swapBase, List.mem_append] at hnew
    rcases hnew with h | h
    · split at h
      · simp only [List.mem_singleton] at h; subst h
        refine rr_change rfl hw'.2 ?_ (fun x hx => Or.inl (by simp [KE.bases, hx])) (fun hs => ⟨rfl, (operand_change.1 (operand_of_settled hs)).2⟩)
        intro x hx; simp only [KE.bases, List.mem_singleton] at hx; subst hx; exact Or.inr hB
      · simp at h
    · split at h
      · simp only [List.mem_singleton] at h; subst h
        refine rr_change hw'.1 rfl (fun x hx => Or.inl (by simp [KE.bases, hx])) ?_ (fun hs => ⟨(operand_change.1 (operand_of_settled hs)).1, rfl⟩)
        intro x hx; simp only [KE.bases, List.mem_singleton] at hx; subst hx; exact Or.inr hB
      · simp at h

theorem rr_oneChange {cfg : Cfg} {S k : KE} {c : CC} {E : List Base} (hw : wf S = true) (hk : operand k = true) (hE : bases k ⊆ E) :
    ∀ new ∈ oneChange cfg S c (some k), RR cfg S E new := by
  intro new hnew
  have hkw := (operand_iff.1 hk).1
  simp only [oneChange] at hnew
  split at hnew
  · simp only [List.mem_singleton] at hnew; subst hnew
    exact rr_change hw hw (fun _ hx => Or.inl hx) (fun _ hx => Or.inl hx) (fun hs => ⟨operand_of_settled hs, operand_of_settled hs⟩)
  · simp only [List.mem_cons, List.not_mem_nil, or_false] at hnew
    rcases hnew with rfl | rfl
    · exact rr_change hw hkw (fun x hx => Or.inl hx) (fun x hx => Or.inr (hE hx)) (fun hs => ⟨operand_of_settled hs, hk⟩)
    · exact rr_change hkw hw (fun x hx => Or.inr (hE hx)) (fun x hx => Or.inl hx) (fun hs => ⟨hk, operand_of_settled hs⟩)

theorem rr_sameChange {cfg : Cfg} {S : KE} {c : CC} {E : List Base} (hw : wf S = true) : RR cfg S E (mkChange cfg c S S) :=
  rr_change hw hw (fun _ hx => Or.inl hx) (fun _ hx => Or.inl hx) (fun hs => ⟨operand_of_settled hs, operand_of_settled hs⟩)

theorem bothChanges_some (cfg : Cfg) (S k : KE) : bothChanges cfg S (some k) = oneChange cfg S .CP (some k) ++ oneChange cfg S .CW (some k) := by
  simp only [bothChanges, oneChange, List.flatMap_cons, List.flatMap_nil, List.append_nil]

theorem rr_add {cfg : Cfg} {S : KE} {B : Base} {E : List Base} (hw : wf S = true) (hnb : S.isBase = false) (hB : B ∈ E) :
    ∀ new ∈ add cfg S (base B), RR cfg S E new := by
  intro new hnew
  rw [add, List.mem_cons] at hnew
  rcases hnew with rfl | hnew
  · obtain ⟨R, e, hj⟩ := addRes_raw cfg S (base B) hw rfl
    rw [e]
    exact rr_join hj rfl (by simpa [KE.bases] using hB) (by simp)
  · cases S with
    | base b => simp [isBase] at hnb
    | comm o b c =>
      cases o with
      | sum => simp [addNested] at hnew
      | prod =>
        simp only [addNested, addNestedAt] at hnew
        obtain ⟨bt, hbt, rfl⟩ := List.mem_map.1 hnew
        exact rr_nested hw (by simp) hbt hB
    | change _ _ _ => simp [addNested] at hnew

theorem rr_multiply {cfg : Cfg} {S k : KE} {E : List Base} (hw : wf S = true) (hnb : S.isBase = false) (hk : operand k = true)
    (hE : bases k ⊆ E) (hs : ∃ x ∈ bases k, x ≠ Base.C) : ∀ new ∈ multiply cfg S k, RR cfg S E new := by
  intro new hnew
  rw [multiply, List.mem_cons] at hnew
  rcases hnew with rfl | hnew
  · obtain ⟨R, e, hj⟩ := mulRes_raw cfg S k hw (operand_iff.1 hk).1
    rw [e]
    exact rr_join hj hk hE (fun _ => hs)
  · cases S with
    | base b => simp [isBase] at hnb
    | comm o b c =>
      cases o with
      | sum =>
        cases k with
        | base B =>
          simp only [mulNested, mulNestedAt] at hnew
          obtain ⟨bt, hbt, rfl⟩ := List.mem_map.1 hnew
          exact rr_nested hw (by simp) hbt (hE (by simp [KE.bases]))
        | comm o _ _ => simp [mulNested] at hnew
        | change _ _ _ => simp [mulNested] at hnew
      | prod => cases k <;> simp [mulNested] at hnew
    | change _ _ _ => cases k <;> simp [mulNested] at hnew

theorem rr_self {cfg : Cfg} {S l : KE} {E : List Base} (hw : wf l = true) (hnb : l.isBase = false) (hb : ∀ x ∈ bases l, x ∈ bases S)
    (hs : settled cfg S = true → settled cfg l = true ∧ isSingleton l = false) : RR cfg S E l := by
  refine ⟨hw, hnb, fun x hx => Or.inl (hb x hx), fun h _ => ?_⟩
  obtain ⟨h1, h2⟩ := hs h
  refine ⟨operand_of_settled h1, fun _ _ => ?_⟩
  by_contra hc
  rcases constOnly_settled h1 (by simpa using hc) with h3 | h3
  · rw [hnb] at h3; simp at h3
  · rw [h2] at h3; simp at h3

theorem rr_branch {cfg : Cfg} {S l : KE} {E : List Base} (hw : wf l = true) (hb : ∀ x ∈ bases l, x ∈ bases S)
    (hs : settled cfg S = true → settled cfg l = true ∧ isSingleton l = false) : RR cfg S E (branchNode cfg l) := by
  cases l with
  | base b =>
    rw [branchNode]
    have h := rr_names (cfg := cfg) (S := S) (E := [b]) (l := [b]) (by simp) (by simp)
    refine ⟨h.wf, h.notBase, fun x hx => ?_, h.op⟩
    rcases h.bases x hx with h | h
    · exact Or.inl h
    · simp only [List.mem_singleton] at h; subst h; exact Or.inl (hb x (by simp [KE.bases]))
  | comm o b c => exact rr_self hw rfl hb hs
  | change c l r => exact rr_self hw rfl hb hs

theorem rr_remove {cfg : Cfg} {S : KE} {E : List Base} (hw : wf S = true) : ∀ new ∈ removeATerm cfg S, RR cfg S E new := by
  intro new hnew
  cases S with
  | base b => simp [removeATerm] at hnew
  | comm o b c =>
    obtain ⟨hb, pb, hc⟩ := wf_comm.1 hw
    rw [removeATerm] at hnew
    split at hnew
    swap
    · simp at hnew
    rename_i ht
    have hlen := Counter.length_elements pb
    have h6 : 2 ≤ b.elements.length + c.length := by unfold termCount at ht; omega
    rw [Counter.pos_eq_self pb, List.mem_append] at hnew
    rcases hnew with h | h
    · obtain ⟨p, hp, rfl⟩ := List.mem_map.1 h
      obtain ⟨h1, h2, h3⟩ := remove_elements hb pb hp
      have hkeep : (∃ x ∈ b.elements, x ∈ (b.add [(p.1, -1)]).elements) ∨ ∃ k ∈ c, k ∈ c := by
        by_cases hr : (b.add [(p.1, -1)]).elements = []
        · right
          have : c ≠ [] := by
            rintro rfl; rw [hr] at h3; have := h3.length_eq; simp at this h6; omega
          obtain ⟨k, hk⟩ := List.exists_mem_of_ne_nil _ this
          exact ⟨k, hk, hk⟩
        · left
          obtain ⟨x, hx⟩ := List.exists_mem_of_ne_nil _ hr
          exact ⟨x, h3.subset (List.mem_cons_of_mem _ hx), hx⟩
      refine RR.simplify (rr_comm h1 h2 hc ?_ (fun k hk x hx => Or.inl (bases_child hk x hx)) ?_)
      · intro x hx; exact Or.inl (bases_mem_comm.2 (Or.inl (h3.subset (List.mem_cons_of_mem _ hx))))
      · intro hs hn
        have hopd := operand_comm.1 (operand_of_settled hs)
        refine ⟨?_, fun k hk => (hopd.2.2.2 k hk).2, ?_⟩
        · rcases hkeep with ⟨x, _, hx⟩ | ⟨k, hk, _⟩
          · exact Or.inl (List.ne_nil_of_mem hx)
          · exact Or.inr (List.ne_nil_of_mem hk)
        · rintro hi rfl
          exact nonconst_keep hs hn hi hkeep
    · obtain ⟨i, hi, rfl⟩ := List.mem_map.1 h
      rw [← List.eraseIdx_eq_take_drop_succ]
      have hsub : ∀ k ∈ c.eraseIdx i, k ∈ c := fun k hk => List.mem_of_mem_eraseIdx hk
      have hi' : i < c.length := List.mem_range.1 hi
      have hl' := List.length_eraseIdx_of_lt hi'
      have hkeep : (∃ x ∈ b.elements, x ∈ b.elements) ∨ ∃ k ∈ c, k ∈ c.eraseIdx i := by
        by_cases hr : b.elements = []
        · right
          have : c.eraseIdx i ≠ [] := by
            intro he; rw [he] at hl'; rw [hr] at h6; simp at hl' h6; omega
          obtain ⟨k, hk⟩ := List.exists_mem_of_ne_nil _ this
          exact ⟨k, hsub k hk, hk⟩
        · left
          obtain ⟨x, hx⟩ := List.exists_mem_of_ne_nil _ hr
          exact ⟨x, hx, hx⟩
      refine RR.simplify (rr_comm hb pb (fun k hk => hc k (hsub k hk)) (fun x hx => Or.inl (bases_mem_comm.2 (Or.inl hx)))
        (fun k hk x hx => Or.inl (bases_child (hsub k hk) x hx)) ?_)
      intro hs hn
      have hopd := operand_comm.1 (operand_of_settled hs)
      refine ⟨?_, fun k hk => (hopd.2.2.2 k (hsub k hk)).2, ?_⟩
      · rcases hkeep with ⟨x, _, hx⟩ | ⟨k, _, hk⟩
        · exact Or.inl (List.ne_nil_of_mem hx)
        · exact Or.inr (List.ne_nil_of_mem hk)
      · rintro hi rfl
        exact nonconst_keep hs hn hi hkeep
  | change c l r =>
    have hw' := wf_change.1 hw
    simp only [removeATerm, List.mem_cons, List.not_mem_nil, or_false] at hnew
    rcases hnew with rfl | rfl
    · exact rr_branch hw'.1 (fun x hx => by simp [KE.bases, hx]) (fun hs => (settled_branch hs).1)
    · exact rr_branch hw'.2 (fun x hx => by simp [KE.bases, hx]) (fun hs => (settled_branch hs).2)

/-- Deleting SE from a node that still has another base kernel. -/
theorem rr_delSE {cfg : Cfg} {S R : KE} {E : List Base} (h : RR cfg S E R)
    (hx : ∃ x ∈ KE.bases R, x ≠ Base.C ∧ x ≠ Base.SE) : RR cfg S E (delSE R) := by
  cases R with
  | base b => exact h
  | change c l r => exact h
  | comm o b cs =>
    obtain ⟨hb, pb, hc⟩ := wf_comm.1 h.wf
    have hwd : (b.del .SE).WF := Counter.wf_del hb _
    have hpd : (b.del .SE).Pos := Counter.pos_del pb _
    have hmem : ∀ x, x ∈ (b.del .SE).elements ↔ x ∈ b.elements ∧ x ≠ .SE := by
      intro x
      rw [Counter.mem_elements hwd, Counter.mem_elements hb, Counter.get_del hb]
      by_cases hx : x = Base.SE
      · subst hx; simp
      · simp [hx]
    have hkeep : (∃ x ∈ (b.del .SE).elements, x ≠ Base.C) ∨ ∃ k ∈ cs, constOnly k = false := by
      obtain ⟨x, hx, h1, h2⟩ := hx
      rcases bases_mem_comm.1 hx with h3 | ⟨k, hk, h3⟩
      · exact Or.inl ⟨x, (hmem x).2 ⟨h3, h2⟩, h1⟩
      · exact Or.inr ⟨k, hk, constOnly_eq_false.2 (Or.inr ⟨x, h3, h1⟩)⟩
    rw [delSE]
    refine rr_comm hwd hpd hc ?_ ?_ ?_
    · intro x hx; exact h.bases x (bases_mem_comm.2 (Or.inl ((hmem x).1 hx).1))
    · intro k hk x hx; exact h.bases x (bases_child hk x hx)
    · intro hs hn
      have hopd := operand_comm.1 (h.op hs hn).1
      refine ⟨?_, fun k hk => (hopd.2.2.2 k hk).2, fun _ _ => constOnly_comm.2 hkeep⟩
      rcases hkeep with ⟨x, hx, _⟩ | ⟨k, hk, _⟩
      · exact Or.inl (List.ne_nil_of_mem hx)
      · exact Or.inr (List.ne_nil_of_mem hk)

theorem higherKers_eq (cfg : Cfg) : higherKers cfg = [comm .prod [(.LIN, 2)] [], comm .prod [(.LIN, 3)] []] := by rfl

theorem firm_simplify (cfg : Cfg) {R : KE} (hw : wf R = true) (h : ∃ x ∈ bases R, x ≠ Base.C ∧ x ≠ Base.SE) :
    ∃ x ∈ bases (simplify cfg R), x ≠ Base.C ∧ x ≠ Base.SE :=
  bases_simplify_solid cfg R hw (P := fun x => x ≠ .C ∧ x ≠ .SE) (by simp) (by decide) h

theorem rr_higher {cfg : Cfg} {S : KE} {E : List Base} (hw : wf S = true) (hL : Base.LIN ∈ E) (hP : Base.PER ∈ E) :
    ∀ new ∈ higherCurves cfg S, RR cfg S E new := by
  intro new hnew
  -- results before SE is deleted
  have fin : ∀ (res : List KE) (b : Bool), (∀ r ∈ res, RR cfg S E r ∧ ∃ x ∈ bases r, x ≠ Base.C ∧ x ≠ Base.SE) →
      new ∈ (if b then res.map delSE else res) → RR cfg S E new := by
    intro res b h hm
    cases b with
    | false => exact (h new (by simpa using hm)).1
    | true =>
      simp only [if_true, List.mem_map] at hm
      obtain ⟨r, hr, rfl⟩ := hm
      exact rr_delSE (h r hr).1 (h r hr).2
  cases S with
  | base b => simp [higherCurves] at hnew
  | comm o b c =>
    obtain ⟨hb, pb, hc⟩ := wf_comm.1 hw
    cases o with
    | sum =>
      simp only [higherCurves, Counter.pos_eq_self pb] at hnew
      refine fin _ _ ?_ hnew
      intro r hr
      obtain ⟨ct, hct, rfl⟩ := List.mem_map.1 hr
      have hct' : wf ct = true ∧ ct.isBase = false ∧ operand ct = true ∧ (∀ x ∈ bases ct, x = .LIN) ∧ Base.LIN ∈ bases ct := by
        rw [higherKers_eq] at hct
        simp only [List.mem_cons, List.not_mem_nil, or_false] at hct
        rcases hct with rfl | rfl <;> refine ⟨by decide, rfl, by decide, by decide, by decide⟩
      have raw : RR cfg (comm .sum b c) E (comm .sum b (c ++ [ct])) := by
        refine rr_comm hb pb ?_ (fun x hx => Or.inl (bases_mem_comm.2 (Or.inl hx))) ?_ ?_
        · intro k hk
          rcases List.mem_append.1 hk with hk | hk
          · exact hc k hk
          · simp only [List.mem_singleton] at hk; subst hk; exact ⟨hct'.2.1, hct'.1⟩
        · intro k hk x hx
          rcases List.mem_append.1 hk with hk | hk
          · exact Or.inl (bases_child hk x hx)
          · simp only [List.mem_singleton] at hk; subst hk; rw [hct'.2.2.2.1 x hx]; exact Or.inr hL
        · intro hs _
          have hopd := operand_comm.1 (operand_of_settled hs)
          refine ⟨Or.inr (by simp), ?_, by simp⟩
          intro k hk
          rcases List.mem_append.1 hk with hk | hk
          · exact (hopd.2.2.2 k hk).2
          · simp only [List.mem_singleton] at hk; subst hk; exact ⟨hct'.2.2.1, by simp⟩
      exact ⟨raw.simplify, firm_simplify cfg raw.wf ⟨.LIN, bases_mem_comm.2 (Or.inr ⟨ct, by simp, hct'.2.2.2.2⟩), by decide, by decide⟩⟩
    | prod =>
      simp only [higherCurves, Counter.pos_eq_self pb] at hnew
      refine fin _ _ ?_ hnew
      have key : ∀ (x : Base) (n : Int), 0 < n → x ∈ E → x ≠ .C → x ≠ .SE →
          RR cfg (comm .prod b c) E (mkC cfg .prod (b.add [(x, n)]) c) ∧
            ∃ y ∈ bases (mkC cfg .prod (b.add [(x, n)]) c), y ≠ Base.C ∧ y ≠ Base.SE := by
        intro x n hn hx h1 h2
        have hwx : Counter.WF [(x, n)] := by simp [Counter.WF]
        have hpx : Counter.Pos [(x, n)] := by intro p hp; simp only [List.mem_singleton] at hp; subst hp; exact hn
        have hel := Counter.elements_add hb hwx pb hpx
        have hex : ∀ y, y ∈ (b.add [(x, n)]).elements ↔ y ∈ b.elements ∨ y = x := by
          intro y
          rw [hel.mem_iff, List.mem_append]
          simp only [Counter.elements, List.flatMap_cons, List.flatMap_nil, List.append_nil, List.mem_replicate]
          have : n.toNat ≠ 0 := by omega
          simp [this]
        have hin : x ∈ (b.add [(x, n)]).elements := (hex x).2 (Or.inr rfl)
        have raw : RR cfg (comm .prod b c) E (comm .prod (b.add [(x, n)]) c) := by
          refine rr_comm (Counter.wf_add hb hwx) (Counter.pos_add _ _) hc ?_ (fun k hk y hy => Or.inl (bases_child hk y hy)) ?_
          · intro y hy
            rcases (hex y).1 hy with h | rfl
            · exact Or.inl (bases_mem_comm.2 (Or.inl h))
            · exact Or.inr hx
          · intro hs _
            have hopd := operand_comm.1 (operand_of_settled hs)
            exact ⟨Or.inl (List.ne_nil_of_mem hin), fun k hk => (hopd.2.2.2 k hk).2, fun _ _ => constOnly_comm.2 (Or.inl ⟨x, hin, h1⟩)⟩
        exact ⟨raw.simplify, firm_simplify cfg raw.wf ⟨x, bases_mem_comm.2 (Or.inl hin), h1, h2⟩⟩
      intro r hr
      rcases List.mem_append.1 hr with hr | hr
      · simp only [List.map_cons, List.map_nil, List.mem_cons, List.not_mem_nil, or_false] at hr
        rcases hr with rfl | rfl
        · exact key .LIN 2 (by omega) hL (by decide) (by decide)
        · exact key .LIN 3 (by omega) hL (by decide) (by decide)
      · simp only [List.mem_singleton] at hr
        subst hr
        split
        · exact key .PER 1 (by omega) hP (by decide) (by decide)
        · exact key .PER 2 (by omega) hP (by decide) (by decide)
  | change c l r =>
    have hw' := wf_change.1 hw
    have hct' : ∀ ct ∈ higherKers cfg, wf ct = true ∧ operand ct = true ∧ (∀ x ∈ bases ct, x = .LIN) := by
      intro ct hct
      rw [higherKers_eq] at hct
      simp only [List.mem_cons, List.not_mem_nil, or_false] at hct
      rcases hct with rfl | rfl <;> refine ⟨by decide, by decide, by decide⟩
    simp only [higherCurves, List.mem_append] at hnew
    rcases hnew with h | h
    · split at h
      · obtain ⟨ct, hct, rfl⟩ := List.mem_map.1 h
        obtain ⟨h1, h2, h3⟩ := hct' ct hct
        exact rr_change h1 hw'.2 (fun x hx => by rw [h3 x hx]; exact Or.inr hL) (fun x hx => Or.inl (by simp [KE.bases, hx]))
          (fun hs => ⟨h2, (operand_change.1 (operand_of_settled hs)).2⟩)
      · simp at h
    · split at h
      · obtain ⟨ct, hct, rfl⟩ := List.mem_map.1 h
        obtain ⟨h1, h2, h3⟩ := hct' ct hct
        exact rr_change hw'.1 h1 (fun x hx => Or.inl (by simp [KE.bases, hx])) (fun x hx => by rw [h3 x hx]; exact Or.inr hL)
          (fun hs => ⟨(operand_change.1 (operand_of_settled hs)).1, h2⟩)
      · simp at h

/-- Base kernels a built-in rule may bring in. -/
def ruleBases (o : Orders) : List Base := o.all ++ o.noC ++ [.C, .LIN, .PER]

/-- Every built-in rule. -/
theorem rr_rule {cfg : Cfg} {o : Orders} (ho : ∀ B ∈ o.noC, B ≠ Base.C) (n : RuleName) {S : KE} (hw : wf S = true)
    (hnb : S.isBase = false) : ∀ new ∈ n.rule cfg o S, RR cfg S (ruleBases o) new := by
  have hall : ∀ B ∈ o.all, B ∈ ruleBases o := fun B h => by simp [ruleBases, h]
  have hno : ∀ B ∈ o.noC, B ∈ ruleBases o := fun B h => by simp [ruleBases, h]
  have hC : Base.C ∈ ruleBases o := by simp [ruleBases]
  have hL : Base.LIN ∈ ruleBases o := by simp [ruleBases]
  have hP : Base.PER ∈ ruleBases o := by simp [ruleBases]
  have sub1 : ∀ {B : Base}, B ∈ ruleBases o → bases (base B) ⊆ ruleBases o := by
    intro B h x hx; simp only [KE.bases, List.mem_singleton] at hx; subst hx; exact h
  intro new hnew
  cases n with
  | plus_base => obtain ⟨B, hB, h⟩ := List.mem_flatMap.1 hnew; exact rr_add hw hnb (hall B hB) new h
  | times_base =>
    obtain ⟨B, hB, h⟩ := List.mem_flatMap.1 hnew
    exact rr_multiply hw hnb rfl (sub1 (hno B hB)) ⟨B, by simp [KE.bases], ho B hB⟩ new h
  | replace_base => obtain ⟨B, hB, h⟩ := List.mem_flatMap.1 hnew; exact rr_swap hw hnb (hall B hB) new h
  | change_new_base =>
    obtain ⟨B, hB, h⟩ := List.mem_flatMap.1 hnew
    rw [bothChanges_some, List.mem_append] at h
    rcases h with h | h
    · exact rr_oneChange hw rfl (sub1 (hno B hB)) new h
    · exact rr_oneChange hw rfl (sub1 (hno B hB)) new h
  | change_same =>
    simp only [RuleName.rule, bothChanges, List.flatMap_cons, List.flatMap_nil, List.append_nil, List.cons_append,
      List.nil_append, List.mem_cons, List.not_mem_nil, or_false] at hnew
    rcases hnew with rfl | rfl
    · exact rr_sameChange hw
    · exact rr_sameChange hw
  | change_window_constant => exact rr_oneChange hw rfl (sub1 hC) new hnew
  | change_window_linear => exact rr_oneChange hw rfl (sub1 hL) new hnew
  | change_point_linear => exact rr_oneChange hw rfl (sub1 hL) new hnew
  | times_shifted_base =>
    obtain ⟨B, hB, h⟩ := List.mem_flatMap.1 hnew
    have hw2 : wf (comm .sum (Counter.ofList [B, .C]) []) = true := wf_comm.2 ⟨Counter.wf_ofList _, Counter.pos_ofList _, by simp⟩
    have hm : B ∈ (Counter.ofList [B, .C]).elements := (Counter.elements_ofList [B, .C]).symm.subset (by simp)
    refine rr_multiply hw hnb (operand_mkL_names cfg .sum (by simp)) ?_ ?_ new h
    · intro x hx
      have := bases_mkL_names hx
      simp only [List.mem_cons, List.not_mem_nil, or_false] at this
      rcases this with rfl | rfl
      · exact hno x hB
      · exact hC
    · exact bases_simplify_solid cfg _ hw2 (P := (· ≠ .C)) (by simp) (by decide) ⟨B, bases_mem_comm.2 (Or.inl hm), ho B hB⟩
  | replace_with_singleton =>
    obtain ⟨B, hB, h⟩ := List.mem_flatMap.1 hnew
    have e : replaceNode cfg S (mkL cfg .sum [B] []) = [mkL cfg .sum [B] []] := by rw [mkL_one]; rfl
    rw [e, List.mem_singleton] at h; subst h
    exact rr_names (by simp) (by simpa using hall B hB)
  | remove_some_term => exact rr_remove hw new hnew
  | try_higher_curves => exact rr_higher hw hL hP new hnew

/-! ## The invariant through expansion -/

theorem settled_leaf (cfg : Cfg) (b : Base) : settled cfg (comm .sum [(b, 1)] []) = true := by
  obtain ⟨x, y, z⟩ := cfg
  cases y <;> cases b <;> rfl

/-- Nodes visited by `traverse` of a simplified expression. -/
theorem traverse_node {cfg : Cfg} {k : KE} (hw : wf k = true) : ∀ {p : List Step} {S : KE}, (p, S) ∈ traverse cfg k →
    wf S = true ∧ (∀ x ∈ bases S, x ∈ bases k) ∧ (settled cfg k = true → settled cfg S = true) := by
  induction k using KE.ind with
  | base b => intro p S h; simp [traverse] at h
  | comm o b cs ih =>
    intro p S h
    simp only [traverse, List.mem_cons, Prod.mk.injEq] at h
    rcases h with ⟨_, rfl⟩ | h
    · exact ⟨hw, fun _ h => h, fun h => h⟩
    · obtain ⟨l1, a, l2, q, rfl, _, h2⟩ := mem_traverseL.1 h
      have hwa := (wf_comm.1 hw).2.2 a (by simp)
      obtain ⟨h3, h4, h5⟩ := ih a (by simp) hwa.2 h2
      exact ⟨h3, fun x hx => bases_child (by simp) x (h4 x hx), fun hs => h5 (settled_child hs a (by simp)).1⟩
  | change c l r hl hr =>
    intro p S h
    have hw' := wf_change.1 hw
    rcases mem_traverse_change.1 h with ⟨_, rfl⟩ | ⟨b, rfl, _, rfl⟩ | ⟨_, _, h⟩ | ⟨b, rfl, _, rfl⟩ | ⟨_, _, h⟩
    · exact ⟨hw, fun _ h => h, fun h => h⟩
    · refine ⟨by cases b <;> rfl, ?_, fun _ => settled_leaf cfg b⟩
      intro x hx; simp [KE.bases, basesL, Counter.elements] at hx; subst hx; simp [KE.bases]
    · obtain ⟨h3, h4, h5⟩ := hl hw'.1 h
      exact ⟨h3, fun x hx => by simp [KE.bases, h4 x hx], fun hs => h5 (settled_branch hs).1.1⟩
    · refine ⟨by cases b <;> rfl, ?_, fun _ => settled_leaf cfg b⟩
      intro x hx; simp [KE.bases, basesL, Counter.elements] at hx; subst hx; simp [KE.bases]
    · obtain ⟨h3, h4, h5⟩ := hr hw'.2 h
      exact ⟨h3, fun x hx => by simp [KE.bases, h4 x hx], fun hs => h5 (settled_branch hs).2.1⟩

theorem repl_bases {S new k k' : KE} (h : Repl S new k k') : ∀ x ∈ bases k', x ∈ bases k ∨ x ∈ bases new := by
  induction h with
  | here => exact fun x hx => Or.inr hx
  | term _ =>
    intro x hx
    rcases bases_mem_comm.1 hx with h | ⟨y, hy, h⟩
    · exact Or.inl (bases_mem_comm.2 (Or.inl h))
    · simp only [List.mem_append, List.mem_singleton] at hy
      rcases hy with (hy | hy) | rfl
      · exact Or.inl (bases_mem_comm.2 (Or.inr ⟨y, by simp [hy], h⟩))
      · exact Or.inl (bases_mem_comm.2 (Or.inr ⟨y, by simp [hy], h⟩))
      · exact Or.inr h
  | sub _ ih =>
    intro x hx
    rcases bases_mem_comm.1 hx with h | ⟨y, hy, h⟩
    · exact Or.inl (bases_mem_comm.2 (Or.inl h))
    · simp only [List.mem_append, List.mem_cons] at hy
      rcases hy with hy | rfl | hy
      · exact Or.inl (bases_mem_comm.2 (Or.inr ⟨y, by simp [hy], h⟩))
      · exact (ih x h).imp_left (fun h => bases_mem_comm.2 (Or.inr ⟨_, by simp, h⟩))
      · exact Or.inl (bases_mem_comm.2 (Or.inr ⟨y, by simp [hy], h⟩))
  | left _ ih =>
    intro x hx
    simp only [KE.bases, List.mem_append] at hx ⊢
    rcases hx with h | h
    · rcases ih x h with h | h <;> simp [h]
    · simp [h]
  | right _ ih =>
    intro x hx
    simp only [KE.bases, List.mem_append] at hx ⊢
    rcases hx with h | h
    · simp [h]
    · rcases ih x h with h | h <;> simp [h]
  | leafL _ => intro x hx; simp only [KE.bases, List.mem_append] at hx ⊢; rcases hx with h | h <;> simp [h]
  | leafR _ => intro x hx; simp only [KE.bases, List.mem_append] at hx ⊢; rcases hx with h | h <;> simp [h]

theorem NoSig.child {o : Op} {b : Counter} {cs : List KE} (h : NoSig (comm o b cs)) {k : KE} (hk : k ∈ cs) : NoSig k :=
  fun x hx => h x (bases_child hk x hx)

theorem repl_operand {cfg : Cfg} {S new k k' : KE} (h : Repl S new k k') (hk : settled cfg k = true) (hn : NoSig k)
    (hS : wf S = true) (hnb : new.isBase = false) (h1 : operand new = true)
    (h2 : isSingleton S = false → isComm .prod new = true → constOnly new = false) :
    operand k' = true ∧ k'.isBase = false ∧ (isSingleton k = false → isComm .prod k' = true → constOnly k' = false) := by
  induction h with
  | here => exact ⟨h1, hnb, h2⟩
  | @term o b l1 l2 y hSy =>
    have hopd := operand_comm.1 (operand_of_settled hk)
    have hy := settled_child hk y (by simp)
    have hyw := ((wf_comm.1 (settled_iff.1 hk).1).2.2 y (by simp)).2
    have hSs : isSingleton S = false := by rw [isSingleton_same hS hyw hSy]; exact hy.2
    refine ⟨operand_comm.2 ⟨hopd.1, hopd.2.1, Or.inr (by simp), ?_⟩, rfl, ?_⟩
    · intro x hx
      simp only [List.mem_append, List.mem_singleton] at hx
      rcases hx with (hx | hx) | rfl
      · exact hopd.2.2.2 x (by simp [hx])
      · exact hopd.2.2.2 x (by simp [hx])
      · exact ⟨hnb, h1, fun _ => h2 hSs⟩
    · intro hi hc
      simp only [isComm, decide_eq_true_eq] at hc; subst hc
      have h6 := two_terms hk hi
      refine nonconst_keep hk hn hi ?_
      by_cases hb : b.elements = []
      · right
        have : l1 ++ l2 ≠ [] := by
          intro he
          rw [hb] at h6
          simp only [List.append_eq_nil_iff] at he
          simp [he.1, he.2] at h6
        obtain ⟨z, hz⟩ := List.exists_mem_of_ne_nil _ this
        rcases List.mem_append.1 hz with hz | hz
        · exact ⟨z, by simp [hz], by simp [hz]⟩
        · exact ⟨z, by simp [hz], by simp [hz]⟩
      · left
        obtain ⟨x, hx⟩ := List.exists_mem_of_ne_nil _ hb
        exact ⟨x, hx, hx⟩
  | @sub o b l1 l2 a a' _ ih =>
    have hopd := operand_comm.1 (operand_of_settled hk)
    have ha := settled_child hk a (by simp)
    obtain ⟨i1, i2, i3⟩ := ih ha.1 (hn.child (by simp))
    refine ⟨operand_comm.2 ⟨hopd.1, hopd.2.1, Or.inr (by simp), ?_⟩, rfl, ?_⟩
    · intro x hx
      simp only [List.mem_append, List.mem_cons] at hx
      rcases hx with hx | rfl | hx
      · exact hopd.2.2.2 x (by simp [hx])
      · exact ⟨i2, i1, fun _ => i3 ha.2⟩
      · exact hopd.2.2.2 x (by simp [hx])
    · intro hi hc
      simp only [isComm, decide_eq_true_eq] at hc; subst hc
      have h6 := two_terms hk hi
      refine nonconst_keep hk hn hi ?_
      by_cases hb : b.elements = []
      · right
        have : l1 ++ l2 ≠ [] := by
          intro he
          rw [hb] at h6
          simp only [List.append_eq_nil_iff] at he
          simp [he.1, he.2] at h6
        obtain ⟨z, hz⟩ := List.exists_mem_of_ne_nil _ this
        rcases List.mem_append.1 hz with hz | hz
        · exact ⟨z, by simp [hz], by simp [hz]⟩
        · exact ⟨z, by simp [hz], by simp [hz]⟩
      · left
        obtain ⟨x, hx⟩ := List.exists_mem_of_ne_nil _ hb
        exact ⟨x, hx, hx⟩
  | left _ ih =>
    have hb := settled_branch hk
    obtain ⟨i1, _, _⟩ := ih hb.1.1 (fun x hx => hn x (by simp [KE.bases, hx]))
    exact ⟨operand_change.2 ⟨i1, operand_of_settled hb.2.1⟩, rfl, fun _ h => by simp [isComm] at h⟩
  | right _ ih =>
    have hb := settled_branch hk
    obtain ⟨i1, _, _⟩ := ih hb.2.1 (fun x hx => hn x (by simp [KE.bases, hx]))
    exact ⟨operand_change.2 ⟨operand_of_settled hb.1.1, i1⟩, rfl, fun _ h => by simp [isComm] at h⟩
  | leafL _ =>
    have hb := settled_branch hk
    exact ⟨operand_change.2 ⟨operand_of_settled hb.1.1, h1⟩, rfl, fun _ h => by simp [isComm] at h⟩
  | leafR _ =>
    have hb := settled_branch hk
    exact ⟨operand_change.2 ⟨operand_of_settled hb.1.1, h1⟩, rfl, fun _ h => by simp [isComm] at h⟩

theorem standardise_settled {cfg : Cfg} {k : KE} (h : operand k = true) (hb : k.isBase = false) : settled cfg (standardise cfg k) = true := by
  have hw := (operand_iff.1 h).1
  obtain ⟨h1, h2, h3, h4⟩ := standardise_ind (cfg := cfg) (fun k => operand k = true) (fun k _ hk => operand_simplify cfg hk)
    (fun o b _ => operand_of_settled (settled_leaf cfg b)) (fun o ct hk => ((operand_comm.1 hk).2.2.2 ct (by simp)).2.1) hw hb h
  rcases h4 with ⟨_, k', hk', e⟩ | ⟨b, e⟩
  · rw [e] at h1 h2 ⊢
    exact settled_iff.2 ⟨h2, (operand_iff.1 h1).2.1, canon_simplify cfg k' hk', allBelow_simplify cfg k' hk'⟩
  · rw [e]; exact settled_leaf cfg b

theorem standardise_wf {cfg : Cfg} {k : KE} (hw : wf k = true) (hb : k.isBase = false) :
    wf (standardise cfg k) = true ∧ (standardise cfg k).isBase = false :=
  have h := standardise_ind (cfg := cfg) (fun _ => True) (fun _ _ _ => trivial) (fun _ _ _ => trivial) (fun _ _ _ => trivial) hw hb trivial
  ⟨h.2.1, h.2.2.1⟩

theorem standardise_bases {cfg : Cfg} {k : KE} (hw : wf k = true) (hb : k.isBase = false) :
    ∀ x ∈ bases (standardise cfg k), x ∈ bases k := by
  have h := standardise_ind (cfg := cfg) (fun r => ∀ x ∈ bases r, x ∈ bases k)
    (fun r hr hq x hx => hq x ((bases_simplify cfg r hr).subset hx))
    (fun o b hq x hx => hq x (by simpa [KE.bases] using hx))
    (fun o ct hq x hx => hq x (by simpa [KE.bases, basesL, Counter.elements] using hx)) hw hb (fun _ h => h)
  exact h.1

end KE
end GPyABCD
