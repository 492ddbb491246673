import Verif.Lemmas.Rules

/-!
# Operators, rules and expansion respect equality
-/

namespace GPyABCD
open KE

/-- Every element of the first list is the same as one of the second. -/
def SubSame (l m : List KE) : Prop := ∀ x ∈ l, ∃ y ∈ m, Same x y

namespace KE

theorem SubSame.cons {a b : KE} {l m : List KE} (h : Same a b) (h' : SubSame l m) : SubSame (a :: l) (b :: m) := by
  intro x hx
  rcases List.mem_cons.1 hx with rfl | hx
  · exact ⟨b, by simp, h⟩
  · obtain ⟨y, hy, e⟩ := h' x hx; exact ⟨y, by simp [hy], e⟩

theorem SubSame.nil {m : List KE} : SubSame [] m := by intro x hx; simp at hx

theorem SubSame.append {l m l' m' : List KE} (h : SubSame l m) (h' : SubSame l' m') : SubSame (l ++ l') (m ++ m') := by
  intro x hx
  rcases List.mem_append.1 hx with hx | hx
  · obtain ⟨y, hy, e⟩ := h x hx; exact ⟨y, by simp [hy], e⟩
  · obtain ⟨y, hy, e⟩ := h' x hx; exact ⟨y, by simp [hy], e⟩

theorem SubSame.flatMap {α : Type} {l : List α} {f g : α → List KE} (h : ∀ a ∈ l, SubSame (f a) (g a)) :
    SubSame (l.flatMap f) (l.flatMap g) := by
  intro x hx
  obtain ⟨a, ha, hx⟩ := List.mem_flatMap.1 hx
  obtain ⟨y, hy, e⟩ := h a ha x hx
  exact ⟨y, List.mem_flatMap.2 ⟨a, ha, hy⟩, e⟩

theorem SubSame.map {α : Type} {l m : List α} {f g : α → KE} (h : l ⊆ m) (h' : ∀ a ∈ l, Same (f a) (g a)) :
    SubSame (l.map f) (m.map g) := by
  intro x hx
  obtain ⟨a, ha, rfl⟩ := List.mem_map.1 hx
  exact ⟨_, List.mem_map.2 ⟨a, h ha, rfl⟩, h' a ha⟩

theorem SubSame.refl (l : List KE) : SubSame l l := fun x hx => ⟨x, hx, Same.refl x⟩

theorem els_same {op : Op} {k k' : KE} (h : wf k = true) (h' : wf k' = true) (hs : Same k k') : (els op k).Perm (els op k') := by
  cases hs with
  | base b => exact List.Perm.refl _
  | change hl hr => exact List.Perm.refl _
  | comm hc hf hp =>
    simp only [els]
    split
    · exact Counter.elements_perm (wf_comm.1 h).1 (wf_comm.1 h').1 hc
    · exact List.Perm.refl _

theorem parts_same {op : Op} {k k' : KE} (hs : Same k k') : SameL (parts op k) (parts op k') := by
  cases hs with
  | base b => exact SameL.refl _
  | change hl hr => exact SameL.cons (.change hl hr) (SameL.refl _)
  | comm hc hf hp =>
    simp only [parts]
    split
    · exact ⟨_, hf, hp⟩
    · exact SameL.cons (.comm hc hf hp) (SameL.refl _)

theorem joins_same {op : Op} {k1 k2 k1' k2' R R' : KE} (w1 : wf k1 = true) (w2 : wf k2 = true) (w1' : wf k1' = true) (w2' : wf k2' = true)
    (h1 : Same k1 k1') (h2 : Same k2 k2') (h : RawJoin op k1 k2 R) (h' : RawJoin op k1' k2' R') : Same R R' := by
  obtain ⟨hw, b, cs, rfl, he, hc⟩ := h
  obtain ⟨hw', b', cs', rfl, he', hc'⟩ := h'
  have hp : b.elements.Perm b'.elements := he.trans (((els_same w1 w1' h1).append (els_same w2 w2' h2)).trans he'.symm)
  have hcp : SameL cs cs' := (SameL.of_perm hc).trans (((parts_same h1).append (parts_same h2)).trans (SameL.of_perm hc').symm)
  refine SameL.same ?_ hcp
  intro x
  have := hp.count_eq x
  rw [Counter.count_elements (wf_comm.1 hw).1, Counter.count_elements (wf_comm.1 hw').1] at this
  have := (wf_comm.1 hw).2.1.nonneg x
  have := (wf_comm.1 hw').2.1.nonneg x
  omega

theorem addRes_same {cfg : Cfg} {k1 k2 k1' k2' : KE} (w1 : wf k1 = true) (w2 : wf k2 = true) (w1' : wf k1' = true) (w2' : wf k2' = true)
    (h1 : Same k1 k1') (h2 : Same k2 k2') : Same (addRes cfg k1 k2) (addRes cfg k1' k2') := by
  obtain ⟨R, e, h⟩ := addRes_raw cfg k1 k2 w1 w2
  obtain ⟨R', e', h'⟩ := addRes_raw cfg k1' k2' w1' w2'
  rw [e, e']
  exact simplify_same cfg R R' h.wf h'.wf (joins_same w1 w2 w1' w2' h1 h2 h h')

theorem mulRes_same {cfg : Cfg} {k1 k2 k1' k2' : KE} (w1 : wf k1 = true) (w2 : wf k2 = true) (w1' : wf k1' = true) (w2' : wf k2' = true)
    (h1 : Same k1 k1') (h2 : Same k2 k2') : Same (mulRes cfg k1 k2) (mulRes cfg k1' k2') := by
  obtain ⟨R, e, h⟩ := mulRes_raw cfg k1 k2 w1 w2
  obtain ⟨R', e', h'⟩ := mulRes_raw cfg k1' k2' w1' w2'
  rw [e, e']
  exact simplify_same cfg R R' h.wf h'.wf (joins_same w1 w2 w1' w2' h1 h2 h h')

/-- Facts about two equal sums or products. -/
structure SamePair (o : Op) (b b' : Counter) (c c' : List KE) : Prop where
  hb : b.WF
  hb' : b'.WF
  pb : b.Pos
  pb' : b'.Pos
  hc : ∀ k ∈ c, k.isBase = false ∧ wf k = true
  hc' : ∀ k ∈ c', k.isBase = false ∧ wf k = true
  get : ∀ x, b.get x = b'.get x
  perm : b.Perm b'
  sameL : SameL c c'

theorem samePair {o : Op} {b b' : Counter} {c c' : List KE} (h : wf (comm o b c) = true) (h' : wf (comm o b' c') = true)
    (hg : ∀ x, b.get x = b'.get x) (hl : SameL c c') : SamePair o b b' c c' := by
  obtain ⟨hb, pb, hc⟩ := wf_comm.1 h
  obtain ⟨hb', pb', hc'⟩ := wf_comm.1 h'
  exact ⟨hb, hb', pb, pb', hc, hc', hg, Counter.perm_of_get_eq hb hb' pb pb' hg, hl⟩

theorem mkC_same {cfg : Cfg} {o : Op} {b b' : Counter} {c c' : List KE} (hb : b.WF) (hb' : b'.WF) (pb : b.Pos) (pb' : b'.Pos)
    (hc : ∀ k ∈ c, k.isBase = false ∧ wf k = true) (hc' : ∀ k ∈ c', k.isBase = false ∧ wf k = true)
    (hg : ∀ x, b.get x = b'.get x) (hl : SameL c c') : Same (mkC cfg o b c) (mkC cfg o b' c') :=
  simplify_same cfg _ _ (wf_comm.2 ⟨hb, pb, hc⟩) (wf_comm.2 ⟨hb', pb', hc'⟩) (hl.same hg)

theorem mkChange_same {cfg : Cfg} {x : CC} {l l' r r' : KE} (wl : wf l = true) (wl' : wf l' = true) (wr : wf r = true) (wr' : wf r' = true)
    (hl : Same l l') (hr : Same r r') : Same (mkChange cfg x l r) (mkChange cfg x l' r') :=
  simplify_same cfg _ _ (wf_change.2 ⟨wl, wr⟩) (wf_change.2 ⟨wl', wr'⟩) (.change hl hr)

theorem nested_same {cfg : Cfg} {o o' : Op} {a : Base} {b b' : Counter} {c c' : List KE} (h : SamePair o b b' c c') :
    SubSame (b.elements.map (fun bt => mkC cfg o (b.pos.sub (Counter.ofList [bt])) (c ++ [mkL cfg o' [a, bt] []])))
      (b'.elements.map (fun bt => mkC cfg o (b'.pos.sub (Counter.ofList [bt])) (c' ++ [mkL cfg o' [a, bt] []]))) := by
  refine SubSame.map (Counter.elements_perm h.hb h.hb' h.get).subset ?_
  intro bt _
  have hwn : wf (mkL cfg o' [a, bt] []) = true :=
    wf_simplify cfg _ (wf_comm.2 ⟨Counter.wf_ofList _, Counter.pos_ofList _, by simp⟩)
  have hnb : (mkL cfg o' [a, bt] []).isBase = false := isBase_mkL ..
  have key : ∀ c : List KE, (∀ k ∈ c, k.isBase = false ∧ wf k = true) →
      ∀ k ∈ c ++ [mkL cfg o' [a, bt] []], k.isBase = false ∧ wf k = true := by
    intro c hc k hk
    rcases List.mem_append.1 hk with hk | hk
    · exact hc k hk
    · simp only [List.mem_singleton] at hk; subst hk; exact ⟨hnb, hwn⟩
  refine mkC_same (Counter.wf_sub (Counter.wf_pos h.hb) (Counter.wf_ofList _)) (Counter.wf_sub (Counter.wf_pos h.hb') (Counter.wf_ofList _))
    (Counter.pos_sub _ _) (Counter.pos_sub _ _) (key _ h.hc) (key _ h.hc') ?_ (h.sameL.append (SameL.refl _))
  intro x
  rw [Counter.get_sub (Counter.wf_pos h.hb) (Counter.wf_ofList _), Counter.get_sub (Counter.wf_pos h.hb') (Counter.wf_ofList _),
    Counter.get_pos h.hb, Counter.get_pos h.hb', h.get]

theorem add_same {cfg : Cfg} {k1 k2 k1' k2' : KE} (w1 : wf k1 = true) (w2 : wf k2 = true) (w1' : wf k1' = true) (w2' : wf k2' = true)
    (h1 : Same k1 k1') (h2 : Same k2 k2') : SubSame (add cfg k1 k2) (add cfg k1' k2') := by
  refine SubSame.cons (addRes_same w1 w2 w1' w2' h1 h2) ?_
  cases h1 with
  | base a =>
    cases h2 with
    | base b => exact SubSame.nil
    | change _ _ => exact SubSame.nil
    | @comm o c c' cs ds cs' hc hf hp =>
      cases o with
      | sum => exact SubSame.nil
      | prod => exact nested_same (samePair w2 w2' hc ⟨_, hf, hp⟩)
  | change _ _ =>
    cases h2 with
    | base b => exact SubSame.nil
    | change _ _ => exact SubSame.nil
    | @comm o c c' cs ds cs' hc hf hp => cases o <;> exact SubSame.nil
  | @comm o c c' cs ds cs' hc hf hp =>
    cases h2 with
    | base b =>
      cases o with
      | sum => exact SubSame.nil
      | prod => exact nested_same (samePair w1 w1' hc ⟨_, hf, hp⟩)
    | change _ _ => cases o <;> exact SubSame.nil
    | @comm o' _ _ _ _ _ _ _ => cases o <;> cases o' <;> exact SubSame.nil

theorem multiply_same {cfg : Cfg} {k1 k2 k1' k2' : KE} (w1 : wf k1 = true) (w2 : wf k2 = true) (w1' : wf k1' = true) (w2' : wf k2' = true)
    (h1 : Same k1 k1') (h2 : Same k2 k2') : SubSame (multiply cfg k1 k2) (multiply cfg k1' k2') := by
  refine SubSame.cons (mulRes_same w1 w2 w1' w2' h1 h2) ?_
  cases h1 with
  | base a =>
    cases h2 with
    | base b => exact SubSame.nil
    | change _ _ => exact SubSame.nil
    | @comm o c c' cs ds cs' hc hf hp =>
      cases o with
      | prod => exact SubSame.nil
      | sum => exact nested_same (samePair w2 w2' hc ⟨_, hf, hp⟩)
  | change _ _ =>
    cases h2 with
    | base b => exact SubSame.nil
    | change _ _ => exact SubSame.nil
    | @comm o c c' cs ds cs' hc hf hp => cases o <;> exact SubSame.nil
  | @comm o c c' cs ds cs' hc hf hp =>
    cases h2 with
    | base b =>
      cases o with
      | prod => exact SubSame.nil
      | sum => exact nested_same (samePair w1 w1' hc ⟨_, hf, hp⟩)
    | change _ _ => cases o <;> exact SubSame.nil
    | @comm o' _ _ _ _ _ _ _ => cases o <;> cases o' <;> exact SubSame.nil

theorem keq_same_left {a a' b : KE} (h : Same a a') : keq a b = keq a' b := by
  rw [Bool.eq_iff_iff, keq_iff, keq_iff]
  exact ⟨fun h' => h.symm.trans h', fun h' => h.trans h'⟩

theorem keq_same_right {a b b' : KE} (h : Same b b') : keq a b = keq a b' := by
  rw [Bool.eq_iff_iff, keq_iff, keq_iff]
  exact ⟨fun h' => h'.trans h, fun h' => h'.trans h.symm⟩

theorem swap_same {cfg : Cfg} {S S' : KE} (B : Base) (w : wf S = true) (w' : wf S' = true) (h : Same S S') :
    SubSame (swapBase cfg S B) (swapBase cfg S' B) := by
  cases h with
  | base b => exact SubSame.refl _
  | @change x l l' r r' hl hr =>
    have wf1 := wf_change.1 w
    have wf2 := wf_change.1 w'
    simp only [swapBase, isBase_same hl, isBase_same hr, keq_same_left hl, keq_same_left hr]
    refine SubSame.append ?_ ?_
    · split
      · exact SubSame.cons (mkChange_same rfl rfl wf1.2 wf2.2 (Same.refl _) hr) SubSame.nil
      · exact SubSame.nil
    · split
      · exact SubSame.cons (mkChange_same wf1.1 wf2.1 rfl rfl hl (Same.refl _)) SubSame.nil
      · exact SubSame.nil
  | @comm o b b' c ds c' hc hf hp =>
    have p := samePair w w' hc ⟨_, hf, hp⟩
    simp only [swapBase, Counter.pos_eq_self p.pb, Counter.pos_eq_self p.pb']
    refine SubSame.map p.perm.subset ?_
    intro q _
    have hws : (swapDict q.1 B).WF := Counter.wf_put (by simp [Counter.WF]) _ _
    refine mkC_same (Counter.wf_add p.hb hws) (Counter.wf_add p.hb' hws) (Counter.pos_add _ _) (Counter.pos_add _ _) p.hc p.hc' ?_ p.sameL
    intro x
    rw [Counter.get_add p.hb hws, Counter.get_add p.hb' hws, p.get]

theorem oneChange_same {cfg : Cfg} {S S' : KE} (x : CC) (k : Option KE) (w : wf S = true) (w' : wf S' = true)
    (hk : ∀ y ∈ k, wf y = true) (h : Same S S') : SubSame (oneChange cfg S x k) (oneChange cfg S' x k) := by
  cases k with
  | none => exact SubSame.cons (mkChange_same w w' w w' h h) SubSame.nil
  | some k =>
    have wk := hk k rfl
    simp only [oneChange, keq_same_right h]
    split
    · exact SubSame.cons (mkChange_same w w' w w' h h) SubSame.nil
    · exact SubSame.cons (mkChange_same w w' wk wk h (Same.refl _))
        (SubSame.cons (mkChange_same wk wk w w' (Same.refl _) h) SubSame.nil)

theorem bothChanges_eq (cfg : Cfg) (S : KE) (k : Option KE) : bothChanges cfg S k = oneChange cfg S .CP k ++ oneChange cfg S .CW k := by
  cases k with
  | none => rfl
  | some k => exact bothChanges_some cfg S k

theorem bothChanges_same {cfg : Cfg} {S S' : KE} (k : Option KE) (w : wf S = true) (w' : wf S' = true)
    (hk : ∀ y ∈ k, wf y = true) (h : Same S S') : SubSame (bothChanges cfg S k) (bothChanges cfg S' k) := by
  rw [bothChanges_eq, bothChanges_eq]
  exact SubSame.append (oneChange_same .CP k w w' hk h) (oneChange_same .CW k w w' hk h)

theorem branchNode_same {cfg : Cfg} {l l' : KE} (h : Same l l') : Same (branchNode cfg l) (branchNode cfg l') := by
  cases h with
  | base b => exact Same.refl _
  | change hl hr => exact .change hl hr
  | comm hc hf hp => exact .comm hc hf hp

theorem forall₂_eraseIdx {α : Type} {R : α → α → Prop} {l m : List α} (h : List.Forall₂ R l m) :
    ∀ i, List.Forall₂ R (l.eraseIdx i) (m.eraseIdx i) := by
  induction h with
  | nil => intro i; simp
  | cons hab h ih =>
    intro i
    cases i with
    | zero => simpa using h
    | succ i => simpa using ⟨hab, ih i⟩

theorem perm_eraseIdx {α : Type} {l m : List α} (h : l.Perm m) : ∀ i, i < l.length → ∃ j, j < m.length ∧ (l.eraseIdx i).Perm (m.eraseIdx j) := by
  induction h with
  | nil => intro i hi; simp at hi
  | @cons x l m h ih =>
    intro i hi
    cases i with
    | zero => exact ⟨0, by simp, by simpa using h⟩
    | succ i =>
      obtain ⟨j, hj, hp⟩ := ih i (by simpa using hi)
      exact ⟨j + 1, by simpa using hj, by simpa using hp⟩
  | @swap x y l =>
    intro i hi
    match i with
    | 0 => exact ⟨1, by simp, by simp⟩
    | 1 => exact ⟨0, by simp, by simp⟩
    | i + 2 => exact ⟨i + 2, by simpa using hi, by simpa using List.Perm.swap _ _ _⟩
  | trans _ _ ih1 ih2 =>
    intro i hi
    obtain ⟨j, hj, h1⟩ := ih1 i hi
    obtain ⟨k, hk, h2⟩ := ih2 j hj
    exact ⟨k, hk, h1.trans h2⟩

theorem sameL_eraseIdx {l m : List KE} (h : SameL l m) (i : Nat) (hi : i < l.length) :
    ∃ j, j < m.length ∧ SameL (l.eraseIdx i) (m.eraseIdx j) := by
  obtain ⟨d, h1, h2⟩ := h
  obtain ⟨j, hj, hp⟩ := perm_eraseIdx h2 i (by rw [← h1.length_eq]; exact hi)
  exact ⟨j, hj, _, forall₂_eraseIdx h1 i, hp⟩

theorem remove_same {cfg : Cfg} {S S' : KE} (w : wf S = true) (w' : wf S' = true) (h : Same S S') :
    SubSame (removeATerm cfg S) (removeATerm cfg S') := by
  cases h with
  | base b => exact SubSame.nil
  | change hl hr => exact SubSame.cons (branchNode_same hl) (SubSame.cons (branchNode_same hr) SubSame.nil)
  | @comm o b b' c ds c' hc hf hp =>
    have p := samePair w w' hc ⟨_, hf, hp⟩
    have ht : termCount b c = termCount b' c' := by
      unfold termCount; rw [Counter.total_congr p.hb p.hb' p.get, p.sameL.length_eq]
    simp only [removeATerm, Counter.pos_eq_self p.pb, Counter.pos_eq_self p.pb', ht]
    split
    swap
    · exact SubSame.nil
    refine SubSame.append (SubSame.map p.perm.subset ?_) ?_
    · intro q _
      have hws : Counter.WF [(q.1, (-1 : Int))] := by simp [Counter.WF]
      refine mkC_same (Counter.wf_add p.hb hws) (Counter.wf_add p.hb' hws) (Counter.pos_add _ _) (Counter.pos_add _ _) p.hc p.hc' ?_ p.sameL
      intro x
      rw [Counter.get_add p.hb hws, Counter.get_add p.hb' hws, p.get]
    · intro x hx
      obtain ⟨i, hi, rfl⟩ := List.mem_map.1 hx
      obtain ⟨j, hj, hl⟩ := sameL_eraseIdx p.sameL i (List.mem_range.1 hi)
      refine ⟨_, List.mem_map.2 ⟨j, List.mem_range.2 hj, rfl⟩, ?_⟩
      rw [← List.eraseIdx_eq_take_drop_succ, ← List.eraseIdx_eq_take_drop_succ]
      exact mkC_same p.hb p.hb' p.pb p.pb' (fun k hk => p.hc k (List.mem_of_mem_eraseIdx hk))
        (fun k hk => p.hc' k (List.mem_of_mem_eraseIdx hk)) p.get hl

theorem delSE_same {a b : KE} (wa : wf a = true) (wb : wf b = true) (h : Same a b) : Same (delSE a) (delSE b) := by
  cases h with
  | base b => exact .base b
  | change hl hr => exact .change hl hr
  | comm hc hf hp =>
    refine .comm ?_ hf hp
    intro x
    rw [Counter.get_del (wf_comm.1 wa).1, Counter.get_del (wf_comm.1 wb).1, hc]

theorem has_congr {b b' : Counter} (hb : b.WF) (hb' : b'.WF) (pb : b.Pos) (pb' : b'.Pos) (hg : ∀ x, b.get x = b'.get x) (x : Base) :
    b.has x = b'.has x := by
  rw [Bool.eq_iff_iff, pb.has_iff_get hb, pb'.has_iff_get hb', hg]

theorem higher_same {cfg : Cfg} {S S' : KE} (w : wf S = true) (w' : wf S' = true) (h : Same S S') :
    SubSame (higherCurves cfg S) (higherCurves cfg S') := by
  have hh : ∀ ct ∈ higherKers cfg, wf ct = true ∧ ct.isBase = false := by
    intro ct hct
    rw [higherKers_eq] at hct
    simp only [List.mem_cons, List.not_mem_nil, or_false] at hct
    rcases hct with rfl | rfl <;> exact ⟨by decide, rfl⟩
  have fin : ∀ (l m : List KE) (t : Bool), (∀ x ∈ l, wf x = true) → (∀ x ∈ m, wf x = true) → SubSame l m →
      SubSame (if t then l.map delSE else l) (if t then m.map delSE else m) := by
    intro l m t h1 h2 h
    cases t with
    | false => exact h
    | true =>
      intro x hx
      simp only [if_true, List.mem_map] at hx
      obtain ⟨a, ha, rfl⟩ := hx
      obtain ⟨y, hy, e⟩ := h a ha
      exact ⟨delSE y, by simp only [if_true]; exact List.mem_map.2 ⟨y, hy, rfl⟩, delSE_same (h1 a ha) (h2 y hy) e⟩
  cases h with
  | base b => exact SubSame.nil
  | @change x l l' r r' hl hr =>
    have wf1 := wf_change.1 w
    have wf2 := wf_change.1 w'
    simp only [higherCurves, isBase_same hl, isBase_same hr]
    refine SubSame.append ?_ ?_
    · split
      · exact SubSame.map (List.Subset.refl _) (fun ct hct => mkChange_same (hh ct hct).1 (hh ct hct).1 wf1.2 wf2.2 (Same.refl _) hr)
      · exact SubSame.nil
    · split
      · exact SubSame.map (List.Subset.refl _) (fun ct hct => mkChange_same wf1.1 wf2.1 (hh ct hct).1 (hh ct hct).1 hl (Same.refl _))
      · exact SubSame.nil
  | @comm o b b' c ds c' hc hf hp =>
    have p := samePair w w' hc ⟨_, hf, hp⟩
    have hhas := has_congr p.hb p.hb' p.pb p.pb' p.get
    cases o with
    | sum =>
      simp only [higherCurves, Counter.pos_eq_self p.pb, Counter.pos_eq_self p.pb', hhas]
      have key : ∀ {b : Counter} {c : List KE}, b.WF → b.Pos → (∀ k ∈ c, k.isBase = false ∧ wf k = true) → ∀ ct ∈ higherKers cfg,
          ∀ k ∈ c ++ [ct], k.isBase = false ∧ wf k = true := by
        intro b c _ _ hc ct hct k hk
        rcases List.mem_append.1 hk with hk | hk
        · exact hc k hk
        · simp only [List.mem_singleton] at hk; subst hk; exact (hh k hct).symm
      refine fin _ _ _ ?_ ?_ (SubSame.map (List.Subset.refl _) ?_)
      · intro x hx
        obtain ⟨ct, hct, rfl⟩ := List.mem_map.1 hx
        exact wf_simplify cfg _ (wf_comm.2 ⟨p.hb, p.pb, key p.hb p.pb p.hc ct hct⟩)
      · intro x hx
        obtain ⟨ct, hct, rfl⟩ := List.mem_map.1 hx
        exact wf_simplify cfg _ (wf_comm.2 ⟨p.hb', p.pb', key p.hb' p.pb' p.hc' ct hct⟩)
      · intro ct hct
        exact mkC_same p.hb p.hb' p.pb p.pb' (key p.hb p.pb p.hc ct hct) (key p.hb' p.pb' p.hc' ct hct) p.get (p.sameL.append (SameL.refl _))
    | prod =>
      simp only [higherCurves, Counter.pos_eq_self p.pb, Counter.pos_eq_self p.pb', hhas]
      have wone : ∀ (x : Base) (n : Int), Counter.WF [(x, n)] := by intro x n; simp [Counter.WF]
      have key : ∀ (x : Base) (n : Int), Same (mkC cfg .prod (b.add [(x, n)]) c) (mkC cfg .prod (b'.add [(x, n)]) c') := by
        intro x n
        refine mkC_same (Counter.wf_add p.hb (wone x n)) (Counter.wf_add p.hb' (wone x n)) (Counter.pos_add _ _) (Counter.pos_add _ _) p.hc p.hc' ?_ p.sameL
        intro y
        rw [Counter.get_add p.hb (wone x n), Counter.get_add p.hb' (wone x n), p.get]
      have keyw : ∀ (x : Base) (n : Int), wf (mkC cfg .prod (b.add [(x, n)]) c) = true := fun x n =>
        wf_simplify cfg _ (wf_comm.2 ⟨Counter.wf_add p.hb (wone x n), Counter.pos_add _ _, p.hc⟩)
      have keyw' : ∀ (x : Base) (n : Int), wf (mkC cfg .prod (b'.add [(x, n)]) c') = true := fun x n =>
        wf_simplify cfg _ (wf_comm.2 ⟨Counter.wf_add p.hb' (wone x n), Counter.pos_add _ _, p.hc'⟩)
      refine fin _ _ _ ?_ ?_ ?_
      · intro x hx
        simp only [List.map_cons, List.map_nil, List.mem_append, List.mem_cons, List.not_mem_nil, or_false] at hx
        rcases hx with (rfl | rfl) | rfl
        · exact keyw _ _
        · exact keyw _ _
        · split <;> exact keyw _ _
      · intro x hx
        simp only [List.map_cons, List.map_nil, List.mem_append, List.mem_cons, List.not_mem_nil, or_false] at hx
        rcases hx with (rfl | rfl) | rfl
        · exact keyw' _ _
        · exact keyw' _ _
        · split <;> exact keyw' _ _
      · refine SubSame.append (SubSame.cons (key _ _) (SubSame.cons (key _ _) SubSame.nil)) (SubSame.cons ?_ SubSame.nil)
        split <;> exact key _ _

/-- Rules give the same results on the same nodes. -/
def RuleRespects (rule : Rule) : Prop :=
  ∀ S S', wf S = true → wf S' = true → Same S S' → SubSame (rule S) (rule S')

theorem rule_respects (cfg : Cfg) (o : Orders) (n : RuleName) : RuleRespects (n.rule cfg o) := by
  intro S S' w w' h
  have hb : ∀ b : Base, ∀ y ∈ some (base b), wf y = true := by
    intro b y hy; simp only [Option.mem_some_iff] at hy; subst hy; rfl
  cases n with
  | plus_base => exact SubSame.flatMap (fun B _ => add_same w rfl w' rfl h (Same.refl _))
  | times_base => exact SubSame.flatMap (fun B _ => multiply_same w rfl w' rfl h (Same.refl _))
  | replace_base => exact SubSame.flatMap (fun B _ => swap_same B w w' h)
  | change_new_base => exact SubSame.flatMap (fun B _ => bothChanges_same _ w w' (hb B) h)
  | change_same => exact bothChanges_same none w w' (by simp) h
  | change_window_constant => exact oneChange_same _ _ w w' (hb _) h
  | change_window_linear => exact oneChange_same _ _ w w' (hb _) h
  | change_point_linear => exact oneChange_same _ _ w w' (hb _) h
  | times_shifted_base =>
    refine SubSame.flatMap (fun B _ => ?_)
    have hw : wf (mkL cfg .sum [B, .C] []) = true :=
      wf_simplify cfg _ (wf_comm.2 ⟨Counter.wf_ofList _, Counter.pos_ofList _, by simp⟩)
    exact multiply_same w hw w' hw h (Same.refl _)
  | replace_with_singleton => exact SubSame.refl _
  | remove_some_term => exact remove_same w w' h
  | try_higher_curves => exact higher_same w w' h

/-! ## Contexts -/

/-- Two contexts that are the same up to reordering. -/
inductive CtxSim : Ctx → Ctx → Prop
  | hole : CtxSim .hole .hole
  | comm {o : Op} {b b' : Counter} {l1 l2 l1' l2' : List KE} {C C' : Ctx} (hc : ∀ x, b.get x = b'.get x)
      (hl : SameL (l1 ++ l2) (l1' ++ l2')) (h : CtxSim C C') : CtxSim (.comm o b l1 C l2) (.comm o b' l1' C' l2')
  | left {c : CC} {C C' : Ctx} {r r' : KE} (h : CtxSim C C') (hr : Same r r') : CtxSim (.left c C r) (.left c C' r')
  | right {c : CC} {C C' : Ctx} {l l' : KE} (hl : Same l l') (h : CtxSim C C') : CtxSim (.right c l C) (.right c l' C')

theorem CtxSim.plug {C C' : Ctx} (h : CtxSim C C') {a b : KE} (hab : Same a b) : Same (C.plug a) (C'.plug b) := by
  induction h with
  | hole => exact hab
  | comm hc hl _ ih =>
    refine SameL.same hc ?_
    refine (SameL.of_perm List.perm_middle).trans ((SameL.cons ih hl).trans (SameL.of_perm List.perm_middle.symm))
  | left _ hr ih => exact .change ih hr
  | right hl _ ih => exact .change hl ih

theorem CtxSim.hole_iff {C C' : Ctx} (h : CtxSim C C') : C = .hole ↔ C' = .hole := by
  cases h <;> simp

theorem CtxSim.endsLeft {C C' : Ctx} (h : CtxSim C C') : C.endsLeft = C'.endsLeft := by
  induction h with
  | hole => rfl
  | comm _ _ _ ih => exact ih
  | @left c C C' r r' h _ ih =>
    by_cases hC : C = .hole
    · have := h.hole_iff.1 hC; subst hC; subst this; rfl
    · rw [endsLeft_left hC, endsLeft_left (fun e => hC (h.hole_iff.2 e)), ih]
  | right _ _ ih => exact ih

theorem CtxSim.split {D : Ctx} {c : CC} {y : KE} : ∀ {C' : Ctx}, CtxSim (Ctx.comp D (.left c .hole y)) C' →
    ∃ D' y', C' = Ctx.comp D' (.left c .hole y') ∧ CtxSim D D' := by
  induction D with
  | hole =>
    intro C' h
    cases h with
    | left h hr => cases h; exact ⟨.hole, _, rfl, .hole⟩
  | comm o b l1 D l2 ih =>
    intro C' h
    cases h with
    | comm hc hl h => obtain ⟨D', y', rfl, h'⟩ := ih h; exact ⟨.comm _ _ _ D' _, y', rfl, .comm hc hl h'⟩
  | left c D r ih =>
    intro C' h
    cases h with
    | left h hr => obtain ⟨D', y', rfl, h'⟩ := ih h; exact ⟨.left _ D' _, y', rfl, .left h' hr⟩
  | right c l D ih =>
    intro C' h
    cases h with
    | right hl h => obtain ⟨D', y', rfl, h'⟩ := ih h; exact ⟨.right _ _ D', y', rfl, .right hl h'⟩

theorem comp_left_inj : ∀ {D D' : Ctx} {c c' : CC} {y y' : KE},
    Ctx.comp D (.left c .hole y) = Ctx.comp D' (.left c' .hole y') → D = D' ∧ c = c' := by
  intro D
  induction D with
  | hole =>
    intro D' c c' y y' h
    cases D' with
    | hole => simp only [Ctx.comp, Ctx.left.injEq] at h; exact ⟨rfl, h.1⟩
    | comm _ _ _ _ _ => simp [Ctx.comp] at h
    | left c2 D2 r2 => cases D2 <;> simp [Ctx.comp] at h
    | right _ _ _ => simp [Ctx.comp] at h
  | comm o b l1 D l2 ih =>
    intro D' c c' y y' h
    cases D' with
    | comm _ _ _ _ _ =>
      simp only [Ctx.comp, Ctx.comm.injEq] at h
      obtain ⟨rfl, rfl, rfl, h, rfl⟩ := h
      obtain ⟨rfl, rfl⟩ := ih h; exact ⟨rfl, rfl⟩
    | hole => simp [Ctx.comp] at h
    | left c2 D2 r2 => simp [Ctx.comp] at h
    | right _ _ _ => simp [Ctx.comp] at h
  | left c0 D r ih =>
    intro D' c c' y y' h
    cases D' with
    | left c2 D2 r2 =>
      simp only [Ctx.comp, Ctx.left.injEq] at h
      obtain ⟨rfl, h, rfl⟩ := h
      obtain ⟨rfl, rfl⟩ := ih h; exact ⟨rfl, rfl⟩
    | hole => cases D <;> simp [Ctx.comp] at h
    | comm _ _ _ _ _ => simp [Ctx.comp] at h
    | right _ _ _ => simp [Ctx.comp] at h
  | right c0 l D ih =>
    intro D' c c' y y' h
    cases D' with
    | right _ _ _ =>
      simp only [Ctx.comp, Ctx.right.injEq] at h
      obtain ⟨rfl, rfl, h⟩ := h
      obtain ⟨rfl, rfl⟩ := ih h; exact ⟨rfl, rfl⟩
    | hole => simp [Ctx.comp] at h
    | comm _ _ _ _ _ => simp [Ctx.comp] at h
    | left c2 D2 r2 => simp [Ctx.comp] at h

theorem sameL_middle {l1 l2 m : List KE} {a : KE} (h : SameL (l1 ++ a :: l2) m) :
    ∃ m1 a' m2, m = m1 ++ a' :: m2 ∧ Same a a' ∧ SameL (l1 ++ l2) (m1 ++ m2) := by
  obtain ⟨d, h1, h2⟩ := h
  obtain ⟨d1, d2, rfl, h3, h4⟩ : ∃ d1 d2, d = d1 ++ d2 ∧ List.Forall₂ Same l1 d1 ∧ List.Forall₂ Same (a :: l2) d2 := by
    refine ⟨d.take l1.length, d.drop l1.length, (List.take_append_drop _ _).symm, ?_, ?_⟩
    · have := List.forall₂_take_append d l1 (a :: l2) h1.flip
      exact this.flip
    · have := List.forall₂_drop_append d l1 (a :: l2) h1.flip
      exact this.flip
  cases h4 with
  | @cons _ a' _ d2 hab h4 =>
    have hm : a' ∈ m := h2.subset (by simp)
    obtain ⟨m1, m2, rfl⟩ := List.append_of_mem hm
    refine ⟨m1, a', m2, rfl, hab, d1 ++ d2, List.rel_append h3 h4, ?_⟩
    exact (List.perm_cons a').1 ((List.perm_middle.symm.trans h2).trans List.perm_middle)

/-- An occurrence in an expression corresponds to one in any equal expression. -/
theorem occ_same {C : Ctx} {x : KE} : ∀ {k' : KE}, Same (C.plug x) k' → ∃ C' x', k' = C'.plug x' ∧ CtxSim C C' ∧ Same x x' := by
  induction C with
  | hole => intro k' h; exact ⟨.hole, k', rfl, .hole, h⟩
  | comm o b l1 C l2 ih =>
    intro k' h
    cases h with
    | @comm _ _ b' _ ds cs' hc hf hp =>
      obtain ⟨m1, a', m2, rfl, hs, hl⟩ := sameL_middle ⟨ds, hf, hp⟩
      obtain ⟨C', x', rfl, h1, h2⟩ := ih hs
      exact ⟨.comm o b' m1 C' m2, x', rfl, .comm hc hl h1, h2⟩
  | left c C r ih =>
    intro k' h
    cases h with
    | change hl hr => obtain ⟨C', x', rfl, h1, h2⟩ := ih hl; exact ⟨.left c C' _, x', rfl, .left h1 hr, h2⟩
  | right c l C ih =>
    intro k' h
    cases h with
    | change hl hr => obtain ⟨C', x', rfl, h1, h2⟩ := ih hr; exact ⟨.right c _ C', x', rfl, .right hl h1, h2⟩

theorem nodeOf_same {x x' : KE} (h : Same x x') : Same (nodeOf x) (nodeOf x') := by
  cases h with
  | base b => exact Same.refl _
  | change hl hr => exact .change hl hr
  | comm hc hf hp => exact .comm hc hf hp

end KE
end GPyABCD
