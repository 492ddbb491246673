import Verif.Lemmas.Construct
import Verif.Lemmas.Counts

/-! Simplification respects "same up to order of terms". -/

namespace GPyABCD
open List KE

/-- Two lists of terms are the same up to order, at every level. -/
def SameL (cs cs' : List KE) : Prop := ∃ ds, Forall₂ Same cs ds ∧ ds.Perm cs'

namespace SameL

theorem refl (cs : List KE) : SameL cs cs := ⟨cs, forall₂_same.2 (fun _ _ => Same.refl _), Perm.refl _⟩

theorem of_perm {cs cs' : List KE} (h : cs.Perm cs') : SameL cs cs' :=
  ⟨cs, forall₂_same.2 (fun _ _ => Same.refl _), h⟩

theorem of_forall₂ {cs cs' : List KE} (h : Forall₂ Same cs cs') : SameL cs cs' := ⟨cs', h, Perm.refl _⟩

theorem trans {a b c : List KE} (h : SameL a b) (h' : SameL b c) : SameL a c := by
  obtain ⟨d, h1, h2⟩ := h
  obtain ⟨e, h3, h4⟩ := h'
  obtain ⟨v, h5, h6⟩ := forall₂_perm_left h2 h3
  exact ⟨v, forall₂_comp h1 h5 (fun _ _ _ _ h h' => Same.trans h h'), h6.trans h4⟩

theorem symm {a b : List KE} (h : SameL a b) : SameL b a := by
  obtain ⟨d, h1, h2⟩ := h
  have h1' : Forall₂ Same d a := (h1.flip).imp (fun _ _ h => Same.symm h)
  obtain ⟨v, h5, h6⟩ := forall₂_perm_left h2.symm h1'
  exact ⟨v, h5, h6⟩

theorem append {a b c d : List KE} (h : SameL a b) (h' : SameL c d) : SameL (a ++ c) (b ++ d) := by
  obtain ⟨e, h1, h2⟩ := h
  obtain ⟨f, h3, h4⟩ := h'
  exact ⟨e ++ f, rel_append h1 h3, h2.append h4⟩

theorem cons {a b : KE} {c d : List KE} (h : Same a b) (h' : SameL c d) : SameL (a :: c) (b :: d) := by
  obtain ⟨f, h3, h4⟩ := h'
  exact ⟨b :: f, .cons h h3, h4.cons _⟩

theorem length_eq {a b : List KE} (h : SameL a b) : a.length = b.length := by
  obtain ⟨d, h1, h2⟩ := h
  rw [h1.length_eq, h2.length_eq]

theorem filter {a b : List KE} (p : KE → Bool) (hp : ∀ x y, Same x y → p x = p y) (h : SameL a b) :
    SameL (a.filter p) (b.filter p) := by
  obtain ⟨d, h1, h2⟩ := h
  refine ⟨d.filter p, ?_, h2.filter p⟩
  clear h2
  induction h1 with
  | nil => exact .nil
  | cons hab _ ih =>
    simp only [List.filter_cons, hp _ _ hab]
    split
    · exact .cons hab ih
    · exact ih

theorem map {a b : List KE} (f : KE → KE) (hf : ∀ x ∈ a, ∀ y ∈ b, Same x y → Same (f x) (f y)) (h : SameL a b) :
    SameL (a.map f) (b.map f) := by
  obtain ⟨d, h1, h2⟩ := h
  refine ⟨d.map f, ?_, h2.map f⟩
  have hf' : ∀ x ∈ a, ∀ y ∈ d, Same x y → Same (f x) (f y) := fun x hx y hy => hf x hx y (h2.mem_iff.1 hy)
  clear h2 hf
  induction h1 with
  | nil => exact .nil
  | cons hab _ ih =>
    exact .cons (hf' _ (by simp) _ (by simp) hab)
      (ih (fun x hx y hy => hf' x (by simp [hx]) y (by simp [hy])))

theorem flatMap {a b : List KE} (f : KE → List KE) (hf : ∀ x y, Same x y → SameL (f x) (f y)) (h : SameL a b) :
    SameL (a.flatMap f) (b.flatMap f) := by
  obtain ⟨d, h1, h2⟩ := h
  refine trans ?_ (of_perm (h2.flatMap_right f))
  clear h2
  induction h1 with
  | nil => exact refl _
  | cons hab _ ih =>
    simp only [List.flatMap_cons]
    exact append (hf _ _ hab) ih

theorem filterMap {β : Type} {a b : List KE} (f : KE → Option β) (hf : ∀ x y, Same x y → f x = f y) (h : SameL a b) :
    (a.filterMap f).Perm (b.filterMap f) := by
  obtain ⟨d, h1, h2⟩ := h
  refine Perm.trans ?_ (h2.filterMap f)
  clear h2
  induction h1 with
  | nil => exact Perm.refl _
  | cons hab _ ih =>
    simp only [List.filterMap_cons, hf _ _ hab]
    split
    · exact ih
    · exact ih.cons _

theorem mem {a b : List KE} (h : SameL a b) {x : KE} (hx : x ∈ a) : ∃ y ∈ b, Same x y := by
  obtain ⟨d, h1, h2⟩ := h
  have : ∃ y ∈ d, Same x y := by
    clear h2
    induction h1 with
    | nil => simp at hx
    | cons hab _ ih =>
      rcases List.mem_cons.1 hx with rfl | hx
      · exact ⟨_, by simp, hab⟩
      · obtain ⟨y, hy, h⟩ := ih hx
        exact ⟨y, by simp [hy], h⟩
  obtain ⟨y, hy, h⟩ := this
  exact ⟨y, h2.mem_iff.1 hy, h⟩

theorem same {o : Op} {c c' : Counter} {cs cs' : List KE} (hc : ∀ b, c.get b = c'.get b) (h : SameL cs cs') :
    Same (comm o c cs) (comm o c' cs') := by
  obtain ⟨d, h1, h2⟩ := h
  exact .comm hc h1 h2

end SameL

theorem same_comm_iff {o o' : Op} {c c' : Counter} {cs cs' : List KE} :
    Same (comm o c cs) (comm o' c' cs') ↔ o = o' ∧ (∀ b, c.get b = c'.get b) ∧ SameL cs cs' := by
  constructor
  · intro h
    cases h with
    | comm hc hf hp => exact ⟨rfl, hc, _, hf, hp⟩
  · rintro ⟨rfl, hc, h⟩; exact h.same hc

namespace KE

theorem isComm_same {op : Op} {a b : KE} (h : Same a b) : isComm op a = isComm op b := by
  cases h <;> simp [isComm]

theorem isBase_same {a b : KE} (h : Same a b) : a.isBase = b.isBase := by
  cases h <;> simp [isBase]

theorem ctsOf_same {a b : KE} (h : Same a b) : SameL (ctsOf a) (ctsOf b) := by
  cases h with
  | comm hc hf hp => exact ⟨_, hf, hp⟩
  | _ => exact SameL.refl _

theorem btsOf_same {a b : KE} (h : Same a b) (x : Base) : (btsOf a).get x = (btsOf b).get x := by
  cases h with
  | comm hc hf hp => exact hc x
  | _ => rfl

theorem flat_same {op : Op} {cs cs' : List KE} (h : SameL cs cs') : SameL (flat op cs) (flat op cs') := by
  unfold flat
  exact (h.filter _ (fun x y hxy => by rw [isComm_same hxy])).append
    ((h.filter _ (fun x y hxy => isComm_same hxy)).flatMap _ (fun x y hxy => ctsOf_same hxy))

theorem extract_same {a b : KE} (ha : wf a = true) (hb : wf b = true) (h : Same a b) : Same (extract a) (extract b) := by
  cases h with
  | base b => exact .base b
  | change hl hr => exact .change hl hr
  | @comm o c c' cs ds cs' hc hf hp =>
    have wa := wf_comm.1 ha
    have wb := wf_comm.1 hb
    have hlen : cs.length = cs'.length := by rw [hf.length_eq, hp.length_eq]
    have hperm := Counter.perm_of_get_eq wa.1 wb.1 wa.2.1 wb.2.1 hc
    rcases extract_cases ha with ⟨h1, h2⟩ | ⟨o', x, h1, h2⟩ | ⟨o', ct, h1, h2⟩
    · have h3 : isSingleton (comm o c' cs') = false := by
        simp only [isSingleton, decide_eq_false_iff_not] at h1 ⊢
        rw [← hlen, ← (Counter.elements_perm wa.1 wb.1 hc).length_eq]; exact h1
      rw [h2, extract_of_not_singleton hb h3]
      exact .comm hc hf hp
    · cases h1
      have : c' = [(x, 1)] := by simpa using hperm.symm
      subst this
      have : cs' = [] := by simpa using hlen.symm
      subst this
      rw [h2]; exact Same.refl _
    · cases h1
      have : c' = [] := by simpa using hperm.symm
      subst this
      obtain ⟨ct', rfl⟩ : ∃ x, cs' = [x] := List.length_eq_one_iff.1 (by simpa using hlen.symm)
      rw [h2]
      have : extract (comm o [] [ct']) = ct' := by simp [extract, Counter.elements, Counter.total]
      rw [this]
      have := List.perm_singleton.1 hp
      subst this
      cases hf with
      | cons h _ => exact h

theorem restOf_same {cs cs' : List KE} (hw : ∀ k ∈ cs, wf k = true) (hw' : ∀ k ∈ cs', wf k = true)
    (h : SameL cs cs') : SameL (restOf cs) (restOf cs') := by
  unfold restOf
  exact (h.map _ (fun x hx y hy hxy => extract_same (hw x hx) (hw' y hy) hxy)).filter _
    (fun x y hxy => by rw [isBase_same hxy])

theorem namesOf_same {cs cs' : List KE} (hw : ∀ k ∈ cs, wf k = true) (hw' : ∀ k ∈ cs', wf k = true)
    (h : SameL cs cs') : (namesOf cs).Perm (namesOf cs') := by
  unfold namesOf
  refine (h.map _ (fun x hx y hy hxy => extract_same (hw x hx) (hw' y hy) hxy)).filterMap _ ?_
  intro x y hxy
  cases hxy <;> rfl

theorem absorb_same {cfg : Cfg} {op : Op} {b b' : Counter} {cs cs' : List KE} (hb : b.WF) (pb : b.Pos)
    (hb' : b'.WF) (pb' : b'.Pos) (h : ∀ k ∈ cs, k.isBase = false ∧ wf k = true)
    (h' : ∀ k ∈ cs', k.isBase = false ∧ wf k = true) (hc : ∀ x, b.get x = b'.get x) (hs : SameL cs cs') :
    Same (absorb cfg op b cs) (absorb cfg op b' cs') := by
  obtain ⟨ns, e1, e2⟩ := absorb_eq cfg op b cs
  obtain ⟨ns', e1', e2'⟩ := absorb_eq cfg op b' cs'
  rw [e2, e2']
  have hn := ns_wf h e1
  have hn' := ns_wf h' e1'
  have hfl := flat_same (op := op) hs
  have wfl := wf_of_mem_flat (op := op) h
  have wfl' := wf_of_mem_flat (op := op) h'
  have hrest := restOf_same (fun k hk => (wfl k hk).2) (fun k hk => (wfl' k hk).2) hfl
  have hnames := namesOf_same (fun k hk => (wfl k hk).2) (fun k hk => (wfl' k hk).2) hfl
  have hlen := hrest.length_eq
  have hX : (absorbBts cfg op b ns).get = (absorbBts cfg op b' ns').get := by
    have hsum : ∀ x, ((ns.map Prod.fst).map (fun c => c.get x)).sum = ((ns'.map Prod.fst).map (fun c => c.get x)).sum := by
      intro x
      rw [e1, e1', List.map_map, List.map_map]
      have : SameL (cs.filter (isComm op)) (cs'.filter (isComm op)) := hs.filter _ (fun x y hxy => isComm_same hxy)
      have hp := this.filterMap (fun k => some ((btsOf k).get x)) (fun k k' hk => by simp only [btsOf_same hk])
      have e : ∀ l : List KE, l.filterMap (fun k => some ((btsOf k).get x)) = l.map ((fun c => Counter.get c x) ∘ btsOf) := by
        intro l; rw [← List.filterMap_eq_map]; rfl
      rw [e, e] at hp
      exact hp.sum_eq
    have hlenn : ns.length = ns'.length := by
      have l1 := congrArg List.length e1
      have l2 := congrArg List.length e1'
      simp only [List.length_map] at l1 l2
      rw [l1, l2]
      exact (hs.filter _ (fun x y hxy => isComm_same hxy)).length_eq
    by_cases hz : ns = []
    · have hz' : ns' = [] := by rw [← List.length_eq_zero_iff, ← hlenn, hz]; rfl
      subst hz hz'
      funext x; exact hc x
    · have hz' : ns' ≠ [] := by
        intro h0; rw [h0] at hlenn; exact hz (List.length_eq_zero_iff.1 hlenn)
      rw [get_absorbBts hb pb hn hz, get_absorbBts hb' pb' hn' hz']
      congr 1; funext x; rw [hc, hsum]
  have w1 := Counter.wf_updateList (wf_absorbBts (cfg := cfg) (op := op) (ns := ns) hb) (namesOf (flat op cs))
  have w1' := Counter.wf_updateList (wf_absorbBts (cfg := cfg) (op := op) (ns := ns') hb') (namesOf (flat op cs'))
  have p1 := Counter.pos_updateList (pos_absorbBts (cfg := cfg) (op := op) (ns := ns) pb) (namesOf (flat op cs))
  have p1' := Counter.pos_updateList (pos_absorbBts (cfg := cfg) (op := op) (ns := ns') pb') (namesOf (flat op cs'))
  refine hrest.same (fun x => ?_)
  have g : ((absorbBts cfg op b ns).updateList (namesOf (flat op cs))).get =
      ((absorbBts cfg op b' ns').updateList (namesOf (flat op cs'))).get := by
    funext y
    rw [Counter.get_updateList, Counter.get_updateList, hX, hnames.count_eq]
  rw [get_simplifyBase (wf_simplifyBase w1) pos_simplifyBase, get_simplifyBase (wf_simplifyBase w1') pos_simplifyBase,
    hlen]
  congr 1
  funext y
  rw [get_simplifyBase w1 p1, get_simplifyBase w1' p1', g]

/-- Equal expressions simplify to equal expressions. -/
theorem simplify_same (cfg : Cfg) (a : KE) : ∀ b, wf a = true → wf b = true → Same a b →
    Same (simplify cfg a) (simplify cfg b) := by
  induction a using KE.ind with
  | base x => intro b _ _ h; cases h; exact Same.refl _
  | change c l r hl hr =>
    intro b ha hb h
    cases h with
    | change h1 h2 =>
      have wa := wf_change.1 ha
      have wb := wf_change.1 hb
      exact .change (extract_same (wf_simplify cfg _ wa.1) (wf_simplify cfg _ wb.1) (hl _ wa.1 wb.1 h1))
        (extract_same (wf_simplify cfg _ wa.2) (wf_simplify cfg _ wb.2) (hr _ wa.2 wb.2 h2))
  | comm o c cs ih =>
    intro b ha hb h
    cases h with
    | @comm _ _ c' _ ds cs' hc hf hp =>
      have wa := wf_comm.1 ha
      have wb := wf_comm.1 hb
      simp only [simplify, simplifyL_eq]
      refine absorb_same wa.1 wa.2.1 wb.1 wb.2.1 (wf_mem_map_simplify wa.2.2) (wf_mem_map_simplify wb.2.2) hc ?_
      have hs : SameL cs cs' := ⟨ds, hf, hp⟩
      exact hs.map _ (fun x hx y hy hxy => ih x hx y (wa.2.2 x hx).2 (wb.2.2 y hy).2 hxy)

end KE
end GPyABCD
