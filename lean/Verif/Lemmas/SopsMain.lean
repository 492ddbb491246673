import Verif.Lemmas.SopsVal

/-!
# Lemmas: the sum-of-products form, node by node
-/

namespace GPyABCD
namespace Sops

set_option linter.unusedSectionVars false

variable {α : Type} [Mul α] [One α] {R : Type} [CommRing R] {φ : α → R} {shape : Base → PD α → R}
variable {comb : α → α → α} {P : α → Prop}

/-- The expression is a product standing for the component. -/
def RelK (φ : α → R) (shape : Base → PD α → R) (comb : α → α → α) (P : α → Prop) (c : Comp α) (k : PKE α) : Prop :=
  ∃ n, k = Prod.ke n ∧ Rel φ shape comb P c n ∧ Plain n

/-- With a sigmoid. -/
def RelS (φ : α → R) (shape : Base → PD α → R) (comb : α → α → α) (P : α → Prop) (c : Comp α) (k : PKE α) : Prop :=
  ∃ n, k = Prod.ke n ∧ Rel φ shape comb P c n ∧ Plain n ∧ ∃ s, s.isSigmoid = true ∧ 0 < n.bts.get s

/-- A sum of products standing for components. -/
def RelSum (φ : α → R) (shape : Base → PD α → R) (comb : α → α → α) (P : α → Prop) (cs : List (Comp α)) (k : PKE α) : Prop :=
  ∃ cts, k = .comm .sum [] [] none cts ∧ List.Forall₂ (RelK φ shape comb P) cs cts

/-! ## Node data -/

theorem NodeFit.dok {bts : Counter} {ps : PDict α} (h : NodeFit P bts ps) : DOK ps := ⟨h.nodup, h.ne⟩

theorem NodeFit.get {bts : Counter} {ps : PDict α} (h : NodeFit P bts ps) (b : Base) : bts.get b = (ps.get b).length := by
  rw [h.aligned]
  clear h
  induction ps with
  | nil => rfl
  | cons e r ih =>
    obtain ⟨k, v⟩ := e
    simp only [List.map_cons, Counter.get, PDict.get]
    split
    · rfl
    · exact ih

theorem NodeFit.wf {bts : Counter} {ps : PDict α} (h : NodeFit P bts ps) : bts.WF := by
  rw [h.aligned, Counter.WF, List.map_map]; exact h.nodup

theorem NodeFit.pos {bts : Counter} {ps : PDict α} (h : NodeFit P bts ps) : bts.Pos := by
  rw [h.aligned]; intro p hp
  obtain ⟨e, he, rfl⟩ := List.mem_map.1 hp
  have := List.length_pos_iff.2 (h.ne e he)
  simp only; omega

theorem NodeFit.lsget {bts : Counter} {ps : PDict α} (h : NodeFit P bts ps) : ∀ p ∈ ps.get .SE, ∃ x, p.lengthscale = some x ∧ P x := by
  intro p hp
  by_cases hne : ps.get .SE = []
  · rw [hne] at hp; simp at hp
  · exact h.ls _ (PDict.mem_of_get hne) rfl p hp

theorem NodeFit.itemsOK {bts : Counter} {ps : PDict α} (h : NodeFit P bts ps) (pv : Option α) : ∀ i ∈ items ps pv, ItemOK P i := by
  intro i hi
  unfold items at hi
  rcases List.mem_append.1 hi with hi | hi
  · obtain ⟨e, he, hi⟩ := List.mem_flatMap.1 hi
    obtain ⟨p, hp, rfl⟩ := List.mem_map.1 hi
    refine ⟨fun hh => by simp at hh, fun hh => ?_⟩
    simp only [Option.some.injEq] at hh
    exact h.ls e he hh p hp
  · obtain ⟨v, hv, rfl⟩ := List.mem_map.1 hi
    exact ⟨fun _ => rfl, fun hh => by simp at hh⟩

theorem Inv.itemsOK {n : Prod α} (h : Inv P n) (pv : Option α) : ∀ i ∈ items n.ps pv, ItemOK P i := by
  intro i hi
  unfold items at hi
  rcases List.mem_append.1 hi with hi | hi
  · obtain ⟨e, he, hi⟩ := List.mem_flatMap.1 hi
    obtain ⟨p, hp, rfl⟩ := List.mem_map.1 hi
    refine ⟨fun hh => by simp at hh, fun hh => ?_⟩
    simp only [Option.some.injEq] at hh
    have := PDict.get_of_mem h.dok he
    exact h.ls p (by rw [← hh, this]; exact hp)
  · obtain ⟨v, hv, rfl⟩ := List.mem_map.1 hi
    exact ⟨fun _ => rfl, fun hh => by simp at hh⟩

theorem Inv.setBts {n : Prod α} (h : Inv P n) {c : Counter} (hw : c.WF) (hp : c.Pos) (he : ∀ b, c.get b = n.bts.get b) :
    Inv P { n with bts := c } := by
  have e : c.get = n.bts.get := funext he
  refine ⟨h.dok, hw, hp, h.novar, h.ls, ?_, ?_, ?_, ?_, ?_⟩ <;> simp only [e]
  · exact h.nm
  · exact h.cW
  · exact h.cLle
  · exact h.cLeq
  · exact h.cO

theorem Rel.setBts {c' : Comp α} {n : Prod α} (h : Rel φ shape comb P c' n) {c : Counter} (hw : c.WF) (hp : c.Pos)
    (he : ∀ b, c.get b = n.bts.get b) : Rel φ shape comb P c' { n with bts := c } :=
  ⟨h.inv.setBts hw hp he, fun hc b => by simp only [he]; exact h.bts hc b, h.sig, h.var, h.val⟩

theorem get_reSimp {c : Counter} (hw : c.WF) (hp : c.Pos) (hn : ∀ b, normal c.get b = c.get b) (b : Base) : (reSimp c).get b = c.get b := by
  unfold reSimp
  rw [get_sbp (wf_sbp hw) pos_sbp, funext (get_sbp hw hp), normal_normal hp.nonneg, hn]

theorem wf_reSimp {c : Counter} (hw : c.WF) : (reSimp c).WF := wf_sbp (wf_sbp hw)

theorem pos_reSimp {c : Counter} : (reSimp c).Pos := pos_sbp

theorem Inv.bts_pos {n : Prod α} (h : Inv P n) {b : Base} (hb : n.ps.get b ≠ []) : 0 < n.bts.get b := by
  have := List.length_pos_iff.2 hb
  by_cases h1 : b = .WN
  · subst h1; exact h.cW.2 hb
  · by_cases h2 : b = .LIN
    · subst h2; have := h.cLle; omega
    · have := h.cO b h1 h2; omega

/-! ## Sums -/

theorem collect_ok {css : List (List (Comp α))} {ks : List (PKE α)} (h : List.Forall₂ (RelSum φ shape comb P) css ks) :
    ∃ r, collect ks = .ok r ∧ List.Forall₂ (RelK φ shape comb P) css.flatten r := by
  induction h with
  | nil => exact ⟨[], rfl, List.Forall₂.nil⟩
  | cons h1 _ ih =>
    obtain ⟨cts, rfl, h2⟩ := h1
    obtain ⟨r, h3, h4⟩ := ih
    refine ⟨cts ++ r, ?_, ?_⟩
    · simp only [collect, h3]; rfl
    · rw [List.flatten_cons]; exact List.rel_append h2 h4

/-- One base term as a product. -/
theorem single_rel (hP : ∀ a b, P a → P b → P (comb a b)) {b : Base} {p : PD α} (hb : b.isSigmoid = false)
    (hls : b = .SE → ∃ x, p.lengthscale = some x ∧ P x) :
    ∃ n, newBases comb Prod.empty [(some b, p)] = .ok n ∧ Rel φ shape comb P (Comp.one b p) n ∧ Plain n := by
  obtain ⟨m, h1, h2, h3, _, h5⟩ := newBases_rel (φ := φ) (shape := shape) hP (Rel.empty comb P) (l := [(some b, p)]) (by
    intro i hi; rw [List.mem_singleton] at hi; subst hi
    exact ⟨fun hh => by simp at hh, fun hh => hls (by simpa using hh)⟩)
  refine ⟨m, h1, ?_, h3, h5 ⟨b, hb, ?_⟩⟩
  · have : (⟨[], []⟩ : Comp α).mul (compOf [(some b, p)]) = Comp.one b p := by
      simp [Comp.mul, compOf, Comp.one]
    rw [this] at h2; exact h2
  · simp [ib_cons]

/-- The base terms of a node, in order. -/
def elts (ps : PDict α) : List Base := ps.flatMap (fun e => List.replicate e.2.length e.1)

theorem moveBases_ok (hP : ∀ a b, P a → P b → P (comb a b)) (L : List Base) (ps : PDict α) (bts : Counter) (acc : List (PKE α))
    (accC : List (Comp α)) (hL : L = elts ps) (hd : DOK ps) (hpl : ∀ e ∈ ps, e.1.isSigmoid = false)
    (hls : ∀ e ∈ ps, e.1 = .SE → ∀ p ∈ e.2, ∃ x, p.lengthscale = some x ∧ P x)
    (hw : bts.WF) (hg : ∀ b, bts.get b = (ps.get b).length) (hacc : List.Forall₂ (RelK φ shape comb P) accC acc) :
    ∃ bts' r, moveBases comb bts ps acc L = .ok (bts', [], r) ∧ bts'.WF ∧ (∀ b, bts'.get b = 0) ∧
      List.Forall₂ (RelK φ shape comb P) ((ps.flatMap (fun e => e.2.map (Comp.one e.1))).reverse ++ accC) r := by
  induction L generalizing ps bts acc accC with
  | nil =>
    have : ps = [] := by
      cases ps with
      | nil => rfl
      | cons e r =>
        obtain ⟨k, v⟩ := e
        have := hd.ne (k, v) (by simp)
        cases v with
        | nil => simp at this
        | cons p q => simp [elts, List.replicate_succ] at hL
    subst this
    exact ⟨bts, acc, rfl, hw, fun b => by rw [hg]; rfl, by simpa using hacc⟩
  | cons b bs ih =>
    cases ps with
    | nil => simp [elts] at hL
    | cons e r =>
      obtain ⟨k, v⟩ := e
      have hne := hd.ne (k, v) (by simp)
      cases v with
      | nil => simp at hne
      | cons p rest =>
        have hL' : b = k ∧ bs = List.replicate rest.length k ++ elts r := by
          simpa [elts, List.replicate_succ] using hL
        obtain ⟨rfl, hbs⟩ := hL'
        have hn := hd.nodup
        rw [List.map_cons, List.nodup_cons] at hn
        obtain ⟨n, h1, h2, h3⟩ := single_rel (φ := φ) (shape := shape) (p := p) hP (hpl (b, p :: rest) (by simp)) (fun hb => hls (b, p :: rest) (by simp) hb p (by simp))
        have hacc' : List.Forall₂ (RelK φ shape comb P) (Comp.one b p :: accC) (n.ke :: acc) := List.Forall₂.cons ⟨n, rfl, h2, h3⟩ hacc
        have hgb : bts.get b = rest.length + 1 := by rw [hg]; simp [PDict.get]
        have hw' := Counter.wf_put hw b (bts.get b - 1)
        -- the dictionary afterwards
        have key : ∃ ps', (if rest.isEmpty then PDict.del ((b, p :: rest) :: r) b else PDict.put ((b, p :: rest) :: r) b rest) = ps' ∧
            bs = elts ps' ∧ DOK ps' ∧ (∀ e ∈ ps', e.1.isSigmoid = false) ∧
            (∀ e ∈ ps', e.1 = .SE → ∀ p ∈ e.2, ∃ x, p.lengthscale = some x ∧ P x) ∧
            (∀ x, (bts.put b (bts.get b - 1)).get x = (ps'.get x).length) ∧
            (((b, p :: rest) :: r).flatMap (fun e => e.2.map (Comp.one e.1))) = Comp.one b p :: (ps'.flatMap (fun e => e.2.map (Comp.one e.1))) := by
          cases rest with
          | nil =>
            refine ⟨r, ?_, by simpa using hbs, ⟨hn.2, fun e he => hd.ne e (by simp [he])⟩, fun e he => hpl e (by simp [he]),
              fun e he => hls e (by simp [he]), ?_, ?_⟩
            · have : r.filter (fun e => decide (e.1 ≠ b)) = r := by
                rw [List.filter_eq_self]; intro e he; simp only [ne_eq, decide_not, Bool.not_eq_true', decide_eq_false_iff_not]
                rintro rfl; exact hn.1 (List.mem_map.2 ⟨e, he, rfl⟩)
              simp [PDict.del] at this ⊢; exact this
            · intro x; rw [Counter.get_put]
              by_cases hx : b = x
              · subst hx; rw [if_pos rfl, PDict.get_eq_nil hn.1, hgb]; simp
              · rw [if_neg hx, hg]; simp [PDict.get, hx]
            · simp
          | cons q qs =>
            refine ⟨(b, q :: qs) :: r, by simp [PDict.put], by rw [hbs]; simp [elts], ⟨by simpa using hn, ?_⟩, ?_, ?_, ?_, by simp⟩
            · intro e he
              rcases List.mem_cons.1 he with rfl | he
              · simp
              · exact hd.ne e (by simp [he])
            · intro e he
              rcases List.mem_cons.1 he with rfl | he
              · exact hpl (b, p :: q :: qs) (by simp)
              · exact hpl e (by simp [he])
            · intro e he hse y hy
              rcases List.mem_cons.1 he with rfl | he
              · exact hls (b, p :: q :: qs) (by simp) hse y (by simp at hy; simp [hy])
              · exact hls e (by simp [he]) hse y hy
            · intro x; rw [Counter.get_put]
              by_cases hx : b = x
              · subst hx; rw [if_pos rfl, hgb]; simp [PDict.get]
              · rw [if_neg hx, hg]; simp [PDict.get, hx]
        obtain ⟨ps', e1, e2, e3, e4, e5, e6, e7⟩ := key
        obtain ⟨bts', res, r1, r2, r3, r4⟩ := ih ps' _ _ _ e2 e3 e4 e5 hw' e6 hacc'
        refine ⟨bts', res, ?_, r2, r3, ?_⟩
        · have hget : PDict.get ((b, p :: rest) :: r) b = p :: rest := by simp [PDict.get]
          rw [moveBases, hget]
          simp only [h1, bind, Except.bind]
          rw [e1]; exact r1
        · rw [e7, List.reverse_cons, List.append_assoc]; exact r4

theorem elements_aligned {bts : Counter} {ps : PDict α} (h : NodeFit P bts ps) : bts.elements = elts ps := by
  rw [h.aligned, Counter.elements, elts, List.flatMap_map]; simp

theorem pos_eq_nil {c : Counter} (hw : c.WF) (h : ∀ b, c.get b = 0) : c.pos = [] := by
  have h1 := Counter.pos_pos c
  cases hc : c.pos with
  | nil => rfl
  | cons p r =>
    have h2 := h1 p (by rw [hc]; simp)
    have h3 := Counter.get_pos' hw p.1
    rw [hc, h] at h3
    obtain ⟨b, v⟩ := p
    simp [Counter.get] at h3 h2; omega

theorem all_isProd {cs : List (Comp α)} {ks : List (PKE α)} (h : List.Forall₂ (RelK φ shape comb P) cs ks) : ks.all isProd = true := by
  induction h with
  | nil => rfl
  | cons h1 _ ih => obtain ⟨n, rfl, _⟩ := h1; simp [isProd, Prod.ke, ih]

theorem sumForm_ok (hP : ∀ a b, P a → P b → P (comb a b)) {bts : Counter} {ps : PDict α} (h : NodeFit P bts ps)
    {css : List (List (Comp α))} {ks : List (PKE α)} (hk : List.Forall₂ (RelSum φ shape comb P) css ks) :
    ∃ k, sumForm comb bts ps none ks = .ok k ∧
      RelSum φ shape comb P ((ps.flatMap (fun e => e.2.map (Comp.one e.1))).reverse ++ css.flatten) k := by
  obtain ⟨acc, a1, a2⟩ := collect_ok hk
  obtain ⟨bts', r, b1, b2, b3, b4⟩ := moveBases_ok hP bts.elements ps bts acc _ (elements_aligned h) h.dok h.plain h.ls h.wf h.get a2
  have ht : bts'.total = 0 := by rw [Counter.total_eq b2]; simp [b3]
  refine ⟨_, ?_, r, rfl, b4⟩
  unfold sumForm
  rw [a1]; simp only [bind, Except.bind, b1]
  rw [if_pos (by simp [ht]), if_pos (all_isProd b4), pos_eq_nil b2 b3]; rfl

/-! ## Products -/

theorem allSums_ok {css : List (List (Comp α))} {ks : List (PKE α)} (h : List.Forall₂ (RelSum φ shape comb P) css ks) :
    ∃ ls, allSums ks = .ok ls ∧ List.Forall₂ (List.Forall₂ (RelK φ shape comb P)) css ls := by
  induction h with
  | nil => exact ⟨[], rfl, List.Forall₂.nil⟩
  | cons h1 _ ih =>
    obtain ⟨cts, rfl, h2⟩ := h1
    obtain ⟨r, h3, h4⟩ := ih
    exact ⟨cts :: r, by simp only [allSums, sumTerms, h3]; rfl, List.Forall₂.cons h2 h4⟩

/-- Every choice of one component per factor. -/
def cartC : List (List (Comp α)) → List (Comp α)
  | [] => [⟨[], []⟩]
  | cs :: css => cs.flatMap (fun x => (cartC css).map (fun y => x.mul y))

/-- A tuple of products stands for a product of components. -/
def RelT (φ : α → R) (shape : Base → PD α → R) (comb : α → α → α) (P : α → Prop) (c : Comp α) (t : List (PKE α)) : Prop :=
  ∃ cs, List.Forall₂ (RelK φ shape comb P) cs t ∧ c = cs.foldr Comp.mul ⟨[], []⟩

theorem cart_rel {css : List (List (Comp α))} {ls : List (List (PKE α))}
    (h : List.Forall₂ (List.Forall₂ (RelK φ shape comb P)) css ls) :
    List.Forall₂ (RelT φ shape comb P) (cartC css) (cart ls) := by
  induction h with
  | nil => exact List.Forall₂.cons ⟨[], List.Forall₂.nil, rfl⟩ List.Forall₂.nil
  | @cons cs l css' ls' h1 _ ih =>
    rw [cartC, cart]
    induction h1 with
    | nil => exact List.Forall₂.nil
    | @cons c k cs' l' h2 _ ih2 =>
      rw [List.flatMap_cons, List.flatMap_cons]
      refine List.rel_append ?_ ih2
      clear ih2
      rw [List.forall₂_map_left_iff, List.forall₂_map_right_iff]
      exact ih.imp (fun y t ⟨cs, h3, h4⟩ => ⟨c :: cs, List.Forall₂.cons h2 h3, by rw [h4]; rfl⟩)

theorem asProds_ok {cs : List (Comp α)} {ks : List (PKE α)} (h : List.Forall₂ (RelK φ shape comb P) cs ks) :
    ∃ ns, asProds ks = .ok ns ∧ List.Forall₂ (fun c n => Rel φ shape comb P c n ∧ Plain n) cs ns ∧ ks = ns.map Prod.ke := by
  induction h with
  | nil => exact ⟨[], rfl, List.Forall₂.nil, rfl⟩
  | cons h1 _ ih =>
    obtain ⟨n, rfl, h2⟩ := h1
    obtain ⟨ns, h3, h4, h5⟩ := ih
    exact ⟨n :: ns, by simp only [asProds, Prod.ke, h3]; rfl, List.Forall₂.cons h2 h4, by simp [h5]⟩

theorem inv_of_rel {cs : List (Comp α)} {ns : List (Prod α)} (h : List.Forall₂ (fun c n => Rel φ shape comb P c n ∧ Plain n) cs ns) :
    ∀ n ∈ ns, Inv P n := by
  induction h with
  | nil => simp
  | cons h1 _ ih =>
    intro n hn
    rcases List.mem_cons.1 hn with rfl | hn
    · exact h1.1.inv
    · exact ih n hn

theorem eqv_list {cs : List (Comp α)} {ns : List (Prod α)} (h : List.Forall₂ (fun c n => Rel φ shape comb P c n ∧ Plain n) cs ns) :
    Eqv φ shape comb P (cs.foldr Comp.mul ⟨[], []⟩) (compOf (ns.flatMap (fun n => items n.ps n.pv))) := by
  induction h with
  | nil => exact Eqv.refl _
  | cons h1 _ ih =>
    rw [List.foldr_cons, List.flatMap_cons, compOf_append]
    exact Eqv.mul h1.1.eqv ih

/-- The own terms of a product as a component. -/
def ownC (ps : PDict α) (pv : Option α) : Comp α := ⟨pv.toList, ps.flatMap (fun e => e.2.map (fun p => (e.1, p)))⟩

theorem compOf_items {ps : PDict α} (pv : Option α) (hv : ∀ e ∈ ps, ∀ p ∈ e.2, p.variance = none) : compOf (items ps pv) = ownC ps pv := by
  unfold items
  rw [compOf_append]
  have e2 : compOf (pv.toList.map (fun v => ((none, { variance := some v }) : Item α))) = ⟨pv.toList, []⟩ := by
    cases pv <;> simp [compOf]
  rw [e2]
  have e1 : compOf (ps.flatMap (fun e => e.2.map (fun p => ((some e.1, p) : Item α)))) = ⟨[], ps.flatMap (fun e => e.2.map (fun p => (e.1, p)))⟩ := by
    clear e2
    induction ps with
    | nil => rfl
    | cons e r ih =>
      rw [List.flatMap_cons, compOf_append, ih (fun e he => hv e (by simp [he])), List.flatMap_cons]
      have : compOf (e.2.map (fun p => ((some e.1, p) : Item α))) = ⟨[], e.2.map (fun p => (e.1, p))⟩ := by
        have hve := hv e (by simp)
        obtain ⟨k, l⟩ := e
        simp only at hve ⊢
        clear ih hv
        induction l with
        | nil => rfl
        | cons p q ihq =>
          have e3 := compOf_append [((some k, p) : Item α)] (q.map (fun p => ((some k, p) : Item α)))
          rw [List.map_cons, ← List.singleton_append, e3, ihq (fun y hy => hve y (by simp [hy]))]
          have := hve p (by simp)
          simp [compOf, Comp.mul, this, noVar_self this]
      rw [this]; simp [Comp.mul]
  rw [e1]; simp [Comp.mul, ownC]

theorem multiplyPure_ok (hP : ∀ a b, P a → P b → P (comb a b)) {bts : Counter} {ps : PDict α} (h : NodeFit P bts ps) (hne : ps ≠ [])
    (hv : ∀ e ∈ ps, ∀ p ∈ e.2, p.variance = none) (pv : Option α) {c : Comp α} {t : List (PKE α)} (ht : RelT φ shape comb P c t) :
    ∃ k, multiplyPure comb ps pv t = .ok k ∧ RelK φ shape comb P ((ownC ps pv).mul c) k := by
  obtain ⟨cs, h1, rfl⟩ := ht
  obtain ⟨ns, h2, h3, hke⟩ := asProds_ok h1
  have hok : ∀ i ∈ items ps pv ++ ns.flatMap (fun n => items n.ps n.pv), ItemOK P i := by
    intro i hi
    rcases List.mem_append.1 hi with hi | hi
    · exact h.itemsOK pv i hi
    · obtain ⟨n, hn, hi⟩ := List.mem_flatMap.1 hi
      have : Inv P n := inv_of_rel h3 n hn
      exact this.itemsOK _ i hi
  obtain ⟨m, m1, m2, m3, _, m5⟩ := newBases_rel (φ := φ) (shape := shape) hP (Rel.empty comb P) hok
  refine ⟨m.ke, ?_, m, rfl, ?_, m3, m5 ?_⟩
  · unfold multiplyPure; rw [h2]; simp only [bind, Except.bind, m1]; rfl
  · refine m2.of_eqv ?_
    rw [compOf_append, compOf_items pv hv]
    have : (⟨[], []⟩ : Comp α).mul ((ownC ps pv).mul (compOf (ns.flatMap fun n => items n.ps n.pv))) =
        (ownC ps pv).mul (compOf (ns.flatMap fun n => items n.ps n.pv)) := by simp [Comp.mul]
    rw [this]
    exact Eqv.mul (Eqv.refl _) (eqv_list h3)
  · cases ps with
    | nil => exact absurd rfl hne
    | cons e r =>
      refine ⟨e.1, h.plain e (by simp), ?_⟩
      have hv' : ∀ b, ∀ p ∈ PDict.get (e :: r) b, p.variance = none := by
        intro b p hp
        by_cases h0 : PDict.get (e :: r) b = []
        · rw [h0] at hp; simp at hp
        · exact hv _ (PDict.mem_of_get h0) p hp
      rw [ib_append, ib_items _ _ h.dok hv']
      have := PDict.get_of_mem h.dok (e := e) (by simp)
      rw [this]
      have := h.ne e (by simp)
      simp [this]

theorem multiplyAll_ok (hP : ∀ a b, P a → P b → P (comb a b)) {bts : Counter} {ps : PDict α} (h : NodeFit P bts ps) (hne : ps ≠ [])
    (hv : ∀ e ∈ ps, ∀ p ∈ e.2, p.variance = none) (pv : Option α) {cs : List (Comp α)} {ts : List (List (PKE α))}
    (ht : List.Forall₂ (RelT φ shape comb P) cs ts) :
    ∃ ks, multiplyAll comb ps pv ts = .ok ks ∧ List.Forall₂ (RelK φ shape comb P) (cs.map (ownC ps pv).mul) ks := by
  induction ht with
  | nil => exact ⟨[], rfl, List.Forall₂.nil⟩
  | cons h1 _ ih =>
    obtain ⟨k, k1, k2⟩ := multiplyPure_ok hP h hne hv pv h1
    obtain ⟨ks, h3, h4⟩ := ih
    exact ⟨k :: ks, by simp only [multiplyAll, k1, h3]; rfl, List.Forall₂.cons k2 h4⟩

theorem prodForm_ok (hP : ∀ a b, P a → P b → P (comb a b)) {bts : Counter} {ps : PDict α} (h : NodeFit P bts ps) (hne : ps ≠ [])
    (hv : ∀ e ∈ ps, ∀ p ∈ e.2, p.variance = none) (pv : Option α) {css : List (List (Comp α))} {ks : List (PKE α)}
    (hk : List.Forall₂ (RelSum φ shape comb P) css ks) :
    ∃ k, prodForm comb ps pv ks = .ok k ∧ RelSum φ shape comb P ((cartC css).map (ownC ps pv).mul) k := by
  obtain ⟨ls, l1, l2⟩ := allSums_ok hk
  obtain ⟨r, r1, r2⟩ := multiplyAll_ok hP h hne hv pv (cart_rel l2)
  exact ⟨_, by unfold prodForm; rw [l1]; simp only [bind, Except.bind, r1]; rfl, r, rfl, r2⟩

/-- A product without composite terms. -/
theorem pure_rel {bts : Counter} {ps : PDict α} (h : NodeFit P bts ps) (hne : ps ≠ []) (hv : ∀ e ∈ ps, ∀ p ∈ e.2, p.variance = none)
    (hn : ∀ b, normal bts.get b = bts.get b) {pv : Option α} (hpv : pv.isSome) :
    RelK φ shape comb P (ownC ps pv) (.comm .prod (reSimp bts) ps pv []) := by
  have hv' : ∀ b, ∀ p ∈ ps.get b, p.variance = none := by
    intro b p hp
    by_cases h0 : ps.get b = []
    · rw [h0] at hp; simp at hp
    · exact hv _ (PDict.mem_of_get h0) p hp
  have hcount : ∀ b, (ownC ps pv).count b = bts.get b := by
    intro b; rw [← compOf_items pv hv, count_compOf, ib_items _ _ h.dok hv', h.get]
  have hinv : Inv P (⟨bts, ps, pv⟩ : Prod α) := by
    refine ⟨h.dok, h.wf, h.pos, hv', h.lsget, hn, ?_, ?_, ?_, ?_⟩
    · simp only [h.get]; rw [← List.length_pos_iff]; omega
    · simp only [h.get]; exact le_refl _
    · intro _; simp only [h.get]
    · intro b _ _; simp only [h.get]
  have hr : Rel φ shape comb P (ownC ps pv) (⟨bts, ps, pv⟩ : Prod α) := by
    refine ⟨hinv, fun _ b => ?_, fun b _ => ?_, fun _ => ?_, fun _ _ _ => ?_⟩
    · rw [funext hcount]; exact (hn b).symm
    · rw [← compOf_items pv hv, only_compOf, ib_items _ _ h.dok hv']
    · rw [← compOf_items pv hv, vars_compOf, vars_items _ _ h.dok hv']
    · rw [← compOf_items pv hv, val_compOf, vars_items _ _ h.dok hv']
      congr 1
      exact congrArg _ (funext (fun b => (ib_items ps pv h.dok hv' b).symm))
  refine ⟨⟨reSimp bts, ps, pv⟩, rfl, hr.setBts (wf_reSimp h.wf) pos_reSimp (get_reSimp h.wf h.pos hn), hpv, ?_⟩
  cases ps with
  | nil => exact absurd rfl hne
  | cons e r =>
    refine ⟨e.1, h.plain e (by simp), ?_⟩
    rw [PDict.get_of_mem h.dok (e := e) (by simp)]
    exact h.ne e (by simp)

/-! ## Change operators -/

theorem compOf_sig {b : Base} {p : PD α} : compOf [((some b, p) : Item α)] = Comp.one b p := by simp [compOf, Comp.one]

theorem addSig_ok (hP : ∀ a b, P a → P b → P (comb a b)) {b : Base} {p : PD α} (hb : b.isSigmoid = true) {cs : List (Comp α)}
    {ks : List (PKE α)} (h : List.Forall₂ (RelK φ shape comb P) cs ks) :
    ∃ r, addSig comb (some b, p) ks = .ok r ∧ List.Forall₂ (RelS φ shape comb P) (cs.map (fun x => x.mul (Comp.one b p))) r := by
  induction h with
  | nil => exact ⟨[], rfl, List.Forall₂.nil⟩
  | cons h1 _ ih =>
    obtain ⟨n, rfl, h2, h3⟩ := h1
    obtain ⟨r, h4, h5⟩ := ih
    obtain ⟨m, m1, m2, m3, m4, m5⟩ := newBases_rel hP h2 (l := [(some b, p)]) (by
      intro i hi; rw [List.mem_singleton] at hi; subst hi
      refine ⟨fun hh => by simp at hh, fun hh => ?_⟩
      simp only [Option.some.injEq] at hh; subst hh; exact absurd hb (by decide))
    rw [compOf_sig] at m2
    refine ⟨m.ke :: r, ?_, List.Forall₂.cons ⟨m, rfl, m2, ⟨m3, m5 ?_⟩, b, hb, ?_⟩ h5⟩
    · simp only [addSig, Prod.ke]
      rw [m1]; simp only [bind, Except.bind, h4]; rfl
    · obtain ⟨x, hx1, hx2⟩ := h3.2
      exact ⟨x, hx1, by simp [hx2]⟩
    · rw [m4 b hb]; have := h2.inv.pos.nonneg b; simp [ib_cons]; omega

theorem leaf_branch_ok (hP : ∀ a b, P a → P b → P (comb a b)) {b s : Base} {p q : PD α} (hb : b.isSigmoid = false)
    (hs : s.isSigmoid = true) (hls : b = .SE → ∃ x, p.lengthscale = some x ∧ P x) :
    ∃ n, newBases comb Prod.empty [(some b, p), (some s, q)] = .ok n ∧
      RelS φ shape comb P ((Comp.one b p).mul (Comp.one s q)) n.ke := by
  obtain ⟨m, m1, m2, m3, m4, m5⟩ := newBases_rel (φ := φ) (shape := shape) hP (Rel.empty comb P) (l := [(some b, p), (some s, q)]) (by
      intro i hi
      rcases List.mem_cons.1 hi with rfl | hi
      · exact ⟨fun hh => by simp at hh, fun hh => hls (by simpa using hh)⟩
      · rw [List.mem_singleton] at hi; subst hi
        refine ⟨fun hh => by simp at hh, fun hh => ?_⟩
        simp only [Option.some.injEq] at hh; subst hh; exact absurd hs (by decide))
  refine ⟨m, m1, m, rfl, ?_, ⟨m3, m5 ⟨b, hb, by simp [ib_cons]⟩⟩, s, hs, ?_⟩
  · have : (⟨[], []⟩ : Comp α).mul (compOf [(some b, p), (some s, q)]) = (Comp.one b p).mul (Comp.one s q) := by
      simp [Comp.mul, compOf, Comp.one]
    rw [this] at m2; exact m2
  · rw [m4 s hs]
    have hbs : b ≠ s := by rintro rfl; rw [hb] at hs; cases hs
    simp [ib_cons, hbs, Prod.empty, Counter.get]

/-- The terms of a branch. -/
theorem branch_ok (hP : ∀ a b, P a → P b → P (comb a b)) {s : Base} {q : PD α} (hs : s.isSigmoid = true) {k : PKE α} (hf : Fitted P k)
    {rec : Except SErr (PKE α)} (hr : asLeaf k = none → ∃ k', rec = .ok k' ∧ RelSum φ shape comb P (comps k) k') :
    ∃ k' cts, branch comb (some s, q) k rec = .ok k' ∧ childTerms k' = .ok cts ∧
      List.Forall₂ (RelS φ shape comb P) ((comps k).map (fun x => x.mul (Comp.one s q))) cts := by
  cases k with
  | leaf b p =>
    rw [Fitted] at hf
    obtain ⟨n, n1, n2⟩ := leaf_branch_ok (φ := φ) (shape := shape) (q := q) hP hf.1 hs hf.2
    refine ⟨n.ke, [n.ke], ?_, rfl, ?_⟩
    · simp only [branch, asLeaf, n1]; rfl
    · rw [comps, List.map_cons, List.map_nil]; exact List.Forall₂.cons n2 List.Forall₂.nil
  | comm op bts ps pv cts =>
    obtain ⟨k', rfl, cts', rfl, h2⟩ := hr rfl
    obtain ⟨r, r1, r2⟩ := addSig_ok (p := q) hP hs h2
    exact ⟨.comm .sum [] [] none r, r, by simp only [branch, asLeaf, bind, Except.bind, r1]; rfl, rfl, r2⟩
  | change c p l r =>
    obtain ⟨k', rfl, cts', rfl, h2⟩ := hr rfl
    obtain ⟨r, r1, r2⟩ := addSig_ok (p := q) hP hs h2
    exact ⟨.comm .sum [] [] none r, r, by simp only [branch, asLeaf, bind, Except.bind, r1]; rfl, rfl, r2⟩

theorem two_of {c : Counter} (hw : c.WF) (hp : c.Pos) {b s : Base} (hb : b.isSigmoid = false) (hs : s.isSigmoid = true)
    (h1 : 0 < c.get b) (h2 : 0 < c.get s) : c.total ≠ 1 := by
  rw [Counter.total_eq hw]
  have h0 := hp.nonneg
  have := h0 .WN; have := h0 .C; have := h0 .LIN; have := h0 .SE; have := h0 .PER
  have := h0 .S; have := h0 .Sr; have := h0 .SI; have := h0 .SIr
  cases b <;> simp [Base.isSigmoid] at hb <;> cases s <;> simp [Base.isSigmoid] at hs <;> omega

theorem sumCtor_ok {cfg : Cfg} {cs : List (Comp α)} {ks : List (PKE α)} (h : List.Forall₂ (RelS φ shape comb P) cs ks) :
    ∃ k, sumCtor cfg ks = .ok k ∧ RelSum φ shape comb P cs k := by
  have key : ∃ ns, asProds ks = .ok ns ∧ (ns.map (fun n => { n with bts := reSimp n.bts })).filter (fun n => decide (n.bts.total = 1)) = [] ∧
      (ns.map (fun n => { n with bts := reSimp n.bts })).filter (fun n => decide (n.bts.total ≠ 1)) = ns.map (fun n => { n with bts := reSimp n.bts }) ∧
      List.Forall₂ (RelK φ shape comb P) cs (ns.map (fun n => Prod.ke { n with bts := reSimp n.bts })) := by
    induction h with
    | nil => exact ⟨[], rfl, rfl, rfl, List.Forall₂.nil⟩
    | cons h1 _ ih =>
      obtain ⟨n, rfl, h2, h3, s, hs, hsp⟩ := h1
      obtain ⟨ns, h4, h5, h6, h7⟩ := ih
      have hg := get_reSimp h2.inv.wf h2.inv.pos h2.inv.nm
      have ht : (reSimp n.bts).total ≠ 1 := by
        obtain ⟨x, hx1, hx2⟩ := h3.2
        exact two_of (wf_reSimp h2.inv.wf) pos_reSimp hx1 hs (by rw [hg]; exact h2.inv.bts_pos hx2) (by rw [hg]; exact hsp)
      refine ⟨n :: ns, by simp only [asProds, Prod.ke, h4]; rfl, ?_, ?_, ?_⟩
      · rw [List.map_cons, List.filter_cons_of_neg (by simpa using ht)]; exact h5
      · rw [List.map_cons, List.filter_cons_of_pos (by simpa using ht), h6]
      · exact List.Forall₂.cons ⟨_, rfl, h2.setBts (wf_reSimp h2.inv.wf) pos_reSimp hg, h3⟩ h7
  obtain ⟨ns, h1, h2, h3, h4⟩ := key
  refine ⟨_, ?_, _, rfl, h4⟩
  unfold sumCtor
  rw [h1]; simp only [bind, Except.bind]
  rw [h2, h3]
  have : KE.simplifyBaseSum cfg (KE.simplifyBaseSum cfg (Counter.ofList (List.flatMap (fun n : Prod α => n.bts.elements) []))) = [] := by
    obtain ⟨a, b, c⟩ := cfg; cases b <;> rfl
  rw [this, List.map_map]; rfl

theorem sig_sigL (c : CC) : (sigL c).isSigmoid = true := by cases c <;> rfl
theorem sig_sigR (c : CC) : (sigR c).isSigmoid = true := by cases c <;> rfl

/-! ## The recursion -/

theorem compsSum_eq (ks : List (PKE α)) : compsSum ks = (ks.map comps).flatten := by
  induction ks with
  | nil => rfl
  | cons k ks ih => simp [compsSum, ih]

theorem compsProd_eq (ks : List (PKE α)) : compsProd ks = cartC (ks.map comps) := by
  induction ks with
  | nil => rfl
  | cons k ks ih => simp [compsProd, cartC, ih]

mutual
theorem sops_ok (hP : ∀ a b, P a → P b → P (comb a b)) (cfg : Cfg) : (k : PKE α) → asLeaf k = none → Fitted P k → OwnTerms k →
    ∃ k', sops comb cfg k = .ok k' ∧ RelSum φ shape comb P (comps k) k'
  | .leaf b p, h, _, _ => by simp [asLeaf] at h
  | .comm .sum bts ps pv cts, _, hf, ho => by
    rw [Fitted] at hf; rw [OwnTerms] at ho
    obtain ⟨f1, rfl, f3⟩ := hf
    obtain ⟨ks, k1, k2⟩ := sopsL_ok hP cfg cts f3 ho.2
    obtain ⟨k', s1, s2⟩ := sumForm_ok hP f1 k2
    refine ⟨k', ?_, ?_⟩
    · rw [sops, if_neg (by simp [ho.1]), k1]; exact s1
    · rw [comps, compsSum_eq]; exact s2
  | .comm .prod bts ps pv [], _, hf, ho => by
    rw [Fitted] at hf; rw [OwnTerms] at ho
    obtain ⟨f1, f2, f3, f4, _⟩ := hf
    have hpv : pv.isSome := by
      cases pv with
      | none => exact absurd (f2.2 rfl) ho.1
      | some v => rfl
    refine ⟨_, by rw [sops, if_neg (by simp [ho.1])], _, rfl, ?_⟩
    have e : comps (.comm .prod bts ps pv []) = [ownC ps pv] := by simp [comps, compsProd, Comp.mul, ownC]
    rw [e]
    exact List.Forall₂.cons (pure_rel f1 ho.1 f3 (f4 rfl) hpv) List.Forall₂.nil
  | .comm .prod bts ps pv (k :: ks), _, hf, ho => by
    rw [Fitted] at hf; rw [OwnTerms] at ho
    obtain ⟨f1, f2, f3, _, f5⟩ := hf
    obtain ⟨ks', k1, k2⟩ := sopsL_ok hP cfg (k :: ks) f5 ho.2
    obtain ⟨k', s1, s2⟩ := prodForm_ok hP f1 ho.1 f3 pv k2
    refine ⟨k', ?_, ?_⟩
    · rw [sops, if_neg (by simp [ho.1])]; simp only [k1, bind, Except.bind]; exact s1
    · rw [comps, compsProd_eq]; exact s2
  | .change c p l r, _, hf, ho => by
    rw [Fitted] at hf; rw [OwnTerms] at ho
    obtain ⟨f1, f2, f3⟩ := hf
    obtain ⟨l', lt, l1, l2, l3⟩ := branch_ok (φ := φ) (shape := shape) (q := p) (s := sigL c) (rec := sops comb cfg l) hP (sig_sigL c) f2
      (fun hl => sops_ok hP cfg l hl f2 ho.1)
    obtain ⟨r', rt, r1, r2, r3⟩ := branch_ok (φ := φ) (shape := shape) (q := p) (s := sigR c) (rec := sops comb cfg r) hP (sig_sigR c) f3
      (fun hl => sops_ok hP cfg r hl f3 ho.2)
    obtain ⟨k', s1, s2⟩ := sumCtor_ok (cfg := cfg) (List.rel_append l3 r3)
    refine ⟨k', ?_, ?_⟩
    · rw [sops, l1]; simp only [bind, Except.bind, r1]
      unfold addSums; simp only [l2, r2, bind, Except.bind]; exact s1
    · rw [comps, ← sigL_eq, ← sigR_eq]; exact s2
theorem sopsL_ok (hP : ∀ a b, P a → P b → P (comb a b)) (cfg : Cfg) : (ks : List (PKE α)) → FittedL P ks → OwnTermsL ks →
    ∃ ks', sopsL comb cfg ks = .ok ks' ∧ List.Forall₂ (RelSum φ shape comb P) (ks.map comps) ks'
  | [], _, _ => ⟨[], by rw [sopsL], List.Forall₂.nil⟩
  | k :: ks, hf, ho => by
    rw [FittedL] at hf; rw [OwnTermsL] at ho
    obtain ⟨k', a1, a2⟩ := sops_ok hP cfg k hf.1.1 hf.1.2 ho.1
    obtain ⟨ks', b1, b2⟩ := sopsL_ok hP cfg ks hf.2 ho.2
    exact ⟨k' :: ks', by rw [sopsL, a1]; simp only [bind, Except.bind, b1]; rfl, List.Forall₂.cons a2 b2⟩
end

/-! ## Nodes without base terms -/

mutual
theorem sops_raises (hP : ∀ a b, P a → P b → P (comb a b)) (cfg : Cfg) : (k : PKE α) → asLeaf k = none → Fitted P k → ¬ OwnTerms k →
    sops comb cfg k = .error .assertion
  | .leaf b p, h, _, _ => by simp [asLeaf] at h
  | .comm .sum bts ps pv cts, _, hf, ho => by
    rw [Fitted] at hf; rw [OwnTerms] at ho
    obtain ⟨f1, rfl, f3⟩ := hf
    by_cases hps : ps = []
    · rw [sops, if_pos ⟨hps, rfl⟩]
    · rw [sops, if_neg (by simp [hps]), sopsL_raises hP cfg cts f3 (fun h => ho ⟨hps, h⟩)]; rfl
  | .comm .prod bts ps pv [], _, hf, ho => by
    rw [Fitted] at hf; rw [OwnTerms] at ho
    obtain ⟨f1, f2, _⟩ := hf
    by_cases hps : ps = []
    · rw [sops, if_pos ⟨hps, f2.1 hps⟩]
    · exact absurd ⟨hps, by rw [OwnTermsL]; trivial⟩ ho
  | .comm .prod bts ps pv (k :: ks), _, hf, ho => by
    rw [Fitted] at hf; rw [OwnTerms] at ho
    obtain ⟨f1, f2, f3, _, f5⟩ := hf
    by_cases hps : ps = []
    · rw [sops, if_pos ⟨hps, f2.1 hps⟩]
    · rw [sops, if_neg (by simp [hps])]; simp only [sopsL_raises hP cfg (k :: ks) f5 (fun h => ho ⟨hps, h⟩)]; rfl
  | .change c p l r, _, hf, ho => by
    rw [Fitted] at hf; rw [OwnTerms] at ho
    obtain ⟨f1, f2, f3⟩ := hf
    have br : ∀ (k : PKE α) (s : Item α) (rec : Except SErr (PKE α)), asLeaf k = none → rec = .error .assertion →
        branch comb s k rec = .error .assertion := by
      intro k s rec h1 h2; unfold branch; rw [h1, h2]; rfl
    have lf : ∀ k : PKE α, ¬ OwnTerms k → asLeaf k = none := by
      intro k h
      cases k with
      | leaf b p => exact absurd (by rw [OwnTerms]; trivial) h
      | comm op bts ps pv cts => rfl
      | change c p l r => rfl
    by_cases hl : OwnTerms l
    · have hr : ¬ OwnTerms r := fun h => ho ⟨hl, h⟩
      obtain ⟨l', lt, l1, l2, l3⟩ := branch_ok (R := Int) (φ := fun _ => 1) (shape := fun _ _ => 1) (q := p) (s := sigL c) (rec := sops comb cfg l) hP (sig_sigL c) f2
        (fun h => sops_ok hP cfg l h f2 hl)
      rw [sops, l1]; simp only [bind, Except.bind]
      rw [br r _ _ (lf r hr) (sops_raises hP cfg r (lf r hr) f3 hr)]
    · rw [sops, br l _ _ (lf l hl) (sops_raises hP cfg l (lf l hl) f2 hl)]; rfl
theorem sopsL_raises (hP : ∀ a b, P a → P b → P (comb a b)) (cfg : Cfg) : (ks : List (PKE α)) → FittedL P ks → ¬ OwnTermsL ks →
    sopsL comb cfg ks = .error .assertion
  | [], _, h => absurd (by rw [OwnTermsL]; trivial) h
  | k :: ks, hf, ho => by
    rw [FittedL] at hf; rw [OwnTermsL] at ho
    by_cases hk : OwnTerms k
    · obtain ⟨k', a1, _⟩ := sops_ok (R := Int) (φ := fun _ => 1) (shape := fun _ _ => 1) hP cfg k hf.1.1 hf.1.2 hk
      rw [sopsL, a1]; simp only [bind, Except.bind]
      rw [sopsL_raises hP cfg ks hf.2 (fun h => ho ⟨hk, h⟩)]
    · rw [sopsL, sops_raises hP cfg k hf.1.1 hf.1.2 hk]; rfl
end

/-! ## The covariance of the components -/

theorem val_one (b : Base) (p : PD α) : (Comp.one b p).val φ shape = termVal φ shape b p := by
  cases h : p.variance <;> simp [Comp.val, Comp.one, termVal, varVal, h]

theorem termVal_plain {b : Base} {p : PD α} (h : p.variance = none) : termVal φ shape b p = shape b p := by
  simp [termVal, varVal, h, noVar_self h]

theorem val_ownC {ps : PDict α} (pv : Option α) (hv : ∀ e ∈ ps, ∀ p ∈ e.2, p.variance = none) :
    (ownC ps pv).val φ shape = varVal φ pv * (ps.map (fun e => (e.2.map (termVal φ shape e.1)).prod)).prod := by
  unfold Comp.val ownC
  have e1 : ((pv.toList).map φ).prod = varVal φ pv := by cases pv <;> simp [varVal]
  simp only [e1]; congr 1
  induction ps with
  | nil => rfl
  | cons e r ih =>
    rw [List.flatMap_cons, List.map_append, List.prod_append, ih (fun e he => hv e (by simp [he])), List.map_cons, List.prod_cons]
    congr 1
    rw [List.map_map]
    congr 1
    apply List.map_congr_left
    intro p hp
    simp [termVal_plain (hv e (by simp) p hp)]

theorem sum_mul_one (x : List (Comp α)) (d : Comp α) :
    ((x.map (fun a => a.mul d)).map (Comp.val φ shape)).sum = (x.map (Comp.val φ shape)).sum * d.val φ shape := by
  induction x with
  | nil => simp
  | cons a r ih => simp only [List.map_cons, List.sum_cons, Comp.val_mul, ih, add_mul]

theorem sum_one_mul (x : List (Comp α)) (d : Comp α) :
    ((x.map d.mul).map (Comp.val φ shape)).sum = d.val φ shape * (x.map (Comp.val φ shape)).sum := by
  induction x with
  | nil => simp
  | cons a r ih => simp only [List.map_cons, List.sum_cons, Comp.val_mul, ih, mul_add]

theorem sum_cart (x y : List (Comp α)) :
    ((x.flatMap (fun a => y.map (fun b => a.mul b))).map (Comp.val φ shape)).sum = (x.map (Comp.val φ shape)).sum * (y.map (Comp.val φ shape)).sum := by
  induction x with
  | nil => simp
  | cons a r ih =>
    rw [List.flatMap_cons, List.map_append, List.sum_append, ih, List.map_cons, List.sum_cons, add_mul]
    congr 1
    exact sum_one_mul y a

theorem sum_own (ps : PDict α) :
    ((ps.flatMap (fun e => e.2.map (Comp.one e.1))).map (Comp.val φ shape)).sum = (ps.map (fun e => (e.2.map (termVal φ shape e.1)).sum)).sum := by
  induction ps with
  | nil => rfl
  | cons e r ih =>
    rw [List.flatMap_cons, List.map_append, List.sum_append, ih, List.map_cons, List.sum_cons, List.map_map]
    congr 2
    apply List.map_congr_left
    intro p _
    simp [val_one]

mutual
/-- Multiplying out keeps the covariance. -/
theorem eval_comps : (k : PKE α) → Fitted P k → eval φ shape k = ((comps k).map (Comp.val φ shape)).sum
  | .leaf b p, _ => by simp [eval, comps, val_one]
  | .comm .sum bts ps pv cts, hf => by
    rw [Fitted] at hf
    rw [eval, comps, evalSum_comps cts hf.2.2, List.map_append, List.sum_append, List.map_reverse, List.sum_reverse, sum_own]
  | .comm .prod bts ps pv cts, hf => by
    rw [Fitted] at hf
    rw [eval, comps, evalProd_comps cts hf.2.2.2.2]
    have := sum_one_mul (φ := φ) (shape := shape) (compsProd cts) (ownC ps pv)
    unfold ownC at this
    rw [this]
    have h2 := val_ownC (φ := φ) (shape := shape) pv hf.2.2.1
    unfold ownC at h2
    rw [h2]
  | .change c p l r, hf => by
    rw [Fitted] at hf
    rw [eval, comps, eval_comps l hf.2.1, eval_comps r hf.2.2, List.map_append, List.sum_append, sum_mul_one, sum_mul_one, val_one, val_one]
theorem evalSum_comps : (ks : List (PKE α)) → FittedL P ks → evalSum φ shape ks = ((compsSum ks).map (Comp.val φ shape)).sum
  | [], _ => by simp [evalSum, compsSum]
  | k :: ks, hf => by
    rw [FittedL] at hf
    rw [evalSum, compsSum, eval_comps k hf.1.2, evalSum_comps ks hf.2, List.map_append, List.sum_append]
theorem evalProd_comps : (ks : List (PKE α)) → FittedL P ks → evalProd φ shape ks = ((compsProd ks).map (Comp.val φ shape)).sum
  | [], _ => by simp [evalProd, compsProd, Comp.val]
  | k :: ks, hf => by
    rw [FittedL] at hf
    rw [evalProd, compsProd, eval_comps k hf.1.2, evalProd_comps ks hf.2, sum_cart]
end

/-- The covariance of a product standing for a component. -/
theorem eval_ke {n : Prod α} (h : Inv P n) : eval φ shape n.ke = varVal φ n.pv * V shape n.ps.get := by
  have hv : ∀ b, ∀ p ∈ n.ps.get b, p.variance = none := h.novar
  rw [Prod.ke, eval, evalProd, mul_one]
  congr 1
  rw [prod_dict (termVal φ shape) h.dok]
  unfold V
  congr 1
  apply List.map_congr_left
  intro b _
  congr 1
  apply List.map_congr_left
  intro p hp
  exact termVal_plain (hv b p hp)

theorem evalSum_rel (L : ShapeLaws φ shape) {cs : List (Comp α)} {ks : List (PKE α)} (h : List.Forall₂ (RelK φ shape comb P) cs ks)
    (hc : ∀ c ∈ cs, c.Clean) (hs : ∀ c ∈ cs, SEok shape comb P c) : evalSum φ shape ks = (cs.map (Comp.val φ shape)).sum := by
  induction h with
  | nil => simp [evalSum]
  | cons h1 _ ih =>
    obtain ⟨n, rfl, h2, _⟩ := h1
    rw [evalSum, List.map_cons, List.sum_cons, ih (fun c hh => hc c (by simp [hh])) (fun c hh => hs c (by simp [hh])), eval_ke h2.inv,
      h2.val L (hc _ (by simp)) (hs _ (by simp))]

mutual
theorem length_comps : (k : PKE α) → Fitted P k → (comps k).length = count k
  | .leaf b p, _ => by simp [comps, count]
  | .comm .sum bts ps pv cts, hf => by
    rw [Fitted] at hf
    rw [comps, count, List.length_append, length_compsSum cts hf.2.2, List.length_reverse, elements_aligned hf.1]
    congr 1
    simp [elts, List.length_flatMap]
  | .comm .prod bts ps pv cts, hf => by
    rw [Fitted] at hf
    rw [comps, count, List.length_map, length_compsProd cts hf.2.2.2.2]
  | .change c p l r, hf => by
    rw [Fitted] at hf
    rw [comps, count, List.length_append, List.length_map, List.length_map, length_comps l hf.2.1, length_comps r hf.2.2]
theorem length_compsSum : (ks : List (PKE α)) → FittedL P ks → (compsSum ks).length = countSum ks
  | [], _ => by simp [compsSum, countSum]
  | k :: ks, hf => by
    rw [FittedL] at hf
    rw [compsSum, countSum, List.length_append, length_comps k hf.1.2, length_compsSum ks hf.2]
theorem length_compsProd : (ks : List (PKE α)) → FittedL P ks → (compsProd ks).length = countProd ks
  | [], _ => by simp [compsProd, countProd]
  | k :: ks, hf => by
    rw [FittedL] at hf
    rw [compsProd, countProd, ← length_comps k hf.1.2, ← length_compsProd ks hf.2]
    simp [List.length_flatMap, List.sum_const_nat]
end

end Sops
end GPyABCD
