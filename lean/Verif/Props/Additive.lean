import Verif.Props.EndToEnd
import Verif.Lemmas.Additive

/-!
# Properties: additive searches (C90)

C90: a search whose rules never multiply, from start kernels without products, only finds models that can be interpreted (unless change windows get nested).
-/

namespace GPyABCD
open Search KE Sops Params Interp

variable {α D R ε : Type}

/-- A start kernel for an additive search: a base kernel, or an expression without products, sigmoids and empty sums in which no sum adds up several change
operators. -/
def KE.Pseudo.additive : Pseudo → Prop
  | .kex k => IsExpr k ∧ noEmpty k = true ∧ NoSig k ∧ slim k = true
  | .name _ => True
  | .unknown _ => True

theorem form_of_slim {k : KE} (hw : wf k = true) (hs : slim k = true) (ha : alternating k = true) : allNodes formNode k = true := by
  induction k using KE.ind with
  | base b => rfl
  | comm o c cs ih =>
    have hw' := (wf_comm.1 hw).2.2
    simp only [slim, allNodes, Bool.and_eq_true, slimNode, decide_eq_true_eq, allNodesL_iff] at hs
    simp only [alternating, allNodes, Bool.and_eq_true, altNode, List.all_eq_true, Bool.not_eq_true', allNodesL_iff] at ha
    obtain ⟨⟨rfl, ht⟩, hcs⟩ := hs
    have hch : ∀ k ∈ cs, isChange k = true := by
      intro k hk
      have h1 := ha.1 k hk
      have h2 := hcs k hk
      have h3 := (hw' k hk).1
      cases k with
      | base b => simp [isBase] at h3
      | change _ _ _ => rfl
      | comm o' _ _ =>
        simp only [allNodes, Bool.and_eq_true, slimNode, decide_eq_true_eq] at h2
        simp only [isComm, decide_eq_false_iff_not] at h1
        exact absurd h2.1.1 h1
    simp only [allNodes, Bool.and_eq_true, formNode, decide_eq_true_eq, List.all_eq_true, allNodesL_iff]
    exact ⟨⟨⟨trivial, by rw [← topsL_changes hch]; exact ht⟩, hch⟩, fun k hk => ih k hk (hw' k hk).2 (hcs k hk) (ha.2 k hk)⟩
  | change c l r hl hr =>
    have hw' := wf_change.1 hw
    simp only [slim, alternating, allNodes, Bool.and_eq_true] at hs ha
    simp only [allNodes, Bool.and_eq_true]
    exact ⟨⟨rfl, hl hw'.1 hs.1.2 ha.1.2⟩, hr hw'.2 hs.2 ha.2⟩

theorem noProd_operand {k : KE} (hw : wf k = true) (he : noEmpty k = true) (hs : slim k = true) : operand k = true := by
  refine operand_iff.2 ⟨hw, he, noConstProd_of_altProd (allNodes_imp k (fun n hn => ?_) hs)⟩
  cases n with
  | base b => rfl
  | change _ _ _ => rfl
  | comm o c cs =>
    simp only [slimNode, Bool.and_eq_true, decide_eq_true_eq] at hn
    obtain ⟨rfl, _⟩ := hn
    rfl

/-- The start kernels of an additive search. -/
theorem additive_starts (cfg : Cfg) {ps : List Pseudo} (hp : ∀ p ∈ ps, p.additive) {starts : List KE} (h : makeSimpleKexs cfg ps = some starts) :
    ∀ k ∈ starts, settled cfg k = true ∧ k.isBase = false ∧ NoSig k ∧ allNodes formNode k = true := by
  induction ps generalizing starts with
  | nil => simp only [makeSimpleKexs, Option.some.injEq] at h; subst h; simp
  | cons p ps ih =>
    simp only [makeSimpleKexs] at h
    split at h
    · rename_i k ks hk hks
      rw [Option.some.injEq] at h; subst h
      intro x hx
      rcases List.mem_cons.1 hx with rfl | hx
      · have key : ∀ k, IsExpr k → noEmpty k = true → NoSig k → slim k = true →
            settled cfg (simplify cfg k) = true ∧ (simplify cfg k).isBase = false ∧ NoSig (simplify cfg k) ∧ allNodes formNode (simplify cfg k) = true := by
          intro k h1 h2 h3 h4
          exact ⟨settled_simplify cfg (noProd_operand h1.1 h2 h4), by rw [isBase_simplify]; exact h1.2,
            fun x hx => h3 x ((bases_simplify cfg k h1.1).subset hx), (form_simplify cfg (slim'_of_slim h1.1 h4)).1⟩
        have hpa := hp p (by simp)
        cases p with
        | kex k' =>
          simp only [pseudoToReal, Option.some.injEq] at hk; subst hk
          obtain ⟨h1, h2, h3, h4⟩ := hpa
          exact key _ h1 h2 h3 h4
        | name b =>
          simp only [pseudoToReal] at hk
          split at hk
          · rename_i hb
            rw [Option.some.injEq] at hk; subst hk
            rw [mkL_one]
            refine key _ ⟨by cases b <;> rfl, rfl⟩ (by cases b <;> rfl) ?_ (by cases b <;> rfl)
            cases b <;> first | (intro x hx; simp [KE.bases, basesL, Counter.elements] at hx; subst hx; rfl) | simp [baseKerns] at hb
          · simp at hk
        | unknown s => simp [pseudoToReal] at hk
      · exact ih (fun p hp' => hp p (by simp [hp'])) hks x hx
    · simp at h

variable (cfg : Cfg) (o : Orders) (rules : List RuleName) (le : R → R → Bool) (score : D → R) (fit : Nat → KE → Except ε D)

/-- C90. Whatever an additive search reaches has no products and no sum that adds up several change operators, every sum has base terms of its own, and
simplification changes nothing. -/
theorem C90_shape (hr : ∀ n ∈ rules, n.additive = true) (ps : List Pseudo) (hp : ∀ p ∈ ps, p.additive) (starts : List KE)
    (hst : makeSimpleKexs cfg ps = some starts) (hone : ∀ k ∈ starts, isWrapper k = false) (k : KE) (h : Reachable cfg starts rules k) :
    slim k = true ∧ alternating k = true ∧ allNodes ownNode k = true ∧ simplify cfg k = k ∧ noEmpty k = true ∧ IsExpr k ∧ NoSig k := by
  have : settled cfg k = true ∧ k.isBase = false ∧ NoSig k ∧ allNodes formNode k = true ∧ isWrapper k = false := by
    induction h with
    | start h =>
      obtain ⟨h1, h2, h3, h4⟩ := additive_starts cfg hp hst _ h
      exact ⟨h1, h2, h3, h4, hone _ h⟩
    | step ho _ h ih =>
      obtain ⟨i1, i2, i3, i4, i5⟩ := ih
      obtain ⟨h1, h2, h3⟩ := C25_step_partial cfg _ ho rules _ i1 i2 i3 _ h
      exact ⟨h1, h2, h3, form_expand (orders_noC ho) hr (settled_iff.1 i1).1 i4 h⟩
  obtain ⟨h1, h2, h3, h4, h5⟩ := this
  obtain ⟨g1, g2, g3, g4⟩ := settled_iff.1 h1
  have ha := alternating_of_form h4
  exact ⟨slim_of_slim' (slim'_of_form h4), ha, own_of_form h1 h4 h5, simplify_of_normal (normal_iff.2 ⟨g1, g3, g4, ha⟩), g2, ⟨g1, h2⟩, h3⟩

/-- The start kernels and rules of the examples: base kernels and a change point, everything that does not multiply. -/
example : ∃ starts, makeSimpleKexs .default [.name .WN, .name .LIN, .kex (comm .sum [(.PER, 1)] [change .CP (base .LIN) (comm .sum [(.C, 1), (.PER, 1)] [])])] = some starts ∧
    (∀ p ∈ [Pseudo.name .WN, .name .LIN, .kex (comm .sum [(.PER, 1)] [change .CP (base .LIN) (comm .sum [(.C, 1), (.PER, 1)] [])])], p.additive) ∧
    (∀ k ∈ starts, isWrapper k = false) ∧
    ∀ n ∈ [RuleName.plus_base, .replace_base, .change_new_base, .change_same, .change_window_constant, .change_window_linear, .change_point_linear,
      .replace_with_singleton, .remove_some_term], n.additive = true := by
  refine ⟨_, rfl, ?_, by decide, by decide⟩
  intro p hp
  simp only [List.mem_cons, List.not_mem_nil, or_false] at hp
  rcases hp with rfl | rfl | rfl
  · trivial
  · trivial
  · exact ⟨⟨by decide, by decide⟩, by decide, show ∀ x ∈ [Base.PER, .LIN, .C, .PER], _ by decide, by decide⟩

/-- C90. The condition on the start kernels is needed: a change operator alone in a sum, given as a start kernel, stays so. -/
theorem C90_wrapper_stays : ∃ k : KE, (Pseudo.kex k).additive ∧ makeSimpleKexs .default [.kex k] = some [k] ∧ allNodes ownNode k = false :=
  ⟨comm .sum [] [change .CP (base .LIN) (base .PER)], ⟨⟨by decide, by decide⟩, by decide, show ∀ x ∈ [Base.LIN, .PER], _ by decide, by decide⟩, by rfl, by decide⟩

/-- C90. The condition on the rules is needed: multiplying leads to products without base terms of their own within three rounds. -/
theorem C90_times_raises : ∃ (starts : List KE) (k : KE), makeSimpleKexs .default [.name .LIN] = some starts ∧
    ReachIn .default starts [.plus_base, .times_base] 3 k ∧ allNodes ownNode k = false := by
  let O : Orders := ⟨[.WN, .C, .LIN, .PER], [.WN, .LIN, .PER]⟩
  have hO : O.OK .default := ⟨by decide, by decide⟩
  have h : ((expandNamed .default O [.plus_base, .times_base] (comm .sum [(.LIN, 1)] [])).any (fun k => keq k (comm .prod [(.LIN, 2)] []) &&
      (expandNamed .default O [.plus_base, .times_base] k).any (fun r => keq r (comm .prod [(.LIN, 1)] [comm .sum [(.LIN, 1), (.PER, 1)] []]) &&
        (expandNamed .default O [.plus_base, .times_base] r).any (fun t => !allNodes ownNode t)))) = true := by
    decide +kernel
  simp only [List.any_eq_true, Bool.and_eq_true, Bool.not_eq_true'] at h
  obtain ⟨k, hk, _, r, hr, _, t, ht, e⟩ := h
  exact ⟨_, t, rfl, .step hO (.step hO (.step hO (.start (by exact List.mem_singleton.2 rfl)) hk) hr) ht, e⟩

/-- C90. No change windows come from rules that make none. -/
theorem C90_windowless (hr : ∀ n ∈ rules, n.windowless = true) (starts : List KE) (hs : ∀ k ∈ starts, IsExpr k ∧ CC.CW ∉ changes k)
    (k : KE) (h : Reachable cfg starts rules k) : CC.CW ∉ changes k := by
  obtain ⟨n, hn⟩ := reachable_iff.1 h
  clear h
  induction hn with
  | start h => exact (hs _ h).2
  | step ho hk h ih =>
    exact fun hx => ih (changes_expand (orders_noC ho) hr (reachIn_isExpr cfg rules (fun k hk => (hs k hk).1) hk).1 h hx)

example : ∀ n ∈ [RuleName.plus_base, .times_base, .replace_base, .change_point_linear, .times_shifted_base, .replace_with_singleton, .remove_some_term,
    .try_higher_curves], n.windowless = true := by decide

section
variable [LinearOrder α] [Mul α] [One α] [Add α]

/-- C90. Every model an additive search without window rules returns is interpreted, whatever values its parameters were given: there is one sentence per
component, each says what it should of its component, and the components add up to the kernel. -/
theorem C90_interpret {S : Type} [CommRing S] (φ : α → S) (shape : Base → Sops.PD α → S) (comb : α → α → α) (fmt : α → String)
    (ho : o.OK cfg) (hr : ∀ n ∈ rules, n.additive = true ∧ n.windowless = true) (ps : List Pseudo) (hp : ∀ p ∈ ps, p.additive) (starts : List KE)
    (hst : makeSimpleKexs cfg ps = some starts) (hone : ∀ k ∈ starts, isWrapper k = false ∧ CC.CW ∉ changes k) (ker : D → GK α) (hfit : FitsKernel cfg ker fit)
    (v : Bool) (n : Nat) (beam : BeamArg) (s : St KE D R) (h : explore (keEnv cfg o rules le score fit) v starts n beam = .ok s)
    (m : Mod KE D R) (hm : m ∈ s.sorted) :
    ∃ f ss, fitParams cfg (ker m.data) m.kex = .ok f ∧ Carries f (ker m.data) ∧
      List.Forall₂ (fun c t => Relates cfg c t) (comps f) ss ∧ ((comps f).map (Comp.val φ shape)).sum = gval φ shape (ker m.data) ∧
      interpret comb fmt cfg (ker m.data) m.kex = .ok ("The fit kernel consists of " ++ toString (comps f).length ++ " components:" ++
        String.join (ss.map (fun t => "\n\t" ++ t.text fmt))) := by
  obtain ⟨h1, _, h2⟩ := C27_all_models _ _ _ _ _ _ h
  have hreach := C34_reachable cfg o ho rules le score fit v _ n beam s h m (h1.subset hm)
  obtain ⟨_, _, h3, h4, h5, h6, h7⟩ := C90_shape cfg rules (fun n hn => (hr n hn).1) ps hp starts hst (fun k hk => (hone k hk).1) _ hreach
  have h8 := C90_windowless cfg rules (fun n hn => (hr n hn).2) starts (fun k hk => by
    obtain ⟨g1, g2, _⟩ := additive_starts cfg hp hst k hk
    exact ⟨⟨(settled_iff.1 g1).1, g2⟩, (hone k hk).2⟩) _ hreach
  obtain ⟨t, ht, hall⟩ := C75_points_partial φ shape comb fmt cfg m.kex h6.2 h6.1 h5 h7 (by rw [h4]; exact keq_refl _) h3 h8
  have := hfit _ _ _ (h2 m hm).1
  rw [this] at ht
  exact hall _ (Except.ok.inj ht)

/-- C90 with windows (partial: nested windows need not have a common point, see `C75_windows_partial`): models in which windows stand alone and have positive
widths are interpreted. -/
theorem C90_windows_partial {S : Type} [CommRing S] (φ : α → S) (shape : Base → Sops.PD α → S) (comb : α → α → α) (fmt : α → String)
    (ho : o.OK cfg) (hr : ∀ n ∈ rules, n.additive = true) (ps : List Pseudo) (hp : ∀ p ∈ ps, p.additive) (starts : List KE)
    (hst : makeSimpleKexs cfg ps = some starts) (hone : ∀ k ∈ starts, isWrapper k = false) (ker : D → GK α) (hfit : FitsKernel cfg ker fit)
    (v : Bool) (n : Nat) (beam : BeamArg) (s : St KE D R) (h : explore (keEnv cfg o rules le score fit) v starts n beam = .ok s)
    (m : Mod KE D R) (hm : m ∈ s.sorted) (hc : aloneWindows m.kex = true) (hpos : WindowsPos (ker m.data)) :
    ∃ f ss, fitParams cfg (ker m.data) m.kex = .ok f ∧ Carries f (ker m.data) ∧
      List.Forall₂ (fun c t => Relates cfg c t) (comps f) ss ∧ ((comps f).map (Comp.val φ shape)).sum = gval φ shape (ker m.data) ∧
      interpret comb fmt cfg (ker m.data) m.kex = .ok ("The fit kernel consists of " ++ toString (comps f).length ++ " components:" ++
        String.join (ss.map (fun t => "\n\t" ++ t.text fmt))) := by
  obtain ⟨h1, _, h2⟩ := C27_all_models _ _ _ _ _ _ h
  have hreach := C34_reachable cfg o ho rules le score fit v _ n beam s h m (h1.subset hm)
  obtain ⟨_, _, h3, h4, h5, h6, h7⟩ := C90_shape cfg rules hr ps hp starts hst hone _ hreach
  obtain ⟨t, ht, hall⟩ := C75_interpret_partial φ shape comb fmt cfg m.kex h6.2 h6.1 h5 h7 (by rw [h4]; exact keq_refl _) h3 hc
  have := hfit _ _ _ (h2 m hm).1
  rw [this] at ht
  exact hall _ (Except.ok.inj ht) hpos

/-- Two rounds from `WN` and `LIN`, with change points; optimising leaves every value at one. -/
example : ∃ starts s, makeSimpleKexs .default [.name .WN, .name .LIN] = some starts ∧ (∀ k ∈ starts, isWrapper k = false ∧ CC.CW ∉ changes k) ∧
    (∀ n ∈ [RuleName.plus_base, .replace_base, .change_point_linear, .replace_with_singleton, .remove_some_term], n.additive = true ∧ n.windowless = true) ∧
    explore (keEnv .default ⟨[.WN, .C, .LIN, .PER], [.WN, .LIN, .PER]⟩ [.plus_base, .replace_base, .change_point_linear, .replace_with_singleton,
      .remove_some_term] (fun a b => decide (a ≤ b)) (fun _ => 0) (oneFit .default)) false starts ((2 : Nat) : Int) (.list [2, 3]) = .ok s ∧
    (Pseudo.name .WN).additive ∧ (Pseudo.name .LIN).additive ∧ FitsKernel .default id (oneFit .default) := by
  obtain ⟨starts, hst⟩ : ∃ starts, makeSimpleKexs .default [.name .WN, .name .LIN] = some starts := ⟨_, rfl⟩
  have hok : (match explore (keEnv .default ⟨[.WN, .C, .LIN, .PER], [.WN, .LIN, .PER]⟩ [.plus_base, .replace_base, .change_point_linear,
      .replace_with_singleton, .remove_some_term] (fun a b => decide (a ≤ b)) (fun _ => 0) (oneFit .default)) false
      ((makeSimpleKexs .default [.name .WN, .name .LIN]).getD []) ((2 : Nat) : Int) (.list [2, 3]) with
      | .ok _ => true
      | .error _ => false) = true := by decide +kernel
  rw [hst] at hok
  simp only [Option.getD_some] at hok
  split at hok
  · rename_i s hs
    refine ⟨starts, s, hst, ?_, by decide, hs, trivial, trivial, (oneFit_fits _).1⟩
    have : (makeSimpleKexs .default [.name .WN, .name .LIN]).all (fun l => l.all (fun k => !isWrapper k && decide (CC.CW ∉ changes k))) = true := by decide
    rw [hst] at this
    simpa only [Option.all_some, List.all_eq_true, Bool.and_eq_true, Bool.not_eq_true', decide_eq_true_eq] using this
  · simp at hok

end

end GPyABCD
