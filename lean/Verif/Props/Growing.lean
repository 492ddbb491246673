import Verif.Props.Additive
import Verif.Lemmas.Growing

/-!
# Properties: searches that only grow expressions (C91)

C91: rules that only add, multiply and make change operators keep expressions fully simplified, so that only products and sums without base terms of their own
stand in the way of interpreting what such a search finds.
-/

namespace GPyABCD
open Search KE Sops Params Interp

variable {α D R ε : Type}

/-- A start kernel of a growing search: an expression without empty nodes and sigmoids that simplification leaves alone, and without `SE` if `SE` is not used in the search. -/
def KE.Sound (cfg : Cfg) (k : KE) : Prop :=
  IsExpr k ∧ noEmpty k = true ∧ NoSig k ∧ simplify cfg k = k ∧ (cfg.includeSE = false → Base.SE ∉ bases k)

theorem sound_ripe {cfg : Cfg} {k : KE} (h : Sound cfg k) : Ripe cfg k ∧ (cfg.includeSE = false → ∀ x ∈ bases k, x ≠ Base.SE) := by
  obtain ⟨⟨hw, hb⟩, he, hn, hs, hse⟩ := h
  have hc := canon_simplify cfg k hw
  have hbel := allBelow_simplify cfg k hw
  rw [hs] at hc hbel
  have ha : alternating k = true := by
    by_contra h
    have := nodes_simplify_lt cfg k hw (by simpa using h)
    rw [hs] at this; omega
  exact ⟨⟨settled_iff.2 ⟨hw, he, hc, hbel⟩, normal_iff.2 ⟨hw, hc, hbel, ha⟩, hn, hb⟩, fun hi x hx e => hse hi (e ▸ hx)⟩

theorem bases_expand {cfg : Cfg} {o : Orders} (ho : o.OK cfg) {rules : List RuleName} {k : KE} (hw : wf k = true) {r : KE}
    (h : r ∈ expandNamed cfg o rules k) : ∀ x ∈ bases r, x ∈ bases k ∨ x ∈ ruleBases o := by
  obtain ⟨p, S, hp, rule, hrule, new, hnew, rfl⟩ := mem_expand h
  obtain ⟨n, hn, rfl⟩ := List.mem_map.1 hrule
  have hS := traverse_node hw hp
  have hrr := rr_rule (orders_noC ho) n hS.1 (traverse_not_base hp) new hnew
  have hrepl := repl_of_traverse (new := new) hp
  have hwk := repl_wf hrepl hw hrr.wf hrr.notBase
  intro x hx
  rcases repl_bases hrepl x (standardise_bases hwk.1 hwk.2 x hx) with h | h
  · exact Or.inl h
  · exact (hrr.bases x h).imp_left (hS.2.1 x)

theorem orders_noSE {cfg : Cfg} {o : Orders} (ho : o.OK cfg) (h : cfg.includeSE = false) : ∀ x ∈ ruleBases o, x ≠ Base.SE := by
  intro x hx
  simp only [ruleBases, List.mem_append, List.mem_cons, List.not_mem_nil, or_false] at hx
  have h1 : ∀ x ∈ baseKernsForProd cfg, x ≠ Base.SE := by rw [baseKernsForProd, h]; decide
  rcases hx with (hx | hx) | hx
  · exact h1 x (ho.1.subset hx)
  · exact h1 x (List.mem_filter.1 (ho.2.subset hx)).1
  · rcases hx with rfl | rfl | rfl <;> decide

variable (cfg : Cfg) (o : Orders) (rules : List RuleName) (le : R → R → Bool) (score : D → R) (fit : Nat → KE → Except ε D)

/-- C91. Whatever growing rules reach is left alone by simplification: no sum directly in a sum, no product directly in a product. -/
theorem C91_stable (hr : ∀ n ∈ rules, n.growing cfg = true) (starts : List KE) (hs : ∀ k ∈ starts, Sound cfg k) (k : KE) (h : Reachable cfg starts rules k) :
    Sound cfg k ∧ alternating k = true := by
  have : Ripe cfg k ∧ (cfg.includeSE = false → ∀ x ∈ bases k, x ≠ Base.SE) := by
    induction h with
    | start h => exact sound_ripe (hs _ h)
    | step ho _ h ih =>
      obtain ⟨i1, i2⟩ := ih
      obtain ⟨h1, h2, h3⟩ := C25_step_partial cfg _ ho rules _ i1.settled i1.notBase i1.noSig _ h
      obtain ⟨h4, _⟩ := alternating_expand (orders_noC ho) hr i1 i2 h
      obtain ⟨g1, _, g3, g4⟩ := settled_iff.1 h1
      refine ⟨⟨h1, normal_iff.2 ⟨g1, g3, g4, h4⟩, h3, h2⟩, fun hi x hx => ?_⟩
      rcases bases_expand ho (settled_iff.1 i1.settled).1 h x hx with h | h
      · exact i2 hi x h
      · exact orders_noSE ho hi x h
  obtain ⟨h1, h2⟩ := this
  obtain ⟨g1, g2, _, _⟩ := settled_iff.1 h1.settled
  exact ⟨⟨⟨g1, h1.notBase⟩, g2, h1.noSig, simplify_of_normal h1.normal, fun hi hx => h2 hi _ hx rfl⟩, (normal_iff.1 h1.normal).2.2.2⟩

/-- All the growing rules, and a start kernel in which sums and products are nested. -/
example : (∀ n ∈ [RuleName.plus_base, .times_base, .times_shifted_base, .change_new_base, .change_same, .change_window_constant, .change_window_linear,
      .change_point_linear, .try_higher_curves], n.growing .default = true) ∧
    Sound .default (comm .sum [(.PER, 1)] [comm .prod [(.LIN, 1)] [comm .sum [(.WN, 1)] [change .CP (base .LIN) (base .PER)]]]) :=
  ⟨by decide, ⟨by decide, by decide⟩, by decide, show ∀ x ∈ [Base.PER, .LIN, .WN, .LIN, .PER], _ by decide, by rfl, by decide⟩

/-- C91. The start kernels shipped with the package are as required. -/
theorem C91_builtin (bs : List Base) (hbs : bs.Perm [.WN, .C, .LIN, .PER]) (ps : List Pseudo) (hp : ps ∈ startGroups cfg bs) :
    ∃ starts, makeSimpleKexs cfg ps = some starts ∧ ∀ k ∈ starts, Sound cfg k := by
  obtain ⟨starts, h1, _, h2, _⟩ := C65_builtin cfg bs hbs ps hp
  refine ⟨starts, h1, fun k hk => ?_⟩
  obtain ⟨g1, g2, g3, g4, g5⟩ := h2 k hk
  obtain ⟨w1, w2, _, _⟩ := settled_iff.1 g2
  exact ⟨⟨w1, g3⟩, w2, g4, g1, fun _ => g5⟩

example : [Base.PER, .LIN, .WN, .C].Perm [.WN, .C, .LIN, .PER] ∧
    startExtended .default [.PER, .LIN, .WN, .C] ++ startExtra .default ∈ startGroups .default [.PER, .LIN, .WN, .C] :=
  ⟨by decide, by simp [startGroups]⟩

/-- C91. Each of the other rules loses this in one step: `replace_base` from `PER + LIN * (PER + C)` (replacing `LIN` by `C`), `replace_with_singleton` from
`PER + (WN + LIN) * (PER + C)`, `remove_some_term` from `LIN * (PER + LIN * PER)`; and so does `try_higher_curves` where there are two `SE`, from
`LIN * (SE + SE)`. -/
theorem C91_others : ∀ p ∈ [(RuleName.replace_base, comm .sum [(.PER, 1)] [comm .prod [(.LIN, 1)] [comm .sum [(.PER, 1), (.C, 1)] []]]),
    (.replace_with_singleton, comm .sum [(.PER, 1)] [comm .prod [] [comm .sum [(.WN, 1), (.LIN, 1)] [], comm .sum [(.PER, 1), (.C, 1)] []]]),
    (.remove_some_term, comm .prod [(.LIN, 1)] [comm .sum [(.PER, 1)] [comm .prod [(.LIN, 1), (.PER, 1)] []]]),
    (.try_higher_curves, comm .prod [(.LIN, 1)] [comm .sum [(.SE, 2)] []])],
    (Base.SE ∉ bases p.2 → Sound .default p.2) ∧ simplify .default p.2 = p.2 ∧
    ∃ r ∈ expandNamed .default ⟨[.WN, .C, .LIN, .PER], [.WN, .LIN, .PER]⟩ [p.1] p.2, ¬ Same (simplify .default r) r := by
  have fin : ∀ p : RuleName × KE, (expandNamed .default ⟨[.WN, .C, .LIN, .PER], [.WN, .LIN, .PER]⟩ [p.1] p.2).any (fun r => !keq (simplify .default r) r) = true →
      ∃ r ∈ expandNamed .default ⟨[.WN, .C, .LIN, .PER], [.WN, .LIN, .PER]⟩ [p.1] p.2, ¬ Same (simplify .default r) r := by
    intro p h
    obtain ⟨r, hr, e⟩ := List.any_eq_true.1 h
    refine ⟨r, hr, fun hs => ?_⟩
    rw [(keq_iff _ _).2 hs] at e
    simp at e
  intro p hp
  simp only [List.mem_cons, List.not_mem_nil, or_false] at hp
  rcases hp with rfl | rfl | rfl | rfl
  · exact ⟨fun _ => ⟨⟨by decide, by decide⟩, by decide, show ∀ x ∈ [Base.PER, .LIN, .PER, .C], _ by decide, by rfl, by decide⟩, by rfl, fin _ (by decide +kernel)⟩
  · exact ⟨fun _ => ⟨⟨by decide, by decide⟩, by decide, show ∀ x ∈ [Base.PER, .WN, .LIN, .PER, .C], _ by decide, by rfl, by decide⟩, by rfl,
      fin _ (by decide +kernel)⟩
  · exact ⟨fun _ => ⟨⟨by decide, by decide⟩, by decide, show ∀ x ∈ [Base.LIN, .PER, .LIN, .PER], _ by decide, by rfl, by decide⟩, by rfl,
      fin _ (by decide +kernel)⟩
  · exact ⟨fun h => absurd h (by decide), by rfl, fin _ (by decide +kernel)⟩

section
variable [LinearOrder α] [Mul α] [One α] [Add α]

/-- C91. With windows or without, a model found by a growing search in whose expression a sum or product has no base terms of its own cannot be interpreted. -/
theorem C91_raises (comb : α → α → α) (fmt : α → String) (ho : o.OK cfg) (hr : ∀ n ∈ rules, n.growing cfg = true) (starts : List KE)
    (hst : ∀ k ∈ starts, Sound cfg k) (ker : D → GK α) (hfit : FitsKernel cfg ker fit)
    (v : Bool) (n : Nat) (beam : BeamArg) (s : St KE D R) (h : explore (keEnv cfg o rules le score fit) v starts n beam = .ok s)
    (m : Mod KE D R) (hm : m ∈ s.sorted) (hown : allNodes ownNode m.kex = false) :
    interpret comb fmt cfg (ker m.data) m.kex = .error (.form .assertion) := by
  obtain ⟨h1, _, h2⟩ := C27_all_models _ _ _ _ _ _ h
  have hreach := C34_reachable cfg o ho rules le score fit v _ n beam s h m (h1.subset hm)
  obtain ⟨⟨g1, g2, g3, g4, _⟩, _⟩ := C91_stable cfg rules hr starts hst _ hreach
  obtain ⟨t, ht, hall⟩ := C75_raises comb fmt cfg m.kex g1.2 g1.1 g2 g3 (by rw [g4]; exact keq_refl _) hown
  rw [hfit _ _ _ (h2 m hm).1] at ht
  exact hall _ (Except.ok.inj ht)

/-- C91. Models found by a growing search without window rules: exactly those in whose expression every sum and product has base terms of its own are
interpreted, whatever values their parameters were given; interpreting any other raises `AssertionError`. -/
theorem C91_interpret (comb : α → α → α) (fmt : α → String)
    (ho : o.OK cfg) (hr : ∀ n ∈ rules, n.growing cfg = true ∧ n.windowless = true) (starts : List KE)
    (hst : ∀ k ∈ starts, Sound cfg k ∧ CC.CW ∉ changes k) (ker : D → GK α) (hfit : FitsKernel cfg ker fit)
    (v : Bool) (n : Nat) (beam : BeamArg) (s : St KE D R) (h : explore (keEnv cfg o rules le score fit) v starts n beam = .ok s)
    (m : Mod KE D R) (hm : m ∈ s.sorted) :
    (allNodes ownNode m.kex = true ∧ ∃ f ss, fitParams cfg (ker m.data) m.kex = .ok f ∧ Carries f (ker m.data) ∧
      List.Forall₂ (fun c t => Relates cfg c t) (comps f) ss ∧
      interpret comb fmt cfg (ker m.data) m.kex = .ok ("The fit kernel consists of " ++ toString (comps f).length ++ " components:" ++
        String.join (ss.map (fun t => "\n\t" ++ t.text fmt)))) ∨
    (allNodes ownNode m.kex = false ∧ interpret comb fmt cfg (ker m.data) m.kex = .error (.form .assertion)) := by
  obtain ⟨h1, _, h2⟩ := C27_all_models _ _ _ _ _ _ h
  have hreach := C34_reachable cfg o ho rules le score fit v _ n beam s h m (h1.subset hm)
  obtain ⟨⟨g1, g2, g3, g4, _⟩, _⟩ := C91_stable cfg rules (fun n hn => (hr n hn).1) starts (fun k hk => (hst k hk).1) _ hreach
  have h8 := C90_windowless cfg rules (fun n hn => (hr n hn).2) starts (fun k hk => ⟨(hst k hk).1.1, (hst k hk).2⟩) _ hreach
  have hke : keq (simplify cfg m.kex) m.kex = true := by rw [g4]; exact keq_refl _
  have hk := hfit _ _ _ (h2 m hm).1
  cases hown : allNodes ownNode m.kex with
  | true =>
    left
    obtain ⟨t, ht, hall⟩ := C75_points_partial (R := Int) (fun _ => 0) (fun _ _ => 0) comb fmt cfg m.kex g1.2 g1.1 g2 g3 hke hown h8
    rw [hk] at ht
    obtain ⟨f, ss, f1, f2, f3, _, f5⟩ := hall _ (Except.ok.inj ht)
    exact ⟨rfl, f, ss, f1, f2, f3, f5⟩
  | false =>
    exact Or.inr ⟨rfl, C91_raises cfg o rules le score fit comb fmt ho (fun n hn => (hr n hn).1) starts (fun k hk => (hst k hk).1) ker hfit v n beam s h m hm hown⟩

/-- Start kernels of the next example. -/
private def exStarts : List KE := [comm .sum [(.PER, 1), (.C, 1)] [], comm .sum [(.LIN, 1)] []]

/-- Two rounds from `PER + C` and `LIN`, with change points; models of both sorts are found. -/
example : (∀ n ∈ [RuleName.plus_base, .times_base, .times_shifted_base, .change_point_linear], n.growing .default = true ∧ n.windowless = true) ∧
    (∀ k ∈ exStarts, Sound .default k ∧ CC.CW ∉ changes k) ∧
    ∃ s, explore (keEnv .default ⟨[.WN, .C, .LIN, .PER], [.WN, .LIN, .PER]⟩ [.plus_base, .times_base, .times_shifted_base, .change_point_linear]
        (fun a b => decide (a ≤ b)) (fun _ => 0) (oneFit .default)) false exStarts ((2 : Nat) : Int) (.list [2, 3]) = .ok s ∧
      (∃ m ∈ s.sorted, allNodes ownNode m.kex = true) ∧ ∃ m ∈ s.sorted, allNodes ownNode m.kex = false := by
  refine ⟨by decide, ?_, ?_⟩
  · intro k hk
    simp only [exStarts, List.mem_cons, List.not_mem_nil, or_false] at hk
    rcases hk with rfl | rfl
    · exact ⟨⟨⟨by decide, by decide⟩, by decide, show ∀ x ∈ [Base.PER, .C], _ by decide, by rfl, by decide⟩, by decide⟩
    · exact ⟨⟨⟨by decide, by decide⟩, by decide, show ∀ x ∈ [Base.LIN], _ by decide, by rfl, by decide⟩, by decide⟩
  · have hok : (match explore (keEnv .default ⟨[.WN, .C, .LIN, .PER], [.WN, .LIN, .PER]⟩ [.plus_base, .times_base, .times_shifted_base, .change_point_linear]
        (fun a b => decide (a ≤ b)) (fun _ => 0) (oneFit .default)) false exStarts ((2 : Nat) : Int) (.list [2, 3]) with
        | .ok s => s.sorted.any (fun m => allNodes ownNode m.kex) && s.sorted.any (fun m => !allNodes ownNode m.kex)
        | .error _ => false) = true := by decide +kernel
    split at hok
    · rename_i s hs
      simp only [Bool.and_eq_true, List.any_eq_true, Bool.not_eq_true'] at hok
      exact ⟨s, hs, hok.1, hok.2⟩
    · simp at hok

end

end GPyABCD
