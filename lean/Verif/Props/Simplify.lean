import Verif.Lemmas.Empties
import Verif.Lemmas.Construct

/-!
# Equality and simplification (C01, C03 – C07, C12)

Statements only use the model of the code (`keq`, `simplify`, `containsBase`, `wf` = "can exist as a
Python object") and the vocabulary of `Verif.Spec`.
-/

namespace GPyABCD
open KE

/-! ## C01 -/

/-- C01: `==` holds exactly between expressions that are the same up to the order of the terms. -/
theorem C01_eq_iff_same (a b : KE) : keq a b = true ↔ Same a b := keq_iff a b

/-- C01: reflexive. -/
theorem C01_eq_refl (a : KE) : keq a a = true := keq_refl a

/-- C01: symmetric. -/
theorem C01_eq_symm (a b : KE) (h : keq a b = true) : keq b a = true := keq_symm h

/-- C01: transitive. -/
theorem C01_eq_trans (a b c : KE) (h₁ : keq a b = true) (h₂ : keq b c = true) : keq a c = true :=
  keq_trans h₁ h₂

-- two differently ordered writings of PER + LIN + LIN*SE + CP(C, WN) are equal, a different one is not
example : keq (comm .sum [(.PER, 1), (.LIN, 1)] [comm .prod [(.LIN, 1), (.SE, 1)] [], change .CP (base .C) (base .WN)])
    (comm .sum [(.LIN, 1), (.PER, 1)] [change .CP (base .C) (base .WN), comm .prod [(.SE, 1), (.LIN, 1)] []]) = true ∧
    keq (comm .sum [] [change .CP (base .C) (base .WN)]) (comm .sum [] [change .CP (base .WN) (base .C)]) = false := by
  decide

/-! ## C03 -/

/-- C03: canonical base terms at every node of a constructed or simplified expression. -/
theorem C03_canonical (cfg : Cfg) (k : KE) (hw : wf k = true) :
    allNodes (canonNode cfg) (simplify cfg k) = true := canon_simplify cfg k hw

-- a raw tree violating every rule meets the hypothesis, and is not canonical before simplification
example :
    let k := comm .sum [(.WN, 2), (.C, 2), (.LIN, 1)] [comm .prod [(.SE, 2), (.C, 1)] [], comm .prod [(.WN, 2), (.PER, 1), (.LIN, 1)] []]
    wf k = true ∧ allNodes (canonNode .default) k = false ∧
      simplify .default k = comm .sum [(.WN, 1), (.LIN, 1), (.SE, 1)] [comm .prod [(.WN, 1), (.LIN, 1)] []] := by
  refine ⟨by decide, by decide, by rfl⟩

/-! ## C04 -/

/-- C04: no one-term sum or product strictly below the root of a simplified expression. -/
theorem C04_no_wrappers (cfg : Cfg) (k : KE) (hw : wf k = true) :
    allBelow (fun n => !n.isSingleton) (simplify cfg k) = true := allBelow_simplify cfg k hw

example :
    let k := comm .prod [(.LIN, 1)] [comm .sum [] [comm .prod [(.SE, 1)] []], change .CP (comm .sum [(.PER, 1)] []) (base .WN)]
    wf k = true ∧ allBelow (fun n => !n.isSingleton) k = false ∧
      simplify .default k = comm .prod [(.LIN, 1), (.SE, 1)] [change .CP (base .PER) (base .WN)] := by
  refine ⟨by decide, by decide, by rfl⟩

/-! ## C05 -/

/-- C05 is false in general: building `SumKE([], [ProductKE([], [SumKE(['PER', 'SE'])])])` leaves a sum
directly inside a sum, and simplifying once more changes the expression. -/
theorem C05_not_idempotent : ∃ k : KE, wf k = true ∧ noEmpty k = true ∧
    keq (simplify .default (simplify .default k)) (simplify .default k) = false :=
  ⟨comm .sum [] [comm .prod [] [comm .sum [(.PER, 1), (.SE, 1)] []]], by decide⟩

/-- C05, exactly when it holds: a second simplification changes nothing iff the first one left no sum
directly in a sum and no product directly in a product. -/
theorem C05_idempotent_iff (cfg : Cfg) (k : KE) (hw : wf k = true) :
    keq (simplify cfg (simplify cfg k)) (simplify cfg k) = true ↔ alternating (simplify cfg k) = true := by
  constructor
  · intro h
    by_contra ha
    have h1 := nodes_simplify_lt cfg _ (wf_simplify cfg k hw) (by simpa using ha)
    have h2 := nodes_same ((keq_iff _ _).1 h)
    omega
  · intro h
    rw [simplify_of_normal ((normal_simplify_iff cfg k hw).2 h)]
    exact keq_refl _

/-- C05 for the constructors (partial: the full statement has no condition on the terms): a sum or
product of fully simplified terms, none of which is a one-composite wrapper, is stable under
simplification. -/
theorem C05_idempotent_partial (cfg : Cfg) (op : Op) (bts : Counter) (cts : List KE)
    (hw : wf (comm op bts cts) = true)
    (h : ∀ k ∈ cts, normal cfg k = true ∧ isWrapper k = false) :
    simplify cfg (mkC cfg op bts cts) = mkC cfg op bts cts := by
  have hw' := wf_comm.1 hw
  exact simplify_of_normal (normal_mkC hw'.1 hw'.2.1 (fun k hk => ⟨(hw'.2.2 k hk).1, h k hk⟩))

/-- C05 for change operators (partial for the same reason): with fully simplified branches, wrappers
included, the result is stable. -/
theorem C05_idempotent_change_partial (cfg : Cfg) (c : CC) (l r : KE)
    (hl : normal cfg l = true) (hr : normal cfg r = true) :
    simplify cfg (mkChange cfg c l r) = mkChange cfg c l r := simplify_of_normal (normal_mkChange hl hr)

/-- C05, always: repeating simplification reaches a fully simplified expression, on which it does
nothing, after at most one more pass than there are sums and products. -/
theorem C05_stabilises (cfg : Cfg) (k : KE) (hw : wf k = true) :
    ∃ m ≤ nodes k, ∀ n, (simplify cfg)^[m + 1 + n] k = (simplify cfg)^[m + 1] k := by
  obtain ⟨m, hm, h⟩ := iterate_stabilises cfg _ k hw (Nat.le_refl _)
  refine ⟨m, Nat.le_trans hm (nodes_simplify_le cfg k hw), fun n => ?_⟩
  induction n with
  | zero => rfl
  | succ n ih => rw [← Nat.add_assoc, Function.iterate_succ_apply', ih, simplify_of_normal h]

example :
    let a := comm .sum [(.PER, 1), (.LIN, 1)] []
    let b := change .CW (base .C) (comm .prod [(.LIN, 2)] [])
    wf (comm .prod [(.SE, 3)] [a, b]) = true ∧ normal .default a = true ∧ isWrapper a = false ∧
      normal .default b = true ∧ isWrapper b = false := by decide

/-! ## C06 -/

/-- C06 is false in general: `ProductKE([], [ProductKE(['C'])])` loses its only factor. -/
theorem C06_can_empty : ∃ k : KE, wf k = true ∧ noEmpty k = true ∧ noEmpty (simplify .default k) = false :=
  ⟨comm .prod [] [comm .prod [(.C, 1)] []], by decide⟩

/-- C06 (partial: the full statement has no last hypothesis): no sum or product becomes empty, if no
product made of constants only sits directly in a product. -/
theorem C06_never_empties_partial (cfg : Cfg) (k : KE) (hw : wf k = true) (he : noEmpty k = true)
    (h : noConstProd k = true) : noEmpty (simplify cfg k) = true := noEmpty_simplify cfg k hw he h

/-- C06, simpler sufficient conditions: no product sits directly in a product, or there is no constant. -/
theorem C06_never_empties_simple_partial (cfg : Cfg) (k : KE) (hw : wf k = true) (he : noEmpty k = true)
    (h : altProd k = true ∨ Base.C ∉ bases k) : noEmpty (simplify cfg k) = true :=
  noEmpty_simplify cfg k hw he (h.elim noConstProd_of_altProd (noConstProd_of_noC hw he))

/-- C06, the exact condition: simplifying leaves an empty sum or product if and only if some product that is not directly inside a product consists of
constants and at least one product, all of these of constants only. -/
theorem C06_empties_iff (cfg : Cfg) (k : KE) (hw : wf k = true) (he : noEmpty k = true) :
    noEmpty (simplify cfg k) = false ↔ vanishes false k = true := by
  rw [(empties_main cfg k hw he).1]; simp

-- a product of constants inside a product that has more, a sum around: nothing is emptied, though `noConstProd` does not hold
example :
    let k := comm .sum [] [comm .prod [(.SE, 1)] [comm .prod [] [comm .prod [(.C, 1)] []]]]
    wf k = true ∧ noEmpty k = true ∧ noConstProd k = false ∧ vanishes false k = false ∧ keq (simplify .default k) (comm .sum [(.SE, 1)] []) = true := by
  decide

-- a vanishing product deep inside
example :
    let k := change .CP (base .LIN) (comm .sum [(.SE, 1)] [comm .prod [(.C, 1)] [comm .prod [(.C, 1)] [comm .sum [(.C, 2)] []], comm .prod [(.C, 2)] []]])
    wf k = true ∧ noEmpty k = true ∧ vanishes false k = true := by
  decide

-- products in products, with constants around, meet the hypothesis
example :
    let k := comm .prod [(.C, 1)] [comm .prod [(.C, 1), (.LIN, 1)] [], comm .sum [(.C, 1)] []]
    wf k = true ∧ noEmpty k = true ∧ noConstProd k = true ∧ altProd k = false ∧
      simplify .default k = comm .prod [(.LIN, 1)] [] := by
  refine ⟨by decide, by decide, by decide, by decide, by rfl⟩

example :
    let k := comm .prod [(.C, 1)] [comm .sum [] [comm .sum [(.C, 2)] []], change .CP (comm .sum [(.C, 1)] []) (base .WN)]
    wf k = true ∧ noEmpty k = true ∧ altProd k = true ∧
      simplify .default k = comm .prod [] [change .CP (base .C) (base .WN)] := by
  refine ⟨by decide, by decide, by decide, by rfl⟩

/-! ## C07 -/

/-- C07: every base kernel occurrence of the result is one of the original. -/
theorem C07_bases (cfg : Cfg) (k : KE) (hw : wf k = true) :
    (bases (simplify cfg k)).Subperm (bases k) := bases_simplify cfg k hw

/-- C07: the change operators are exactly those of the original. -/
theorem C07_changes (cfg : Cfg) (k : KE) (hw : wf k = true) :
    (changes (simplify cfg k)).Perm (changes k) := changes_simplify cfg k hw

/-- C07: neither the number of base kernels nor the number of sums and products grows. -/
theorem C07_size (cfg : Cfg) (k : KE) (hw : wf k = true) :
    (bases (simplify cfg k)).length ≤ (bases k).length ∧ nodes (simplify cfg k) ≤ nodes k :=
  ⟨(bases_simplify cfg k hw).length_le, nodes_simplify_le cfg k hw⟩

example :
    let k := comm .prod [(.WN, 1), (.PER, 1)] [comm .prod [(.SE, 2)] [], change .CP (base .PER) (base .WN)]
    wf k = true ∧ bases k = [.WN, .PER, .SE, .SE, .PER, .WN] ∧
      bases (simplify .default k) = [.WN, .PER, .WN] ∧ changes (simplify .default k) = [.CP] := by decide

/-! ## C12 -/

/-- C12: `contains_base` reports exactly the occurring base kernels. -/
theorem C12_contains_base (qs : List Base) (k : KE) (hw : wf k = true) :
    containsBase qs k = true ↔ ∃ q ∈ qs, q ∈ bases k := containsBase_iff qs k hw

example :
    let k := comm .sum [(.PER, 1)] [change .CP (base .C) (comm .prod [(.LIN, 2)] [])]
    wf k = true ∧ containsBase [.SE, .LIN] k = true ∧ containsBase [.SE, .WN] k = false := by decide

end GPyABCD
