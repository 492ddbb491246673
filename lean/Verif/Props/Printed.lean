import Verif.Lemmas.PrintInj
import Verif.Props.Expand

/-!
# Results of an expansion print differently (C26)
-/

namespace GPyABCD
open KE Print

/-- C26, printed forms: simplified expressions without sigmoids that print alike are equal; the root is a change operator, a sum of one base kernel or
has several terms, as for all results of expansions. -/
theorem C26_printed (cfg : Cfg) (k k' : KE) (hn : normal cfg k = true) (hn' : normal cfg k' = true) (he : noEmpty k = true) (he' : noEmpty k' = true)
    (hs : NoSig k) (hs' : NoSig k') (hb : k.isBase = false) (hb' : k'.isBase = false)
    (hr : isSingleton k = false ∨ ∃ b, k = comm .sum [(b, 1)] []) (hr' : isSingleton k' = false ∨ ∃ b, k' = comm .sum [(b, 1)] [])
    (h : pyStr k = pyStr k') : Same k k' := by
  obtain ⟨h1, _, h2, h3⟩ := normal_iff.1 hn
  obtain ⟨h1', _, h2', h3'⟩ := normal_iff.1 hn'
  exact same_of_str hb hb' he he' hs hs' (good_root h1 he h2 h3 hr) (good_root h1' he' h2' h3' hr') h

/-- C26, printed forms of the results of an expansion (partial: the full statement has no condition on the two results; outside of it the printed
form does not determine the expression, `C26_nested_alike`):
different results in which kinds alternate print differently. -/
theorem C26_print_partial (cfg : Cfg) (o : Orders) (ho : o.OK cfg) (rules : List RuleName) (k : KE) (hk : settled cfg k = true)
    (hb : k.isBase = false) (hn : NoSig k) :
    (expandNamed cfg o rules k).Pairwise (fun r r' => alternating r = true → alternating r' = true → pyStr r ≠ pyStr r') := by
  have hp := C19_pairwise_different cfg (rules.map (RuleName.rule cfg o)) k
  rw [List.pairwise_iff_getElem] at hp ⊢
  intro i j hi hj hij ha ha' e
  refine hp i j hi hj hij ?_
  have key : ∀ r ∈ expandNamed cfg o rules k, alternating r = true → normal cfg r = true ∧ noEmpty r = true ∧ NoSig r ∧ r.isBase = false ∧
      (isSingleton r = false ∨ ∃ b, r = comm .sum [(b, 1)] []) := by
    intro r hr ha
    obtain ⟨hs, h2, h3⟩ := C25_step_partial cfg o ho rules k hk hb hn r hr
    obtain ⟨q1, q2, q3, q4⟩ := settled_iff.1 hs
    refine ⟨normal_iff.2 ⟨q1, q3, q4, ha⟩, q2, h3, h2, ?_⟩
    rcases (C24_shape cfg _ (C20_builtin_rules cfg o ho rules) k ⟨(settled_iff.1 hk).1, hb⟩ r hr).2 with ⟨c, l, r', rfl⟩ | h | ⟨_, _, _, rfl, h⟩
    · exact Or.inl rfl
    · exact Or.inr h
    · exact Or.inl h
  obtain ⟨a1, a2, a3, a4, a5⟩ := key _ (List.getElem_mem hi) ha
  obtain ⟨b1, b2, b3, b4, b5⟩ := key _ (List.getElem_mem hj) ha'
  exact C26_printed cfg _ _ a1 b1 a2 b2 a3 b3 a4 b4 a5 b5 e

/-- C26, why kinds must alternate: PER * (SE * LIN), which expanding PER * (PER + SE * LIN) returns, prints like the product of the
three, which another expansion may return. -/
theorem C26_nested_alike : let flat := comm .prod [(.PER, 1), (.LIN, 1), (.SE, 1)] []
    settled .default flat = true ∧ ∃ r ∈ expandNamed .default ⟨baseKerns, [.WN, .LIN, .SE, .PER]⟩ [.remove_some_term]
      (comm .prod [(.PER, 1)] [comm .sum [(.PER, 1)] [comm .prod [(.LIN, 1), (.SE, 1)] []]]), ¬ Same r flat ∧ pyStr r = pyStr flat := by
  refine ⟨by decide, ?_⟩
  have h : (expandNamed .default ⟨baseKerns, [.WN, .LIN, .SE, .PER]⟩ [.remove_some_term]
      (comm .prod [(.PER, 1)] [comm .sum [(.PER, 1)] [comm .prod [(.LIN, 1), (.SE, 1)] []]])).any
    (fun r => !keq r (comm .prod [(.PER, 1), (.LIN, 1), (.SE, 1)] []) && pyStr r == pyStr (comm .prod [(.PER, 1), (.LIN, 1), (.SE, 1)] [])) = true := by decide
  obtain ⟨r, hr, e⟩ := List.any_eq_true.1 h
  simp only [Bool.and_eq_true, Bool.not_eq_true', beq_iff_eq] at e
  exact ⟨r, hr, fun hs => by rw [(keq_iff _ _).2 hs] at e; simp at e, e.2⟩

-- the hypotheses of C26_printed hold of PER * (WN + CP(LIN * SE, C)) and of its likes
example : let k := comm .prod [(.PER, 1)] [comm .sum [(.WN, 1)] [change .CP (comm .prod [(.LIN, 1), (.SE, 1)] []) (base .C)]]
    normal .default k = true ∧ noEmpty k = true ∧ isSingleton k = false ∧ String.ofList (pyStr k) = "PER * (WN + CP(SE * LIN, C))" := by
  decide

end GPyABCD
