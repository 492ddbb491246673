import Verif.Lemmas.PrintKernel
import Verif.Lemmas.PrintRepr

/-!
# Properties: printed forms (C09, C10)
-/

namespace GPyABCD
open KE Params Print
open scoped Pointwise

/-! ## C09 -/

/-- C09. For every expression that simplification leaves equal, evaluating its `repr` gives that expression back, terms in the same order included. -/
theorem C09_roundtrip (cfg : Cfg) (k : KE) (hk : k.isBase = false) (hw : wf k = true) (h : keq (simplify cfg k) k = true) :
    evalRepr cfg k = some k := by
  rw [evalRepr, read_repr, Option.bind_some, eval_normal k (normal_of_stable hw h), Option.bind_some]
  cases k <;> simp [isBase] at hk <;> rfl

/-- C09. So different such expressions have different `repr`s. -/
theorem C09_injective (cfg : Cfg) (k k' : KE) (hk : k.isBase = false) (hk' : k'.isBase = false) (hw : wf k = true) (hw' : wf k' = true)
    (h : keq (simplify cfg k) k = true) (h' : keq (simplify cfg k') k' = true) (e : pyRepr k = pyRepr k') : k = k' := by
  have h1 := C09_roundtrip cfg k hk hw h
  have h2 := C09_roundtrip cfg k' hk' hw' h'
  rw [evalRepr, e] at h1
  rw [evalRepr, h1] at h2
  exact Option.some.inj h2

/-- An expression with every kind of node. -/
def printExample : KE :=
  comm .sum [(.WN, 1), (.SE, 2)] [comm .prod [(.PER, 1), (.LIN, 2)] [comm .sum [(.SE, 1), (.C, 1)] []], change .CW (base .LIN) (comm .prod [(.SE, 1), (.PER, 1)] [])]

set_option maxRecDepth 8000 in
example : printExample.isBase = false ∧ wf printExample = true ∧ keq (simplify .default printExample) printExample = true := by decide

set_option maxRecDepth 20000 in
example : String.ofList (pyRepr printExample) =
    "SumKE(['WN', 'SE', 'SE'], [ProductKE(['PER', 'LIN', 'LIN'], [SumKE(['SE', 'C'])]), ChangeKE('CW', 'LIN', ProductKE(['SE', 'PER']))])" := by rfl

set_option maxRecDepth 8000 in
/-- C09, why stability is needed: an expression a constructor returns whose `repr` evaluates to an expression that is not equal to it. -/
theorem C09_unstable : ∃ k k' : KE, (∃ cs, wf (comm .sum [] cs) = true ∧ k = mkC .default .sum [] cs) ∧ evalRepr .default k = some k' ∧ keq k' k = false :=
  ⟨mkC .default .sum [] [comm .prod [] [comm .sum [(.PER, 1), (.SE, 1)] []]], comm .sum [(.PER, 1), (.SE, 1)] [],
    ⟨_, by decide, rfl⟩, by rfl, by decide⟩

/-! ## C10 -/

/-- C10. The text that `to_kernel_unrefined` evaluates is one Python expression, and it has the meaning of the printed expression whatever the base kernels,
the change operators, `+` and `*` are, as long as `+` and `*` are associative: brackets are where they are needed. -/
theorem C10_printed (k : KE) (hs : ∀ x ∈ bases k, x.isSigmoid = false) (he : noEmpty k = true) :
    ∃ e, read (subCalls (pyStr k)) = some e ∧
      ∀ (X : Type) (A : Alg X), A.Assoc → ∃ x, meaning A k = some x ∧ evalA A e = some x := read_str k hs he

/-- C10. In particular it denotes the family of covariances of the expression. -/
theorem C10_family (k : KE) (hs : ∀ x ∈ bases k, x.isSigmoid = false) (he : noEmpty k = true) (I : Interp) :
    (read (subCalls (pyStr k))).bind (evalA (famAlg I)) = some (den I k) := by
  obtain ⟨e, h1, h2⟩ := read_str k hs he
  obtain ⟨x, h3, h4⟩ := h2 Fam (famAlg I) (famAlg_assoc I)
  rw [meaning_fam I k he] at h3
  rw [h1, Option.bind_some, h4, ← h3]

/-- C10. `to_kernel_unrefined()` and `to_kernel()` both build a kernel, and the two can take on the same covariances, those of the expression: the variances
that `to_kernel` unlinks in products were redundant. -/
theorem C10_kernels (cfg : Cfg) (k : KE) (hs : ∀ x ∈ bases k, x.isSigmoid = false) (he : noEmpty k = true) (V : Fam) (hV : V * V = V)
    (shapes : Base → Fam) (I : Interp) (hI : ∀ b, b.isSigmoid = false → I.F b = V * shapes b) :
    ∃ g g', unrefined cfg k = some g ∧ toKernel cfg k = .ok g' ∧
      kernelFam V shapes I.chg g = den I k ∧ kernelFam V shapes I.chg g' = den I k := by
  obtain ⟨e, h1, h2⟩ := read_str k hs he
  obtain ⟨g, h3, h4⟩ := h2 _ (kernelAlg cfg) (kernelAlg_assoc cfg)
  obtain ⟨g', h5, h6⟩ := fam_toKernel hV cfg I hI rfl k hs he
  refine ⟨g, g', by rw [unrefined, h1, Option.bind_some, h4], h5, ?_, h6⟩
  have := fam_meaning cfg I hI rfl k hs
  rw [h3, meaning_fam I k he] at this
  exact Option.some.inj this

set_option maxRecDepth 8000 in
example : (∀ x ∈ bases printExample, x.isSigmoid = false) ∧ noEmpty printExample = true := by decide

example : positives * positives = positives := positives_mul

example : String.ofList (pyStr printExample) = "SE + SE + WN + PER * LIN * LIN * (SE + C) + CW(LIN, PER * SE)" := by rfl

example : String.ofList (subCalls (pyStr printExample)) =
    "SE() + SE() + WN() + PER() * LIN() * LIN() * (SE() + C()) + CW(LIN(), PER() * SE())" := by
  decide +kernel

/-- C10, why sigmoids are excluded: the substitution writes `Sr` as `S()r`, which is no expression. -/
theorem C10_sigmoids : ∃ k : KE, noEmpty k = true ∧ wf k = true ∧ String.ofList (subCalls (pyStr k)) = "LIN() + S()r" ∧ read (subCalls (pyStr k)) = none := by
  refine ⟨comm .sum [(.LIN, 1), (.Sr, 1)] [], by decide, by decide, ?_, ?_⟩
  · decide +kernel
  · decide +kernel

end GPyABCD
