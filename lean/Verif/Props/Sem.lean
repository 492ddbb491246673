import Verif.Lemmas.Stationary

/-!
# What expressions denote (C02, C11)

`den (realI cfg V) k` is the set of covariance functions of `k`, with the real kernel formulas of
`Verif.Model.Kernels` and variances in `V` (`posV` positive, `nonnegV` also zero).
-/

namespace GPyABCD
open scoped Pointwise
open KE Kern

/-! ## C02 -/

/-- C02 (partial: the full statement has neither the condition on emptied products, which C06 shows
can be violated, nor the one on LIN with C, see `C02_lin_c_changes`): construction and simplification
keep the set of representable covariances, for positive variances. -/
theorem C02_family_partial (cfg : Cfg) (k : KE) (hw : wf k = true) (he : noEmpty k = true)
    (he' : noEmpty (simplify cfg k) = true)
    (h : cfg.linOffset = false ∨ Base.C ∉ bases k ∨ Base.LIN ∉ bases k) :
    den (realI cfg posV) (simplify cfg k) = den (realI cfg posV) k :=
  den_simplify (realLaws varSet_pos) cfg k hw he he' (h.imp_right (Or.imp_right Or.inl))

/-- C02 without the condition on LIN with C: dropping constants beside LIN is all that changes. With LIN read as LIN plus a constant, construction and
simplification keep the set of covariances of every expression that they do not empty. -/
theorem C02_roomy (cfg : Cfg) (k : KE) (hw : wf k = true) (he : noEmpty k = true) (he' : noEmpty (simplify cfg k) = true) :
    den (roomyI cfg posV) (simplify cfg k) = den (roomyI cfg posV) k :=
  den_simplify (roomyLaws varSet_pos) cfg k hw he he' (roomy_safe varSet_pos _)

-- a sum and a product of sums where LIN meets C
example : let k := comm .sum [(.LIN, 1), (.C, 2)] [comm .prod [(.PER, 1)] [comm .sum [(.LIN, 2), (.C, 1), (.WN, 2)] []]]
    wf k = true ∧ noEmpty k = true ∧ noEmpty (simplify .default k) = true ∧ keq (simplify .default k) k = false := by decide

/-- C02 without the condition on LIN with C (partial): simplification adds no new covariance, when
variances may also be zero. -/
theorem C02_no_new_covariance_partial (cfg : Cfg) (k : KE) (hw : wf k = true) (he : noEmpty k = true)
    (he' : noEmpty (simplify cfg k) = true) :
    den (realI cfg nonnegV) (simplify cfg k) ⊆ den (realI cfg nonnegV) k := by
  have hI : Laws (realI cfg nonnegV) := realLaws varSet_nonneg
  rw [den_eq_den' hI _ he, den_eq_den' hI _ he']
  exact den'_simplify hI (KE.Cong.sub _ chgFam_mono) (baseOK_sub hI cfg zero_mem_nsmul_C) k hw (fun _ _ => trivial)

/-- C02, the documented exception: with the offset flag on, `SumKE(['LIN', 'C'])` is simplified to LIN,
which cannot represent `x*y + 1`. -/
theorem C02_lin_c_changes : ∃ k : KE, wf k = true ∧ noEmpty k = true ∧ noEmpty (simplify .default k) = true ∧
    ∃ f ∈ den (realI .default posV) k, f ∉ den (realI .default nonnegV) (simplify .default k) := by
  refine ⟨comm .sum [(.LIN, 1), (.C, 1)] [], by decide, by decide, by decide, fun x y => x * y + 1, ?_, ?_⟩
  · simp only [den, denL, opFold, Counter.elements, List.flatMap_cons, List.flatMap_nil, Int.toNat_one,
      List.replicate_one, List.append_nil, List.cons_append, List.nil_append, List.map_cons, List.map_nil,
      List.sum_cons, List.sum_nil, add_zero]
    refine Set.mem_add.2 ⟨linearOffset 1 0, ⟨1, mem_posV.2 one_pos, 0, fun _ => rfl, rfl⟩, bias 1,
      ⟨1, mem_posV.2 one_pos, rfl⟩, ?_⟩
    funext x y; simp [linearOffset, bias]
  · have e : simplify .default (comm .sum [(.LIN, 1), (.C, 1)] []) = comm .sum [(.LIN, 1)] [] := by rfl
    rw [e]
    simp only [den, denL, opFold, Counter.elements, List.flatMap_cons, List.flatMap_nil, Int.toNat_one,
      List.replicate_one, List.append_nil, List.map_cons, List.map_nil, List.sum_cons, List.sum_nil, add_zero]
    rintro ⟨v, _, o, _, h⟩
    have h00 := congrFun (congrFun h 0) 0
    have h11 := congrFun (congrFun h 1) (-1)
    have h01 := congrFun (congrFun h 0) 1
    simp only [linearOffset] at h00 h11 h01
    have hv : v = 1 := by nlinarith
    subst hv
    nlinarith

-- a sum with repeated C and WN, nested products, a product with WN, PER and a change operator
example :
    let k := comm .sum [(.WN, 2), (.C, 2)] [comm .prod [(.SE, 2), (.C, 1)] [comm .sum [(.PER, 1)] []],
      comm .prod [(.WN, 1), (.PER, 2), (.SE, 1)] [change .CP (comm .sum [(.C, 1)] []) (base .PER)]]
    wf k = true ∧ noEmpty k = true ∧ noEmpty (simplify .default k) = true ∧ Base.LIN ∉ bases k ∧
      keq (simplify .default k) k = false := by decide

/-! ## C11 -/

/-- C11: every covariance of an expression reported stationary depends only on the difference of the
inputs. -/
theorem C11_stationary_sound (cfg : Cfg) (V : Set ℝ) (k : KE) (hw : wf k = true) (h : isStationary k = true) :
    ∀ f ∈ den (realI cfg V) k, Stat f :=
  have h' := (stationary_iff k hw).1 h
  stat_den k h'.1 h'.2

/-- C11: an expression is reported stationary exactly when it has no change operator and none of LIN and
the sigmoids. -/
theorem C11_stationary_iff (k : KE) (hw : wf k = true) : isStationary k = true ↔
    changes k = [] ∧ ∀ b ∈ bases k, b = .WN ∨ b = .C ∨ b = .SE ∨ b = .PER := by
  rw [stationary_iff k hw]
  have : ∀ b : Base, b.isStationary = true ↔ (b = .WN ∨ b = .C ∨ b = .SE ∨ b = .PER) := by
    intro b; cases b <;> simp [Base.isStationary]
  simp only [this]

/-- C11, sharpness: LIN itself has non-stationary covariances, so reporting LIN stationary would be wrong. -/
theorem C11_lin_not_stationary (cfg : Cfg) : ∃ f ∈ den (realI cfg posV) (base .LIN), ¬ Stat f := by
  refine ⟨linearOffset 1 0, ⟨1, mem_posV.2 one_pos, 0, fun _ => rfl, rfl⟩, fun h => ?_⟩
  have := h 1 0 0
  simp [linearOffset] at this

example :
    let k := comm .prod [(.PER, 2)] [comm .sum [(.SE, 1), (.C, 1)] []]
    wf k = true ∧ isStationary k = true ∧ isStationary (comm .sum [(.LIN, 1)] [k]) = false ∧
      isStationary (change .CP k k) = false := by decide

end GPyABCD
