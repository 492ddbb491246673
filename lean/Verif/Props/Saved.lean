import Verif.Model.Saved

/-!
# C114: what saved kernels still say

The documentation of `to_dict` promises a "json serializable dictionary containing the needed information to instantiate the object".
-/

namespace GPyABCD
open Saved Params Sops Kern

/-- Same covariance matrix at all inputs. -/
def SameK (cfg : Cfg) (k k' : GK ℝ) : Prop := ∀ (n : ℕ) (X : Fin n → ℝ), kerK cfg X k = kerK cfg X k'

mutual
/-- Without change operators. -/
def plain : GK ℝ → Bool
  | .base _ _ => true
  | .comb _ parts => plainL parts
  | .change _ _ _ _ => false
/-- Over a list. -/
def plainL : List (GK ℝ) → Bool
  | [] => true
  | k :: ks => plain k && plainL ks
end

mutual
/-- The base kernels in a kernel. -/
def kerLeaves : GK ℝ → List Base
  | .base b _ => [b]
  | .comb _ parts => kerLeavesL parts
  | .change _ _ l r => kerLeaves l ++ kerLeaves r
/-- Over a list. -/
def kerLeavesL : List (GK ℝ) → List Base
  | [] => []
  | k :: ks => kerLeaves k ++ kerLeavesL ks
end

mutual
/-- `json.dumps` takes it: no parameter objects among the values. -/
def jsonable : SD → Prop
  | .mk _ _ fields parts => (∀ f ∈ fields, ∀ v, f.2 ≠ .param v) ∧ jsonableL parts
/-- Over a list. -/
def jsonableL : List SD → Prop
  | [] => True
  | d :: ds => jsonable d ∧ jsonableL ds
end

mutual
/-- C114. `to_dict` succeeds for exactly the kernels without sigmoids among their base kernels. -/
theorem C114_succeeds (cfg : Cfg) : ∀ k : GK ℝ, (∃ d, saved cfg k = some d) ↔ ∀ b ∈ kerLeaves k, b ∈ [Base.WN, .C, .LIN, .SE, .PER]
  | .base b p => by
    cases b <;> simp [saved, savedBase, kerLeaves]
    split_ifs <;> simp
  | .comb op parts => by
    have := succeedsL cfg parts
    rw [kerLeaves, ← this]
    simp [saved]
  | .change c p l r => by
    have h1 := C114_succeeds cfg l
    have h2 := C114_succeeds cfg r
    simp only [kerLeaves, List.mem_append, or_imp, forall_and, ← h1, ← h2, saved]
    cases saved cfg l <;> cases saved cfg r <;> simp
private theorem succeedsL (cfg : Cfg) : ∀ ks : List (GK ℝ), (∃ d, savedL cfg ks = some d) ↔ ∀ b ∈ kerLeavesL ks, b ∈ [Base.WN, .C, .LIN, .SE, .PER]
  | [] => by simp [savedL, kerLeavesL]
  | k :: ks => by
    have h1 := C114_succeeds cfg k
    have h2 := succeedsL cfg ks
    simp only [kerLeavesL, List.mem_append, or_imp, forall_and, ← h1, ← h2, savedL]
    cases saved cfg k <;> cases savedL cfg ks <;> simp
end

mutual
private theorem determines (cfg : Cfg) : ∀ (k k' : GK ℝ) (d : SD), plain k = true → saved cfg k = some d → saved cfg k' = some d → SameK cfg k k'
  | .base b p, .base b' p', d, _, h, h' => by
    rw [saved] at h h'
    intro n X
    have hs : savedBase cfg b p = savedBase cfg b' p' := h.trans h'.symm
    have hn : savedBase cfg b p ≠ none := by simp [h]
    clear h h'
    cases hc : cfg.linOffset <;> cases b <;> cases b' <;> simp [savedBase, hc] at hs hn <;> simp [kerK, baseK, hc, hs]
  | .base b p, .comb op' ps, d, _, h, h' => by
    simp only [saved, Option.map_eq_some_iff] at h h'
    obtain ⟨ds, _, rfl⟩ := h'
    cases b <;> simp only [savedBase] at h <;> (try split_ifs at h) <;> cases op' <;> simp [combClass] at h
  | .base b p, .change c q l r, d, _, h, h' => by
    simp only [saved, Option.bind_eq_bind, Option.bind_eq_some_iff, Option.pure_def, Option.some.injEq] at h h'
    obtain ⟨x, _, y, _, rfl⟩ := h'
    cases b <;> simp only [savedBase] at h <;> (try split_ifs at h) <;> simp at h
  | .comb op ps, .base b p, d, _, h, h' => by
    simp only [saved, Option.map_eq_some_iff] at h h'
    obtain ⟨ds, _, rfl⟩ := h
    cases b <;> simp only [savedBase] at h' <;> (try split_ifs at h') <;> cases op <;> simp [combClass] at h'
  | .comb op ps, .comb op' ps', d, hp, h, h' => by
    simp only [saved, Option.map_eq_some_iff] at h h'
    obtain ⟨ds, e, rfl⟩ := h
    obtain ⟨ds', e', q⟩ := h'
    simp only [SD.mk.injEq] at q
    obtain ⟨q1, _, _, rfl⟩ := q
    rw [plain] at hp
    intro n X
    have := determinesL cfg ps ps' ds' hp e e' n X
    cases op <;> cases op' <;> simp [combClass] at q1 <;> simp only [kerK, this]
  | .comb op ps, .change c q l r, d, _, h, h' => by
    simp only [saved, Option.map_eq_some_iff, Option.bind_eq_bind, Option.bind_eq_some_iff, Option.pure_def, Option.some.injEq] at h h'
    obtain ⟨ds, _, rfl⟩ := h
    obtain ⟨x, _, y, _, q⟩ := h'
    cases op <;> simp [combClass] at q
  | .change .., _, _, h, _, _ => by simp [plain] at h
private theorem determinesL (cfg : Cfg) : ∀ (ks ks' : List (GK ℝ)) (ds : List SD), plainL ks = true → savedL cfg ks = some ds → savedL cfg ks' = some ds →
    ∀ (n : ℕ) (X : Fin n → ℝ), kerSum cfg X ks = kerSum cfg X ks' ∧ kerProd cfg X ks = kerProd cfg X ks'
  | [], [], _, _, _, _, _, _ => ⟨rfl, rfl⟩
  | [], k :: ks, ds, _, h, h', _, _ => by
    simp only [savedL, Option.bind_eq_bind, Option.bind_eq_some_iff, Option.pure_def, Option.some.injEq] at h h'
    obtain ⟨x, _, y, _, rfl⟩ := h'
    cases h
  | k :: ks, [], ds, _, h, h', _, _ => by
    simp only [savedL, Option.bind_eq_bind, Option.bind_eq_some_iff, Option.pure_def, Option.some.injEq] at h h'
    obtain ⟨x, _, y, _, rfl⟩ := h
    cases h'
  | k :: ks, k' :: ks', ds, hp, h, h', n, X => by
    simp only [savedL, Option.bind_eq_bind, Option.bind_eq_some_iff, Option.pure_def, Option.some.injEq] at h h'
    obtain ⟨x, ex, y, ey, rfl⟩ := h
    obtain ⟨x', ex', y', ey', q⟩ := h'
    simp only [List.cons.injEq] at q
    obtain ⟨rfl, rfl⟩ := q
    simp only [plainL, Bool.and_eq_true] at hp
    have a := determines cfg k k' _ hp.1 ex ex' n X
    have b := determinesL cfg ks ks' _ hp.2 ey ey' n X
    simp only [kerSum, kerProd, a, b, and_self]
end

/-- C114. Without change operators the dictionary has all that is needed: there is a way to read dictionaries that restores the covariance of
every such kernel. -/
theorem C114_restores_partial (cfg : Cfg) : ∃ load : SD → GK ℝ, ∀ k d, plain k = true → saved cfg k = some d → SameK cfg (load d) k := by
  classical
  refine ⟨fun d => if h : ∃ k, plain k = true ∧ saved cfg k = some d then h.choose else default, fun k d hp hd => ?_⟩
  have h : ∃ k, plain k = true ∧ saved cfg k = some d := ⟨k, hp, hd⟩
  simp only [h, dite_true]
  exact determines cfg _ _ d h.choose_spec.1 h.choose_spec.2 hd

/-- C114. A change kernel saves neither location nor slope nor width, so that all change kernels with the same branches save the same. -/
theorem C114_change_forgets (cfg : Cfg) (c : CC) (p q : PD ℝ) (l r : GK ℝ) : saved cfg (.change c p l r) = saved cfg (.change c q l r) := by
  simp only [saved]

/-- C114. So no way to read dictionaries restores the covariances of change kernels, not even of one change point between two constants. -/
theorem C114_change_lost (cfg : Cfg) : ¬ ∃ load : SD → GK ℝ, ∀ (x : ℝ) d, saved cfg (.change .CP { location := some x } (.base .C { variance := some 1 })
    (.base .C { variance := some 1 })) = some d →
    SameK cfg (load d) (.change .CP { location := some x } (.base .C { variance := some 1 }) (.base .C { variance := some 1 })) := by
  rintro ⟨load, h⟩
  have a := congrFun (congrFun (h 0 _ rfl 1 (fun _ => 0)) 0) 0
  have b := congrFun (congrFun (h 1 _ rfl 1 (fun _ => 0)) 0) 0
  rw [a] at b
  simp only [kerK, baseK, Arr.add, Arr.mul, matK, bias, varOf, changeSig, basisK, changePhi, phiS, sigmoid, Option.getD] at b
  norm_num [abs_of_neg] at b

mutual
/-- C114. The dictionary can be written as JSON unless there is a linear kernel with an offset, whose offset is saved as the parameter object. -/
theorem C114_json_iff (cfg : Cfg) : ∀ (k : GK ℝ) (d : SD), saved cfg k = some d → (jsonable d ↔ ¬ (cfg.linOffset = true ∧ Base.LIN ∈ kerLeaves k))
  | .base b p, d, h => by
    rw [saved] at h
    cases b <;> simp only [savedBase, reduceCtorEq] at h <;> (try split_ifs at h) <;> simp only [Option.some.injEq] at h <;> subst h <;>
      simp_all [jsonable, jsonableL, kerLeaves]
  | .comb op ps, d, h => by
    simp only [saved, Option.map_eq_some_iff] at h
    obtain ⟨ds, e, rfl⟩ := h
    rw [jsonable, kerLeaves, ← jsonL cfg ps ds e]
    simp
  | .change c p l r, d, h => by
    simp only [saved, Option.bind_eq_bind, Option.bind_eq_some_iff, Option.pure_def, Option.some.injEq] at h
    obtain ⟨x, ex, y, ey, rfl⟩ := h
    simp only [jsonable, jsonableL, kerLeaves, List.mem_append, C114_json_iff cfg l x ex, C114_json_iff cfg r y ey, List.not_mem_nil, false_imp_iff,
      implies_true, true_and, and_true]
    tauto
private theorem jsonL (cfg : Cfg) : ∀ (ks : List (GK ℝ)) (ds : List SD), savedL cfg ks = some ds →
    (jsonableL ds ↔ ¬ (cfg.linOffset = true ∧ Base.LIN ∈ kerLeavesL ks))
  | [], ds, h => by simp only [savedL, Option.some.injEq] at h; subst h; simp [jsonableL, kerLeavesL]
  | k :: ks, ds, h => by
    simp only [savedL, Option.bind_eq_bind, Option.bind_eq_some_iff, Option.pure_def, Option.some.injEq] at h
    obtain ⟨x, ex, y, ey, rfl⟩ := h
    simp only [jsonableL, kerLeavesL, List.mem_append, C114_json_iff cfg k x ex, jsonL cfg ks y ey]
    tauto
end

/-- C114. The linear kernels read back what they save. -/
theorem C114_linear_restored (cfg : Cfg) (p : PD ℝ) : ∃ d k, saved cfg (.base .LIN p) = some d ∧ buildLin cfg d = some k ∧ SameK cfg k (.base .LIN p) := by
  by_cases h : cfg.linOffset = true
  · refine ⟨_, .base .LIN { variance := some (varOf p), offset := some (p.offset.getD 0) }, by rw [saved]; simp only [savedBase, h, if_true]; rfl, ?_, ?_⟩
    · simp [buildLin, h, number, List.lookup]
    · intro n X; simp [kerK, baseK, h, varOf]
  · refine ⟨_, .base .LIN { variance := some (varOf p) }, by rw [saved]; simp only [savedBase, h]; rfl, ?_, ?_⟩
    · simp [buildLin, h, number, List.lookup]
    · intro n X; simp [kerK, baseK, h, varOf]

-- PER * LIN + WN is saved and restored but not JSON
example : let k : GK ℝ := .comb .sum [.comb .prod [.base .PER { variance := some 2, period := some 3, lengthscale := some 1 },
      .base .LIN { offset := some 4 }], .base .WN { variance := some 1 }]
    plain k = true ∧ ∃ d, saved .default k = some d ∧ ¬ jsonable d := by
  intro k
  obtain ⟨d, hd⟩ := (C114_succeeds .default k).2 (by simp [k, kerLeaves, kerLeavesL])
  exact ⟨rfl, d, hd, fun h => (C114_json_iff .default k d hd).1 h ⟨rfl, by simp [k, kerLeaves, kerLeavesL]⟩⟩

end GPyABCD
