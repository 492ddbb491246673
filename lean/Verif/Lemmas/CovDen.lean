import Verif.Lemmas.Cov
import Verif.Lemmas.Stationary

/-! Covariances of expressions are positive semidefinite if those of their base kernels are. -/

namespace GPyABCD
open scoped Pointwise
open KE Kern

theorem isCov_opFold {op : Op} {l : List Fam} (h : ∀ A ∈ l, ∀ f ∈ A, IsCov f) : ∀ f ∈ opFold op l, IsCov f := by
  induction l with
  | nil =>
    cases op
    · simp only [opFold, List.sum_nil, Set.mem_zero]; rintro f rfl; exact IsCov.zero
    · simp only [opFold, List.prod_nil, Set.mem_one]; rintro f rfl
      have := IsCov.outer fun _ => 1
      simp only [mul_one] at this
      exact this
  | cons A l ih =>
    have ih := ih (fun B hB => h B (List.mem_cons_of_mem _ hB))
    have hA := h A (List.mem_cons_self ..)
    cases op
    · simp only [opFold, List.sum_cons] at ih ⊢
      rintro f hf
      obtain ⟨a, ha, b, hb, rfl⟩ := Set.mem_add.1 hf
      exact (hA a ha).add (ih b hb)
    · simp only [opFold, List.prod_cons] at ih ⊢
      rintro f hf
      obtain ⟨a, ha, b, hb, rfl⟩ := Set.mem_mul.1 hf
      exact (hA a ha).mul (ih b hb)

theorem isCov_base {cfg : Cfg} {V : Set ℝ} (hV : ∀ v ∈ V, 0 ≤ v) {b : Base} (hb : b ≠ .PER) :
    ∀ f ∈ (realI cfg V).F b, IsCov f := by
  cases b with
  | WN => rintro f ⟨v, h, rfl⟩; exact isCov_white (hV v h)
  | C => rintro f ⟨v, h, rfl⟩; exact isCov_bias (hV v h)
  | LIN => rintro f ⟨v, h, o, _, rfl⟩; exact isCov_linearOffset (hV v h) o
  | SE => rintro f ⟨v, h, l, _, rfl⟩; exact isCov_rbf (hV v h) l
  | PER => exact absurd rfl hb
  | S => rintro f ⟨v, h, l, s, _, _, rfl⟩; exact isCov_basisK (hV v h) _
  | Sr => rintro f ⟨v, h, l, s, _, _, rfl⟩; exact isCov_basisK (hV v h) _
  | SI => rintro f ⟨v, h, l, s, w, _, _, _, rfl⟩; exact isCov_basisK (hV v h) _
  | SIr => rintro f ⟨v, h, l, s, w, _, _, _, rfl⟩; exact isCov_basisK (hV v h) _

mutual
theorem isCov_den {cfg : Cfg} {I : Interp} (hc : I.chg = chgFam cfg) (k : KE)
    (hb : ∀ b ∈ bases k, ∀ f ∈ I.F b, IsCov f) : ∀ f ∈ den I k, IsCov f := by
  cases k with
  | base b => exact hb b (by simp [bases])
  | comm o c cs =>
    rw [den]
    refine isCov_opFold fun A hA => ?_
    rcases List.mem_append.1 hA with h | h
    · obtain ⟨b, hbm, rfl⟩ := List.mem_map.1 h
      exact hb b (by simp [bases, hbm])
    · exact isCov_denL hc cs (fun b h => hb b (by simp [bases, h])) A h
  | change c l r =>
    rw [den, hc]
    rintro f ⟨a, ha, b, hb', p, _, rfl⟩
    exact isCov_changeK (isCov_den hc l (fun b h => hb b (by simp [bases, h])) a ha)
      (isCov_den hc r (fun b h => hb b (by simp [bases, h])) b hb') _ _
theorem isCov_denL {cfg : Cfg} {I : Interp} (hc : I.chg = chgFam cfg) (ks : List KE)
    (hb : ∀ b ∈ basesL ks, ∀ f ∈ I.F b, IsCov f) : ∀ A ∈ denL I ks, ∀ f ∈ A, IsCov f := by
  cases ks with
  | nil => simp [denL]
  | cons k ks =>
    intro A hA
    rw [denL, List.mem_cons] at hA
    rcases hA with rfl | hA
    · exact isCov_den hc k (fun b h => hb b (by simp [basesL, h]))
    · exact isCov_denL hc ks (fun b h => hb b (by simp [basesL, h])) A hA
end

end GPyABCD
