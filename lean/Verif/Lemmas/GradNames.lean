import Verif.Lemmas.KernelTree

/-!
# Lemmas: the gradients of a kernel line up with its parameters
-/

namespace GPyABCD
namespace Kern
open Params Sops

/-- Names of values that are there together are the same. -/
theorem own_names {α β : Type} (ps : List Par) (p : PD α) (g : PD β) (h : ∀ q ∈ ps, (q.get g).isSome = (q.get p).isSome) :
    (own ps g).map Prod.fst = (own ps p).map Prod.fst := by
  induction ps with
  | nil => rfl
  | cons q qs ih =>
    have h1 := h q (by simp)
    have h2 := ih fun r hr => h r (by simp [hr])
    simp only [own] at h2 ⊢
    cases hp : q.get p with
    | none =>
      have hg : q.get g = none := by rw [hp] at h1; simpa using h1
      simpa [List.filterMap_cons, hp, hg] using h2
    | some v =>
      obtain ⟨w, hg⟩ : ∃ w, q.get g = some w := Option.isSome_iff_exists.1 (by rw [h1, hp]; rfl)
      simpa [List.filterMap_cons, hp, hg] using h2

theorem isSome_onLinked (p g : PD ℝ) (q : Par) (h : (q.get g).isSome = true) : (q.get (onLinked p g)).isSome = (q.get p).isSome := by
  have aux : ∀ x y : Option ℝ, y.isSome = true → (x.bind fun _ => y).isSome = x.isSome := by
    intro x y h; cases x <;> simp [h]
  cases q <;> exact aux _ _ h

theorem baseGrad_isSome (cfg : Cfg) {n : ℕ} (X : Fin n → ℝ) (dL : Arr n) (b : Base) (p : PD ℝ) (q : Par) (hq : q ∈ basePars cfg b) :
    (q.get (baseGrad cfg X dL b p)).isSome = (q.get p).isSome := by
  apply isSome_onLinked
  cases b <;> simp only [basePars, List.mem_cons, List.not_mem_nil, or_false] at hq
  case LIN =>
    cases hc : cfg.linOffset <;> simp only [hc, Bool.false_eq_true, if_false, if_true, List.mem_cons, List.not_mem_nil, or_false] at hq
    · subst hq; simp [Par.get, baseGrad', hc]
    · rcases hq with rfl | rfl <;> simp [Par.get, baseGrad', hc]
  case SE => rcases hq with rfl | rfl <;> rfl
  case PER => rcases hq with rfl | rfl | rfl <;> rfl
  all_goals subst hq; rfl

theorem changeGrad_isSome (cfg : Cfg) {n : ℕ} (X : Fin n → ℝ) (dL : Arr n) (c : CC) (p : PD ℝ) (q : Par) (hq : q ∈ changePars cfg c) :
    (q.get (changeGrad X dL c p)).isSome = (q.get p).isSome := by
  apply isSome_onLinked
  cases c <;> simp only [changePars] at hq <;> split at hq <;> simp only [List.mem_cons, List.not_mem_nil, or_false] at hq
  · subst hq; rfl
  · rcases hq with rfl | rfl <;> rfl
  · rcases hq with rfl | rfl <;> rfl
  · rcases hq with rfl | rfl | rfl <;> rfl

theorem under_names {α β : Type} (c : Str) {l : List (Str × α)} {m : List (Str × β)} (h : l.map Prod.fst = m.map Prod.fst) :
    (l.map (under c)).map Prod.fst = (m.map (under c)).map Prod.fst := by
  have e : ∀ {γ : Type} (l : List (Str × γ)), (l.map (under c)).map Prod.fst = (l.map Prod.fst).map (fun s => c ++ '.' :: s) := by
    intro γ l; induction l <;> simp_all [under]
  rw [e, e, h]

theorem gname_kerGrad (cfg : Cfg) {n : ℕ} (X : Fin n → ℝ) (dL : Arr n) (g : GK ℝ) : gname cfg (kerGrad cfg X dL g) = gname cfg g := by
  cases g with
  | base b p => rw [kerGrad]; rfl
  | comb op parts => cases op <;> rw [kerGrad] <;> rfl
  | change c p l r => rw [kerGrad]; rfl

mutual
theorem flat_kerGrad (cfg : Cfg) {n : ℕ} (X : Fin n → ℝ) (dL : Arr n) (g : GK ℝ) :
    (flat cfg (kerGrad cfg X dL g)).map Prod.fst = (flat cfg g).map Prod.fst := by
  match g with
  | .base b p =>
    rw [kerGrad, flat, flat]
    exact own_names _ _ _ fun q hq => baseGrad_isSome cfg X dL b p q hq
  | .comb .sum parts => rw [kerGrad, flat, flat]; exact flat_gradSum cfg X dL [] parts
  | .comb .prod parts => rw [kerGrad, flat, flat]; exact flat_gradProd cfg X dL [] parts
  | .change c p l r =>
    rw [kerGrad, flat, flat]
    simp only [List.map_append, gname_kerGrad]
    congr 1
    · congr 1
      · exact under_names _ (flat_kerGrad cfg X _ l)
      · exact under_names _ (flat_kerGrad cfg X _ r)
    · exact own_names _ _ _ fun q hq => changeGrad_isSome cfg X _ c p q hq
theorem flat_gradSum (cfg : Cfg) {n : ℕ} (X : Fin n → ℝ) (dL : Arr n) (seen : List Str) (ks : List (GK ℝ)) :
    (flatL cfg seen (gradSum cfg X dL ks)).map Prod.fst = (flatL cfg seen ks).map Prod.fst := by
  match ks with
  | [] => rw [gradSum]
  | k :: ks =>
    rw [gradSum, flatL, flatL, gname_kerGrad, List.map_append, List.map_append, under_names _ (flat_kerGrad cfg X dL k),
      flat_gradSum cfg X dL _ ks]
theorem flat_gradProd (cfg : Cfg) {n : ℕ} (X : Fin n → ℝ) (dL : Arr n) (seen : List Str) (ks : List (GK ℝ)) :
    (flatL cfg seen (gradProd cfg X dL ks)).map Prod.fst = (flatL cfg seen ks).map Prod.fst := by
  match ks with
  | [] => rw [gradProd]
  | k :: ks =>
    rw [gradProd, flatL, flatL, gname_kerGrad, List.map_append, List.map_append, under_names _ (flat_kerGrad cfg X _ k),
      flat_gradProd cfg X _ _ ks]
end

end Kern
end GPyABCD
