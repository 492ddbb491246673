import Verif.Lemmas.ParamsMain
import Mathlib.Tactic.Ring
import Mathlib.Algebra.BigOperators.Ring.List

/-!
# Covariances of matched expressions, and stable expressions
-/

namespace GPyABCD
namespace Params
open Sops KE

variable {α : Type}

section
variable {R : Type} [CommRing R] (φ : α → R) (shape : Base → PD α → R)

theorem gsum_append (xs ys : List (GK α)) : gsum φ shape (xs ++ ys) = gsum φ shape xs + gsum φ shape ys := by
  induction xs with
  | nil => simp [gsum]
  | cons x xs ih => simp only [List.cons_append, gsum, ih]; ring

theorem gval_sum (g : GK α) : gval φ shape g = gsum φ shape (partsOf .sum g) := by
  cases g with
  | base => simp [partsOf, gsum]
  | change => simp [partsOf, gsum]
  | comb op ps =>
    cases op with
    | sum => simp [partsOf, gval]
    | prod => simp [partsOf, gsum]

theorem gval_prod (g : GK α) : gval φ shape g = gprod φ shape (partsOf .prod g) := by
  cases g with
  | base => simp [partsOf, gprod]
  | change => simp [partsOf, gprod]
  | comb op ps =>
    cases op with
    | sum => simp [partsOf, gprod]
    | prod => simp [partsOf, gval]

theorem gsum_split (parts : List (GK α)) :
    gsum φ shape parts = ((bparts parts).map (fun x => termVal φ shape x.1 x.2)).sum + gsum φ shape (composites parts) := by
  induction parts with
  | nil => simp [gsum, bparts, composites]
  | cons x parts ih =>
    cases x with
    | base b p => rw [gsum, bparts, composites, ih, List.map_cons, List.sum_cons, gval]; ring
    | comb o ps => rw [gsum, ih, bparts, composites, gsum] <;> first | ring | simp
    | change c p l r => rw [gsum, ih, bparts, composites, gsum] <;> first | ring | simp

theorem gprod_split (parts : List (GK α)) :
    gprod φ shape parts = ((bparts parts).map (fun x => termVal φ shape x.1 x.2)).prod * gprod φ shape (composites parts) := by
  induction parts with
  | nil => simp [gprod, bparts, composites]
  | cons x parts ih =>
    cases x with
    | base b p => rw [gprod, bparts, composites, ih, List.map_cons, List.prod_cons, gval]; ring
    | comb o ps => rw [gprod, ih, bparts, composites, gprod] <;> first | ring | simp
    | change c p l r => rw [gprod, ih, bparts, composites, gprod] <;> first | ring | simp

theorem dict_get {ps : PDict α} (hn : (ps.map (fun e => e.1)).Nodup) {e : Base × List (PD α)} (he : e ∈ ps) : ps.get e.1 = e.2 := by
  induction ps with
  | nil => simp at he
  | cons x ps ih =>
    obtain ⟨b, l⟩ := x
    simp only [List.map_cons, List.nodup_cons] at hn
    rw [PDict.get]
    rcases List.mem_cons.1 he with rfl | hm
    · rw [if_pos rfl]
    · rw [if_neg (by rintro rfl; exact hn.1 (List.mem_map.2 ⟨e, hm, rfl⟩)), ih hn.2 hm]

/-- The entries of a dictionary, flattened. -/
theorem flat_dict {ps : PDict α} (hn : (ps.map (fun e => e.1)).Nodup) {parts : List (GK α)} {F : PD α → PD α}
    (hg : ∀ b, ps.get b = (dictsOf b parts).map F) :
    (ps.flatMap (fun e => e.2.map (fun p => (e.1, p)))).Perm ((bparts parts).map (fun x => (x.1, F x.2))) := by
  have h1 := (grouped (ps.map (fun e => e.1)) hn parts (by
    intro b hb
    by_contra h
    have := hg b
    rw [get_new h] at this
    exact hb (List.map_eq_nil_iff.1 this.symm))).map (fun x => (x.1, F x.2))
  refine List.Perm.trans (List.Perm.of_eq ?_) h1
  rw [List.map_flatMap, List.flatMap_map]
  refine List.flatMap_congr ?_
  intro e he
  have : e.2 = (dictsOf e.1 parts).map F := by rw [← hg e.1, dict_get hn he]
  rw [this, List.map_map, List.map_map]; rfl

theorem sum_flat (ps : PDict α) (f : Base → PD α → R) :
    (ps.map (fun e => (e.2.map (f e.1)).sum)).sum = ((ps.flatMap (fun e => e.2.map (fun p => (e.1, p)))).map (fun x => f x.1 x.2)).sum := by
  induction ps with
  | nil => rfl
  | cons e ps ih => simp only [List.map_cons, List.sum_cons, List.flatMap_cons, List.map_append, List.sum_append, ih, List.map_map]; rfl

theorem prod_flat (ps : PDict α) (f : Base → PD α → R) :
    (ps.map (fun e => (e.2.map (f e.1)).prod)).prod = ((ps.flatMap (fun e => e.2.map (fun p => (e.1, p)))).map (fun x => f x.1 x.2)).prod := by
  induction ps with
  | nil => rfl
  | cons e ps ih => simp only [List.map_cons, List.prod_cons, List.flatMap_cons, List.map_append, List.prod_append, ih, List.map_map]; rfl

theorem var_prod (l : List (Base × PD α)) :
    (l.map (fun x => termVal φ shape x.1 x.2)).prod = ((l.filterMap (fun x => x.2.variance)).map φ).prod * (l.map (fun x => termVal φ shape x.1 x.2.noVar)).prod := by
  induction l with
  | nil => simp
  | cons x l ih =>
    have e : termVal φ shape x.1 x.2 = varVal φ x.2.variance * termVal φ shape x.1 x.2.noVar := by
      simp [termVal, varVal, PD.noVar]
    rw [List.map_cons, List.prod_cons, List.map_cons, List.prod_cons, ih, e, List.filterMap_cons]
    cases h : x.2.variance with
    | none => simp only [varVal, Option.map_none, Option.getD_none]; ring
    | some v => simp only [varVal, Option.map_some, Option.getD_some, List.map_cons, List.prod_cons]; ring

mutual
theorem eval_carries (f : PKE α) (g : GK α) (h : Carries f g) : eval φ shape f = gval φ shape g := by
  cases f with
  | leaf b p => rw [Carries] at h; subst h; rw [eval, gval]
  | change c p l r =>
    rw [Carries] at h
    obtain ⟨a, b, rfl, h1, h2⟩ := h
    rw [eval, gval, eval_carries l a h1, eval_carries r b h2]
  | comm op b ps pv cts =>
    cases op with
    | sum =>
      rw [Carries] at h
      obtain ⟨h1, h2, _, h4⟩ := h
      rw [eval, gval_sum, gsum_split, evalSum_carries cts _ h4, sum_flat,
        ((flat_dict (F := id) h1 (by simpa using h2)).map _).sum_eq, List.map_map]
      rfl
    | prod =>
      rw [Carries] at h
      obtain ⟨h1, h2, h3, h4⟩ := h
      rw [eval, gval_prod, gprod_split, evalProd_carries cts _ h4, prod_flat, ((flat_dict h1 h2).map _).prod_eq, var_prod φ shape (bparts _), ← variances_eq, ← h3,
        List.map_map]
      congr 2
      cases pv <;> simp [varVal]
theorem evalSum_carries (fs : List (PKE α)) (gs : List (GK α)) (h : CarriesL fs gs) : evalSum φ shape fs = gsum φ shape gs := by
  cases fs with
  | nil => rw [CarriesL] at h; subst h; rw [evalSum, gsum]
  | cons f fs =>
    rw [CarriesL] at h
    obtain ⟨g, r, rfl, h1, h2⟩ := h
    rw [evalSum, gsum, eval_carries f g h1, evalSum_carries fs r h2]
theorem evalProd_carries (fs : List (PKE α)) (gs : List (GK α)) (h : CarriesL fs gs) : evalProd φ shape fs = gprod φ shape gs := by
  cases fs with
  | nil => rw [CarriesL] at h; subst h; rw [evalProd, gprod]
  | cons f fs =>
    rw [CarriesL] at h
    obtain ⟨g, r, rfl, h1, h2⟩ := h
    rw [evalProd, gprod, eval_carries f g h1, evalProd_carries fs r h2]
end
end

/-! ## Stable expressions -/

theorem forall2_mem {xs ys : List KE} (h : List.Forall₂ Same xs ys) {y : KE} (hy : y ∈ ys) : ∃ x ∈ xs, Same x y := by
  induction h with
  | nil => simp at hy
  | cons h1 _ ih =>
    rcases List.mem_cons.1 hy with rfl | hy
    · exact ⟨_, List.mem_cons_self .., h1⟩
    · obtain ⟨x, hx, hs⟩ := ih hy; exact ⟨x, List.mem_cons_of_mem _ hx, hs⟩

theorem allNodes_same {P : KE → Bool} (hP : ∀ a b, wf a = true → wf b = true → Same a b → P a = true → P b = true) (a : KE) :
    ∀ b, wf a = true → wf b = true → Same a b → allNodes P a = true → allNodes P b = true := by
  induction a using KE.ind with
  | base x => intro b _ _ h ha; cases h; exact ha
  | change c l r hl hr =>
    intro b ha hb h hn
    have h0 := h
    cases h with
    | change h1 h2 =>
      have wa := wf_change.1 ha
      have wb := wf_change.1 hb
      simp only [allNodes, Bool.and_eq_true] at hn ⊢
      exact ⟨⟨hP _ _ ha hb h0 hn.1.1, hl _ wa.1 wb.1 h1 hn.1.2⟩, hr _ wa.2 wb.2 h2 hn.2⟩
  | comm o c cs ih =>
    intro b ha hb h hn
    have h0 := h
    cases h with
    | @comm _ _ c' _ ds cs' hc hf hp =>
      have wa := wf_comm.1 ha
      have wb := wf_comm.1 hb
      simp only [allNodes, Bool.and_eq_true, allNodesL_iff] at hn ⊢
      refine ⟨hP _ _ ha hb h0 hn.1, ?_⟩
      intro y hy
      obtain ⟨x, hx, hs⟩ := forall2_mem hf (hp.symm.subset hy)
      exact ih x hx y (wa.2.2 x hx).2 (wb.2.2 y hy).2 hs (hn.2 x hx)

theorem allBelow_same {P : KE → Bool} (hP : ∀ a b, wf a = true → wf b = true → Same a b → P a = true → P b = true) {a b : KE}
    (ha : wf a = true) (hb : wf b = true) (h : Same a b) (hn : allBelow P a = true) : allBelow P b = true := by
  cases h with
  | base => exact hn
  | change h1 h2 =>
    have wa := wf_change.1 ha
    have wb := wf_change.1 hb
    simp only [allBelow, Bool.and_eq_true] at hn ⊢
    exact ⟨allNodes_same hP _ _ wa.1 wb.1 h1 hn.1, allNodes_same hP _ _ wa.2 wb.2 h2 hn.2⟩
  | comm hc hf hp =>
    have wa := wf_comm.1 ha
    have wb := wf_comm.1 hb
    simp only [allBelow, allNodesL_iff] at hn ⊢
    intro y hy
    obtain ⟨x, hx, hs⟩ := forall2_mem hf (hp.symm.subset hy)
    exact allNodes_same hP x y (wa.2.2 x hx).2 (wb.2.2 y hy).2 hs (hn x hx)

theorem singleton_same (a b : KE) (ha : wf a = true) (hb : wf b = true) (h : Same a b) (hn : (!a.isSingleton) = true) : (!b.isSingleton) = true := by
  cases h with
  | base => rfl
  | change => rfl
  | comm hc hf hp =>
    have wa := wf_comm.1 ha
    have wb := wf_comm.1 hb
    simp only [isSingleton, Bool.not_eq_true', decide_eq_false_iff_not] at hn ⊢
    rwa [← (Counter.elements_perm wa.1 wb.1 hc).length_eq, ← hp.length_eq, ← hf.length_eq]

theorem canon_same (cfg : Cfg) (a b : KE) (_ : wf a = true) (_ : wf b = true) (h : Same a b) (hn : canonNode cfg a = true) : canonNode cfg b = true := by
  cases h with
  | base => rfl
  | change => rfl
  | @comm o c c' cs ds cs' hc hf hp =>
    have : cs.isEmpty = cs'.isEmpty := by
      have := hf.length_eq.trans hp.length_eq
      cases cs <;> cases cs' <;> simp_all
    cases o with
    | sum => simpa only [canonNode, hc] using hn
    | prod => simpa only [canonNode, hc, this] using hn

/-- What simplification leaves as it is can be matched. -/
theorem stable_matchable {cfg : Cfg} {k : KE} (hw : wf k = true) (he : noEmpty k = true) (hs : ∀ x ∈ bases k, x.isSigmoid = false)
    (h : keq (simplify cfg k) k = true) : Matchable k ∧ allNodes (canonNode cfg) k = true := by
  have hS := (keq_iff _ _).1 h
  have hw' := wf_simplify cfg k hw
  refine ⟨⟨hw, he, allBelow_same singleton_same hw' hw hS (allBelow_simplify cfg k hw), ?_, hs⟩,
    allNodes_same (canon_same cfg) _ _ hw' hw hS (canon_simplify cfg k hw)⟩
  by_contra ha
  have h1 := nodes_simplify_lt cfg k hw (by simpa using ha)
  have h2 := nodes_same hS
  omega

end Params
end GPyABCD
