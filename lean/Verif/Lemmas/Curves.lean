import Verif.Lemmas.SemSame
import Verif.Lemmas.ExpandSame
import Verif.Lemmas.RealSem
import Verif.Props.Ops

/-!
# Nodes of fully simplified expressions, and `higher_curves` on them
-/

namespace GPyABCD
open scoped Pointwise
open KE Kern

theorem normal_child {cfg : Cfg} {o : Op} {b : Counter} {c : List KE} (h : normal cfg (comm o b c) = true) :
    b.WF ∧ b.Pos ∧ canonNode cfg (comm o b c) = true ∧
      ∀ k ∈ c, k.isBase = false ∧ normal cfg k = true ∧ isSingleton k = false ∧ isComm o k = false := by
  obtain ⟨hw, hc, hs, ha⟩ := normal_iff.1 h
  have hw' := wf_comm.1 hw
  simp only [allNodes, Bool.and_eq_true, allNodesL_iff] at hc
  simp only [allBelow, allNodesL_iff] at hs
  simp only [alternating, allNodes, Bool.and_eq_true, allNodesL_iff] at ha
  refine ⟨hw'.1, hw'.2.1, hc.1, fun k hk => ?_⟩
  have h1 := hs k hk
  have h2 : allBelow (fun n => !n.isSingleton) k = true ∧ isSingleton k = false := by
    cases k <;> simp_all [allNodes, allBelow, isSingleton]
  have h3 := ha.1
  simp only [altNode, List.all_eq_true] at h3
  exact ⟨(hw'.2.2 k hk).1, normal_iff.2 ⟨(hw'.2.2 k hk).2, hc.2 k hk, h2.1, ha.2 k hk⟩, h2.2, by simpa using h3 k hk⟩

theorem simplify_children {cfg : Cfg} {c : List KE} (h : ∀ k ∈ c, normal cfg k = true) : c.map (simplify cfg) = c := by
  conv_rhs => rw [← List.map_id c]
  exact List.map_congr_left (fun k hk => simplify_of_normal (h k hk))

theorem simplify_comm {cfg : Cfg} {o : Op} {b : Counter} {c : List KE} (hb : b.WF) (pb : b.Pos)
    (h : ∀ k ∈ c, k.isBase = false ∧ normal cfg k = true ∧ isSingleton k = false ∧ isComm o k = false)
    (hc : canonNode cfg (comm o b c) = true) : simplify cfg (comm o b c) = comm o b c := by
  rw [simplify, simplifyL_eq, simplify_children (fun k hk => (h k hk).2.1)]
  exact absorb_normal hb pb (fun k hk => ⟨(h k hk).1, (normal_iff.1 (h k hk).2.1).1⟩) (fun k hk => (h k hk).2.2.1) (fun k hk => (h k hk).2.2.2) hc

theorem elements_del {b : Counter} : (b.del .SE).elements = b.elements.filter (fun x => decide (x ≠ .SE)) := by
  induction b with
  | nil => rfl
  | cons p b ih =>
    simp only [Counter.del, Counter.elements, List.flatMap_cons, List.filter_append] at ih ⊢
    by_cases h : p.1 = Base.SE
    · rw [List.filter_cons_of_neg (by simp [h]), ih]; simp [h]
    · rw [List.filter_cons_of_pos (by simp [h]), List.flatMap_cons, ih]; simp [h]

/-- Adding LIN or PER to the base terms of a simplified product with SE: nothing else changes. -/
theorem mkC_curve {cfg : Cfg} {b : Counter} {c : List KE} (h : normal cfg (comm .prod b c) = true) (hSE : 0 < b.get .SE) {x : Base} {n : Int} (hn : 0 < n)
    (hx : x = .LIN ∨ x = .PER) : mkC cfg .prod (b.add [(x, n)]) c = comm .prod (b.add [(x, n)]) c := by
  obtain ⟨wb, pb, hc, hch⟩ := normal_child h
  have h0 := pb.nonneg
  have hwx : Counter.WF [(x, n)] := by simp [Counter.WF]
  have hget : ∀ y, (b.add [(x, n)]).get y = b.get y + if x = y then n else 0 := by
    intro y; rw [Counter.get_add wb hwx]; simp only [Counter.get]
    have := h0 y
    split_ifs <;> omega
  refine simplify_comm (Counter.wf_add wb hwx) (Counter.pos_add b [(x, n)]) hch ?_
  have hW := h0 .WN
  simp only [canonNode, hget, Bool.and_eq_true, decide_eq_true_eq] at hc ⊢
  by_cases hw : 0 < b.get .WN
  · rw [if_pos hw] at hc; simp only [Bool.and_eq_true, decide_eq_true_eq] at hc; omega
  · rw [if_neg hw] at hc
    simp only [Bool.and_eq_true, Bool.or_eq_true, decide_eq_true_eq] at hc
    have hC : b.get .C = 0 := by omega
    have e1 : ¬ (0 < b.get .WN + if x = .WN then n else 0) := by
      rcases hx with rfl | rfl <;> simp <;> omega
    rw [if_neg e1]
    simp only [Bool.and_eq_true, Bool.or_eq_true, decide_eq_true_eq]
    rcases hx with rfl | rfl <;> simp <;> omega

/-- Adding a quadratic or cubic to a simplified sum: nothing else changes. -/
theorem mkC_curve_sum {cfg : Cfg} {b : Counter} {c : List KE} (h : normal cfg (comm .sum b c) = true) {n : Int} (hn : n = 2 ∨ n = 3) :
    mkC cfg .sum b (c ++ [comm .prod [(.LIN, n)] []]) = comm .sum b (c ++ [comm .prod [(.LIN, n)] []]) := by
  obtain ⟨wb, pb, hc, hch⟩ := normal_child h
  refine simplify_comm wb pb ?_ hc
  intro k hk
  rcases List.mem_append.1 hk with hk | hk
  · exact hch k hk
  · simp only [List.mem_singleton] at hk; subst hk
    rcases hn with rfl | rfl <;> exact ⟨rfl, by rfl, by decide, rfl⟩

end GPyABCD
